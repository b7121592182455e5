import Verif.Deque.Model
import Mathlib.Data.Nat.ModEq
import Mathlib.Tactic.Ring

namespace Geomc.Deque

open scoped Classical

variable {α : Type} {N : ℕ}

theorem pos_or_zero (n : ℕ) : 0 < n ∨ (n = 0 ∧ (0 : ℕ) = 0) := by
  rcases Nat.eq_zero_or_pos n with h | h
  · exact Or.inr ⟨h, rfl⟩
  · exact Or.inl h

/-- Representation invariant: deque `d` stores exactly the list `L`, every other slot is dead, and
the allocation really has `cap` slots. -/
structure Inv (d : Dq α N) (L : List α) : Prop where
  size : d.size = L.length
  alloc : d.alloc = d.cap
  capN : N ≤ d.cap
  le : L.length ≤ d.cap
  head : d.head < d.cap ∨ (d.cap = 0 ∧ d.head = 0)
  live : ∀ i, i < L.length → d.slots ((d.head + i) % d.cap) = L[i]?
  dead : ∀ p, p < d.cap → (∀ i, i < L.length → p ≠ (d.head + i) % d.cap) → d.slots p = none

theorem mod_inj {h c i j : ℕ} (hi : i < c) (hj : j < c) (e : (h + i) % c = (h + j) % c) : i = j := by
  have h1 : (h + i) ≡ (h + j) [MOD c] := e
  have h2 : i ≡ j [MOD c] := Nat.ModEq.add_left_cancel' h h1
  exact Nat.ModEq.eq_of_lt_of_lt h2 hi hj

theorem inv_empty : Inv (Dq.empty : Dq α N) [] := by
  exact ⟨rfl, rfl, le_refl _, by simp, pos_or_zero _, by simp, by simp [Dq.empty]⟩

theorem inv_withCapacity (c : ℕ) : Inv (Dq.withCapacity c : Dq α N) [] := by
  refine ⟨rfl, ?_, le_max_right _ _, by simp, ?_, by simp, by simp [Dq.withCapacity]⟩
  · simp only [Dq.withCapacity]; split_ifs with h <;> omega
  · exact pos_or_zero _

/-- Any slot is either one of the live positions or dead; a position `i` beyond the size is dead. -/
theorem Inv.dead_next {d : Dq α N} {L : List α} (h : Inv d L) (i : ℕ) (hi : L.length ≤ i)
    (hc : i < d.cap) : d.slots ((d.head + i) % d.cap) = none := by
  apply h.dead _ (Nat.mod_lt _ (by omega))
  intro j hj e
  have := mod_inj hc (lt_of_lt_of_le hj h.le) e
  omega

theorem Inv.item {d : Dq α N} {L : List α} (_ : Inv d L) (i : ℕ) (hc : d.cap ≠ 0) :
    d.item i = some ((d.head + i) % d.cap) := by simp [Dq.item, hc]

theorem Inv.readItem {d : Dq α N} {L : List α} (h : Inv d L) (i : ℕ) (hi : i < L.length) :
    d.readAt ((d.head + i) % d.cap) = L[i]? := by
  have hle := h.le
  rw [Dq.readAt, if_pos, h.live i hi]
  rw [h.alloc]; exact Nat.mod_lt _ (by omega)

theorem inv_destroyLoop (d : Dq α N) (L : List α) (h : Inv d L) (k : ℕ) (n : ℕ) (hn : n + k ≤ L.length) :
    ∃ d', (List.range k).foldlM (fun (d : Dq α N) (i : ℕ) => do
        let p ← d.item (n + i); d.destroyAt p) d = some d' ∧
      d'.alloc = d.alloc ∧ d'.cap = d.cap ∧ d'.head = d.head ∧ d'.size = d.size ∧
      (∀ p, d'.slots p = if ∃ i, n ≤ i ∧ i < n + k ∧ p = (d.head + i) % d.cap then none
        else d.slots p) := by
  have hle := h.le
  have := foldlM_range_inv (fun (d : Dq α N) (i : ℕ) => do
        let p ← d.item (n + i); d.destroyAt p)
    (fun m d' => d'.alloc = d.alloc ∧ d'.cap = d.cap ∧ d'.head = d.head ∧ d'.size = d.size ∧
      (∀ p, d'.slots p = if ∃ i, n ≤ i ∧ i < n + m ∧ p = (d.head + i) % d.cap then none
        else d.slots p)) k d
    ⟨rfl, rfl, rfl, rfl, fun p => by
      rw [if_neg]; rintro ⟨i, h1, h2, _⟩; omega⟩ ?_
  · exact this
  · rintro i hi d' ⟨e1, e2, e3, e4, e5⟩
    have hc : d.cap ≠ 0 := by omega
    have hslot : d'.slots ((d.head + (n + i)) % d.cap) = L[n + i]? := by
      rw [e5, if_neg, h.live _ (by omega)]
      rintro ⟨j, h1, h2, h3⟩
      have := mod_inj (by omega) (by omega) h3
      omega
    refine ⟨{ d' with slots := Function.update d'.slots ((d.head + (n + i)) % d.cap) none },
      ?_, e1, e2, e3, e4, ?_⟩
    · simp only [Dq.item, hc, if_false, e2, e3, Option.bind_eq_bind, Option.bind_some, Dq.destroyAt]
      rw [if_pos]
      refine ⟨?_, ?_⟩
      · rw [e1, h.alloc]; exact Nat.mod_lt _ (by omega)
      · rw [hslot, List.getElem?_eq_getElem (by omega)]; rfl
    · intro p
      by_cases hp : p = (d.head + (n + i)) % d.cap
      · subst hp
        simp only [Function.update_self]
        rw [if_pos]; exact ⟨n + i, by omega, by omega, rfl⟩
      · simp only [Function.update_of_ne hp, e5]
        congr 1
        apply propext
        constructor
        · rintro ⟨j, h1, h2, h3⟩; exact ⟨j, h1, by omega, h3⟩
        · rintro ⟨j, h1, h2, h3⟩
          refine ⟨j, h1, ?_, h3⟩
          by_contra hcon
          have : j = n + i := by omega
          exact hp (this ▸ h3)

/-- All items destroyed: every slot of the buffer is dead, other fields unchanged. -/
theorem inv_destroyAll (d : Dq α N) (L : List α) (h : Inv d L) :
    ∃ d', d.destroyAll = some d' ∧ d'.alloc = d.alloc ∧ d'.cap = d.cap ∧
      ∀ p, p < d.cap → d'.slots p = none := by
  obtain ⟨d', e1, e2, e3, e4, e5, e6⟩ := inv_destroyLoop d L h L.length 0 (by omega)
  refine ⟨d', ?_, e2, e3, ?_⟩
  · rw [Dq.destroyAll, h.size]; simpa using e1
  · intro p hp
    rw [e6]
    split_ifs with hc
    · rfl
    · exact h.dead p hp fun i hi e => hc ⟨i, by omega, by omega, e⟩

theorem inv_clear (d : Dq α N) (L : List α) (h : Inv d L) :
    ∃ d', d.clear = some d' ∧ Inv d' [] := by
  obtain ⟨d', e1, e2, e3, e4⟩ := inv_destroyAll d L h
  refine ⟨_, by rw [Dq.clear, e1]; rfl, rfl, ?_, ?_, by simp, ?_, by simp, ?_⟩
  · simp [e2, e3, h.alloc]
  · simp [e3, h.capN]
  · exact pos_or_zero _
  · intro p hp _; simp only [e3] at hp; exact e4 p hp

/-- Moving all items, in order, from `d` to the first slots of a fresh destination. The positions
are given by an arbitrary addressing function agreeing with `item`. -/
theorem inv_moveLoop (d : Dq α N) (L : List α) (h : Inv d L) (t : Dq α N)
    (addr : Dq α N → ℕ → Option ℕ)
    (haddr : ∀ d' : Dq α N, d'.cap = d.cap → d'.head = d.head → d'.size = d.size →
      ∀ i, i < L.length → addr d' i = some ((d.head + i) % d.cap))
    (ht1 : L.length ≤ t.alloc) (ht2 : ∀ p, p < t.alloc → t.slots p = none) :
    ∃ st, (List.range L.length).foldlM (fun (st : Dq α N × Dq α N) (i : ℕ) => do
        let p ← addr st.1 i
        let (v, old) ← st.1.takeAt p
        let new ← st.2.construct i v
        some (old, new)) (d, t) = some st ∧
      st.1.alloc = d.alloc ∧ st.1.cap = d.cap ∧ st.1.head = d.head ∧ st.1.size = d.size ∧
      (∀ p, p < d.cap → st.1.slots p = none) ∧
      st.2.alloc = t.alloc ∧ st.2.cap = t.cap ∧ st.2.head = t.head ∧ st.2.size = t.size ∧
      (∀ p, p < t.alloc → st.2.slots p = L[p]?) := by
  have hle := h.le
  have := foldlM_range_inv (fun (st : Dq α N × Dq α N) (i : ℕ) => do
        let p ← addr st.1 i
        let (v, old) ← st.1.takeAt p
        let new ← st.2.construct i v
        some (old, new))
    (fun m st => st.1.alloc = d.alloc ∧ st.1.cap = d.cap ∧ st.1.head = d.head ∧
      st.1.size = d.size ∧
      (∀ p, st.1.slots p = if ∃ i, i < m ∧ p = (d.head + i) % d.cap then none else d.slots p) ∧
      st.2.alloc = t.alloc ∧ st.2.cap = t.cap ∧ st.2.head = t.head ∧ st.2.size = t.size ∧
      (∀ p, p < t.alloc → st.2.slots p = if p < m then L[p]? else none)) L.length (d, t)
    ⟨rfl, rfl, rfl, rfl, fun p => by rw [if_neg]; rintro ⟨i, h1, _⟩; omega,
      rfl, rfl, rfl, rfl, fun p hp => by simp [ht2 p hp]⟩ ?_
  · obtain ⟨st, e0, e1, e2, e3, e4, e5, e6, e7, e8, e9, e10⟩ := this
    refine ⟨st, e0, e1, e2, e3, e4, ?_, e6, e7, e8, e9, ?_⟩
    · intro p hp
      rw [e5]
      split_ifs with hc
      · rfl
      · exact h.dead p hp fun i hi e => hc ⟨i, hi, e⟩
    · intro p hp
      rw [e10 p hp]
      split_ifs with hc
      · rfl
      · rw [List.getElem?_eq_none (by omega)]
  · rintro i hi ⟨o, n⟩ ⟨e1, e2, e3, e4, e5, e6, e7, e8, e9, e10⟩
    simp only at e1 e2 e3 e4 e5 e6 e7 e8 e9 e10
    have hslot : o.slots ((d.head + i) % d.cap) = some L[i] := by
      rw [e5, if_neg, h.live _ hi, List.getElem?_eq_getElem hi]
      rintro ⟨j, h1, h3⟩
      have := mod_inj (by omega) (by omega) h3
      omega
    have hlt : (d.head + i) % d.cap < o.alloc := by
      rw [e1, h.alloc]; exact Nat.mod_lt _ (by omega)
    have hn : n.slots i = none := by rw [e10 i (by omega)]; simp
    refine ⟨({ o with slots := Function.update o.slots ((d.head + i) % d.cap) none },
      { n with slots := Function.update n.slots i (some L[i]) }), ?_, e1, e2, e3, e4, ?_,
      e6, e7, e8, e9, ?_⟩
    · simp only [haddr o e2 e3 e4 i hi, Option.bind_eq_bind, Option.bind_some, Dq.takeAt,
        Dq.readAt, Dq.destroyAt, hlt, hslot, if_true, Option.isSome_some, and_self,
        Dq.construct, hn, e6, lt_of_lt_of_le hi ht1]
    · intro p
      by_cases hp : p = (d.head + i) % d.cap
      · subst hp
        simp only [Function.update_self]
        rw [if_pos]; exact ⟨i, by omega, rfl⟩
      · simp only [Function.update_of_ne hp, e5]
        congr 1
        apply propext
        constructor
        · rintro ⟨j, h2, h3⟩; exact ⟨j, by omega, h3⟩
        · rintro ⟨j, h2, h3⟩
          refine ⟨j, ?_, h3⟩
          by_contra hcon
          have : j = i := by omega
          exact hp (this ▸ h3)
    · intro p hp
      by_cases hpi : p = i
      · subst hpi; simp [List.getElem?_eq_getElem hi]
      · simp only [Function.update_of_ne hpi, e10 p hp]
        congr 1
        apply propext; omega

theorem inv_reserve (d : Dq α N) (L : List α) (h : Inv d L) (n : ℕ) :
    ∃ d', d.reserve n = some d' ∧ Inv d' L ∧ n ≤ d'.cap ∧ d'.size = d.size ∧
      (n ≤ d.cap → d' = d) := by
  unfold Dq.reserve
  split_ifs with hn
  · have hle := h.le
    have hcN := h.capN
    obtain ⟨st, e0, e1, e2, e3, e4, e5, e6, e7, e8, e9, e10⟩ := inv_moveLoop d L h
      ⟨max (d.cap * 2) n, fun _ => none, max (d.cap * 2) n, 0, 0⟩ Dq.item
      (fun d' a b c i hi => by
        rw [Dq.item, a, b, if_neg]; omega)
      (by simp only; omega) (by simp)
    simp only at e6 e7 e8 e9 e10
    rw [h.size]
    refine ⟨⟨max (d.cap * 2) n, st.2.slots, max (d.cap * 2) n, 0, L.length⟩, ?_, ?_, ?_, ?_, ?_⟩
    · dsimp only
      rw [e0]; rfl
    · refine ⟨rfl, rfl, ?_, ?_, ?_, ?_, ?_⟩
      · simp only; omega
      · simp only; omega
      · simp only; omega
      · intro i hi
        simp only [Nat.zero_add]
        rw [Nat.mod_eq_of_lt (by omega), e10 i (by omega)]
      · intro p hp hall
        simp only at hp
        rw [e10 p hp, List.getElem?_eq_none]
        by_contra hcon
        apply hall p (by omega)
        simp only [Nat.zero_add]
        rw [Nat.mod_eq_of_lt hp]
    · simp only; omega
    · rfl
    · intro hh; omega
  · exact ⟨d, rfl, h, by omega, rfl, fun _ => rfl⟩

theorem inv_pushBack (d : Dq α N) (L : List α) (h : Inv d L) (v : α) :
    ∃ d', d.pushBack v = some d' ∧ Inv d' (L ++ [v]) := by
  obtain ⟨d1, r1, i1, c1, s1, _⟩ := inv_reserve d L h (d.size + 1)
  have hs := h.size
  have hc : d1.cap ≠ 0 := by omega
  have hd := i1.dead_next L.length (le_refl _) (by omega)
  have hlt : (d1.head + L.length) % d1.cap < d1.cap := Nat.mod_lt _ (by omega)
  refine ⟨{ d1 with slots := Function.update d1.slots ((d1.head + L.length) % d1.cap) (some v),
                    size := d1.size + 1 }, ?_, ?_⟩
  · simp only [Dq.pushBack, r1, Option.bind_eq_bind, Option.bind_some, Dq.item, hc, if_false,
      i1.size, Dq.construct, i1.alloc, hlt, hd, and_self, if_true]
  · refine ⟨by simp [i1.size], i1.alloc, i1.capN, by simp; omega, i1.head, ?_, ?_⟩
    · intro i hi
      simp only [List.length_append, List.length_singleton] at hi
      simp only
      by_cases hi2 : i = L.length
      · subst hi2; simp
      · rw [Function.update_of_ne, i1.live i (by omega), List.getElem?_append_left (by omega)]
        intro e
        exact hi2 (mod_inj (by omega) (by omega) e)
    · intro p hp hall
      simp only [List.length_append, List.length_singleton] at hp hall ⊢
      rw [Function.update_of_ne (hall _ (by omega))]
      exact i1.dead p hp fun i hi => hall i (by omega)

theorem pred_mod_add {h c i : ℕ} (hc : 0 < c) : ((h + c - 1) % c + (i + 1)) % c = (h + i) % c := by
  rw [Nat.mod_add_mod, show h + c - 1 + (i + 1) = h + i + c by omega, Nat.add_mod_right]

theorem inv_pushFront (d : Dq α N) (L : List α) (h : Inv d L) (v : α) :
    ∃ d', d.pushFront v = some d' ∧ Inv d' (v :: L) := by
  obtain ⟨d1, r1, i1, c1, s1, _⟩ := inv_reserve d L h (d.size + 1)
  have hs := h.size
  have hc : d1.cap ≠ 0 := by omega
  set hd := (d1.head + d1.cap - 1) % d1.cap with hhd
  have hlt : hd < d1.cap := Nat.mod_lt _ (by omega)
  have e0 : hd = (d1.head + (d1.cap - 1)) % d1.cap := by
    rw [hhd]; congr 1; omega
  have hdead : d1.slots hd = none := by
    rw [e0]; exact i1.dead_next _ (by omega) (by omega)
  refine ⟨{ d1 with slots := Function.update d1.slots hd (some v), head := hd,
                    size := d1.size + 1 }, ?_, ?_⟩
  · simp only [Dq.pushFront, r1, Option.bind_eq_bind, Option.bind_some, hc, if_false,
      Dq.construct, i1.alloc, ← hhd, hlt, hdead, and_self, if_true]
  · refine ⟨by simp [i1.size], i1.alloc, i1.capN, by simp; omega, Or.inl hlt, ?_, ?_⟩
    · intro i hi
      simp only [List.length_cons] at hi
      simp only
      cases i with
      | zero =>
        rw [Nat.add_zero, Nat.mod_eq_of_lt hlt]; simp
      | succ i =>
        rw [hhd, pred_mod_add (by omega), Function.update_of_ne, i1.live i (by omega)]
        · simp
        · rw [← hhd, e0]
          intro e
          have := mod_inj (by omega) (by omega) e
          omega
    · intro p hp hall
      simp only [List.length_cons] at hp hall ⊢
      rw [Function.update_of_ne]
      · apply i1.dead p hp
        intro i hi
        have := hall (i + 1) (by omega)
        rwa [hhd, pred_mod_add (by omega)] at this
      · have := hall 0 (by omega)
        rwa [Nat.add_zero, Nat.mod_eq_of_lt hlt] at this

theorem inv_popFront (d : Dq α N) (L : List α) (h : Inv d L) :
    ∃ d', d.popFront = some (d', L.head?) ∧ Inv d' L.tail := by
  cases L with
  | nil =>
    refine ⟨d, ?_, h⟩
    simp [Dq.popFront, h.size]
  | cons v L =>
    have hle := h.le
    have hsz := h.size
    simp only [List.length_cons] at hle hsz
    have hc : d.cap ≠ 0 := by omega
    have hh : d.head < d.cap := by rcases h.head with h | h <;> omega
    have hv : d.slots d.head = some v := by
      have := h.live 0 (by simp)
      rw [Nat.add_zero, Nat.mod_eq_of_lt hh] at this
      simpa using this
    refine ⟨{ d with slots := Function.update d.slots d.head none, head := (d.head + 1) % d.cap,
                     size := d.size - 1 }, ?_, ?_⟩
    · have hne : d.size ≠ 0 := by omega
      simp only [Dq.popFront, hne, if_false, hc, Dq.takeAt, Dq.readAt, h.alloc, hh, if_true, hv,
        Option.bind_eq_bind, Option.bind_some, Dq.destroyAt, Option.isSome_some, and_self,
        List.head?_cons]
    · refine ⟨by simp [hsz], h.alloc, h.capN, by simp; omega,
        Or.inl (Nat.mod_lt _ (by omega)), ?_, ?_⟩
      · intro i hi
        simp only [List.tail_cons] at hi ⊢
        rw [Nat.mod_add_mod, show d.head + 1 + i = d.head + (i + 1) by omega, Function.update_of_ne,
          h.live (i + 1) (by simp; omega)]
        · simp
        · intro e
          have : (d.head + (i + 1)) % d.cap = (d.head + 0) % d.cap := by
            rw [e, Nat.add_zero, Nat.mod_eq_of_lt hh]
          have := mod_inj (by omega) (by omega) this
          omega
      · intro p hp hall
        simp only [List.tail_cons] at hp hall ⊢
        by_cases hpe : p = d.head
        · subst hpe; simp
        · rw [Function.update_of_ne hpe]
          apply h.dead p hp
          intro i hi
          cases i with
          | zero => rwa [Nat.add_zero, Nat.mod_eq_of_lt hh]
          | succ i =>
            have := hall i (by simp at hi; omega)
            rwa [Nat.mod_add_mod, show d.head + 1 + i = d.head + (i + 1) by omega] at this

theorem inv_popBack (d : Dq α N) (L : List α) (h : Inv d L) :
    ∃ d', d.popBack = some (d', L.getLast?) ∧ Inv d' L.dropLast := by
  rcases List.eq_nil_or_concat L with rfl | ⟨L, v, rfl⟩
  · refine ⟨d, ?_, h⟩
    simp [Dq.popBack, h.size]
  · rw [List.concat_eq_append] at h ⊢
    have hle := h.le
    have hsz := h.size
    simp only [List.length_append, List.length_singleton] at hle hsz
    have hc : d.cap ≠ 0 := by omega
    have e0 : d.head + d.size - 1 = d.head + L.length := by omega
    have hlt : (d.head + L.length) % d.cap < d.cap := Nat.mod_lt _ (by omega)
    have hv : d.slots ((d.head + L.length) % d.cap) = some v := by
      have := h.live L.length (by simp)
      rw [this]; simp
    refine ⟨{ d with slots := Function.update d.slots ((d.head + L.length) % d.cap) none,
                     size := d.size - 1 }, ?_, ?_⟩
    · have hne : d.size ≠ 0 := by omega
      simp only [Dq.popBack, hne, if_false, hc, Dq.takeAt, Dq.readAt, h.alloc, e0, hlt, if_true, hv,
        Option.bind_eq_bind, Option.bind_some, Dq.destroyAt, Option.isSome_some, and_self,
        List.getLast?_append, List.getLast?_singleton]
      simp
    · rw [List.dropLast_concat]
      refine ⟨by simp [hsz], h.alloc, h.capN, by simp only; omega, h.head, ?_, ?_⟩
      · intro i hi
        simp only
        rw [Function.update_of_ne, h.live i (by simp; omega), List.getElem?_append_left hi]
        intro e
        have := mod_inj (by omega) (by omega) e
        omega
      · intro p hp hall
        simp only at hp hall ⊢
        by_cases hpe : p = (d.head + L.length) % d.cap
        · subst hpe; simp
        · rw [Function.update_of_ne hpe]
          apply h.dead p hp
          intro i hi
          simp only [List.length_append, List.length_singleton] at hi
          by_cases hil : i = L.length
          · rwa [hil]
          · exact hall i (by omega)

/-- `positive_mod` as used by `operator[]`. -/
theorem slotIdx (i : ℤ) (n : ℕ) (hn : n ≠ 0) :
    ((i.tmod n + n).tmod n).toNat = (i % (n : ℤ)).toNat ∧ (i % (n : ℤ)).toNat < n := by
  have hpos : (0 : ℤ) < n := by omega
  have h1 : -(n : ℤ) < i.tmod n := by
    have := Int.tmod_lt_of_pos (-i) hpos
    rw [Int.neg_tmod] at this; omega
  have h2 : i.tmod n < n := Int.tmod_lt_of_pos i hpos
  have e : (i.tmod n + n).tmod n = i % (n : ℤ) := by
    rw [Int.tmod_eq_emod_of_nonneg (by omega)]
    rw [Int.add_emod_right]
    have hd : (n : ℤ) ∣ i - i.tmod n := Int.dvd_self_sub_tmod
    obtain ⟨k, hk⟩ := hd
    have := congrArg (· % (n : ℤ)) (show i = i.tmod n + n * k by omega)
    simp only [Int.add_mul_emod_self_left] at this
    exact this.symm
  rw [e]
  refine ⟨rfl, ?_⟩
  have := Int.emod_lt_of_pos i hpos
  have := Int.emod_nonneg i hpos.ne'
  omega

theorem inv_slotOf (d : Dq α N) (L : List α) (h : Inv d L) (i : ℤ) (hL : L ≠ []) :
    d.slotOf i = some ((d.head + (i % (L.length : ℤ)).toNat) % d.cap) ∧
    (i % (L.length : ℤ)).toNat < L.length := by
  have hl : L.length ≠ 0 := by simpa using hL
  have hle := h.le
  obtain ⟨e1, e2⟩ := slotIdx i L.length hl
  refine ⟨?_, e2⟩
  rw [Dq.slotOf, h.size, if_neg hl, e1, Dq.item, if_neg (by omega)]

theorem inv_get (d : Dq α N) (L : List α) (h : Inv d L) (i : ℤ) (hL : L ≠ []) :
    d.get i = L[(i % (L.length : ℤ)).toNat]? := by
  obtain ⟨e1, e2⟩ := inv_slotOf d L h i hL
  simp only [Dq.get, e1, Option.bind_eq_bind, Option.bind_some]
  exact h.readItem _ e2

theorem inv_getNat (d : Dq α N) (L : List α) (h : Inv d L) (i : ℕ) (hi : i < L.length) :
    d.get i = L[i]? := by
  rw [inv_get d L h i (by rintro rfl; simp at hi)]
  congr 1
  rw [Int.emod_eq_of_lt (by omega) (by omega)]; simp

theorem inv_set (d : Dq α N) (L : List α) (h : Inv d L) (i : ℤ) (v : α) (hL : L ≠ []) :
    ∃ d', d.set i v = some d' ∧ Inv d' (L.set (i % (L.length : ℤ)).toNat v) ∧
      d'.cap = d.cap ∧ d'.size = d.size := by
  obtain ⟨e1, e2⟩ := inv_slotOf d L h i hL
  set k := (i % (L.length : ℤ)).toNat
  have hle := h.le
  have hlt : (d.head + k) % d.cap < d.cap := Nat.mod_lt _ (by omega)
  have hv := h.live k e2
  rw [List.getElem?_eq_getElem e2] at hv
  refine ⟨{ d with slots := Function.update d.slots ((d.head + k) % d.cap) (some v) }, ?_, ?_,
    rfl, rfl⟩
  · simp only [Dq.set, e1, Option.bind_eq_bind, Option.bind_some, Dq.assignAt, h.alloc, hlt, hv,
      Option.isSome_some, and_self, if_true]
  · refine ⟨by simp [h.size], h.alloc, h.capN, by simpa using h.le, h.head, ?_, ?_⟩
    · intro j hj
      simp only [List.length_set] at hj ⊢
      by_cases hjk : j = k
      · subst hjk; simp [e2]
      · rw [Function.update_of_ne, h.live j hj, List.getElem?_set_ne (Ne.symm hjk)]
        intro e
        exact hjk (mod_inj (by omega) (by omega) e)
    · intro p hp hall
      simp only [List.length_set] at hall
      simp only
      rw [Function.update_of_ne (hall k e2)]
      exact h.dead p hp hall

theorem inv_front (d : Dq α N) (L : List α) (h : Inv d L) : d.front = L.head? := by
  cases L with
  | nil =>
    unfold Dq.front Dq.readAt
    rw [h.alloc]
    split_ifs with hc
    · rw [h.dead _ hc (by simp)]; simp
    · simp
  | cons v L =>
    have := h.readItem 0 (by simp)
    have hh : d.head < d.cap := by
      have := h.le; rcases h.head with h | h
      · exact h
      · simp at this; omega
    rw [Nat.add_zero, Nat.mod_eq_of_lt hh] at this
    rw [Dq.front, this]; simp

theorem inv_back (d : Dq α N) (L : List α) (h : Inv d L) : d.back = L.getLast? := by
  unfold Dq.back
  by_cases hL : L = []
  · subst hL; simp [h.size]
  · have hl : L.length ≠ 0 := by simpa using hL
    have hle := h.le
    rw [if_neg (by rw [h.size]; exact hl), h.size, Dq.item, if_neg (by omega)]
    simp only [Option.bind_eq_bind, Option.bind_some]
    rw [h.readItem _ (by omega), List.getLast?_eq_getElem?]

/-- Fresh buffer filled in order. -/
theorem inv_of_prefix (d : Dq α N) (L : List α) (hs : d.size = L.length) (ha : d.alloc = d.cap)
    (hN : N ≤ d.cap) (hle : L.length ≤ d.cap) (hh : d.head = 0)
    (hsl : ∀ p, p < d.cap → d.slots p = L[p]?) : Inv d L := by
  refine ⟨hs, ha, hN, hle, by omega, ?_, ?_⟩
  · intro i hi
    rw [hh, Nat.zero_add, Nat.mod_eq_of_lt (by omega), hsl i (by omega)]
  · intro p hp hall
    rw [hsl p hp, List.getElem?_eq_none]
    by_contra hcon
    apply hall p (by omega)
    rw [hh, Nat.zero_add, Nat.mod_eq_of_lt hp]

theorem inv_copyLoop (o : Dq α N) (L : List α) (h : Inv o L) (t : Dq α N)
    (ht1 : L.length ≤ t.alloc) (ht2 : ∀ p, p < t.alloc → t.slots p = none) :
    ∃ d, (List.range L.length).foldlM (fun (d : Dq α N) (i : ℕ) => do
      let v ← o.get i
      d.construct i v) t = some d ∧ d.alloc = t.alloc ∧ d.cap = t.cap ∧ d.head = t.head ∧
      d.size = t.size ∧ ∀ p, p < t.alloc → d.slots p = L[p]? := by
  have := foldlM_range_inv (fun (d : Dq α N) (i : ℕ) => do
      let v ← o.get i
      d.construct i v)
    (fun m d => d.alloc = t.alloc ∧ d.cap = t.cap ∧ d.head = t.head ∧
      d.size = t.size ∧ ∀ p, p < t.alloc → d.slots p = if p < m then L[p]? else none) L.length t
    ⟨rfl, rfl, rfl, rfl, fun p hp => by simp [ht2 p hp]⟩ ?_
  · obtain ⟨d, e0, e1, e2, e3, e4, e5⟩ := this
    refine ⟨d, e0, e1, e2, e3, e4, fun p hp => ?_⟩
    rw [e5 p hp]
    split_ifs with hc
    · rfl
    · rw [List.getElem?_eq_none (by omega)]
  · rintro i hi d ⟨e1, e2, e3, e4, e5⟩
    refine ⟨{ d with slots := Function.update d.slots i (some L[i]) }, ?_, e1, e2, e3, e4, ?_⟩
    · have hn : d.slots i = none := by rw [e5 i (by omega)]; simp
      simp only [inv_getNat o L h i hi, List.getElem?_eq_getElem hi, Option.bind_eq_bind,
        Option.bind_some, Dq.construct, e1, lt_of_lt_of_le hi ht1, hn, and_self, if_true]
    · intro p hp
      by_cases hpi : p = i
      · subst hpi; simp [List.getElem?_eq_getElem hi]
      · simp only [Function.update_of_ne hpi, e5 p hp]
        congr 1
        apply propext; omega

theorem inv_copyNew (o : Dq α N) (L : List α) (h : Inv o L) (hg : o.size > N ∨ o.cap ≤ N) :
    ∃ d, o.copyNew = some d ∧ Inv d L := by
  have hle := h.le
  have hN := h.capN
  have hsz := h.size
  obtain ⟨d, e0, e1, e2, e3, e4, e5⟩ := inv_copyLoop o L h
    ⟨if o.size > N then o.cap else N, fun _ => none, max o.cap N, 0, o.size⟩
    (by simp only; split_ifs <;> omega) (by simp)
  have hal : (if o.size > N then o.cap else N) = max o.cap N := by split_ifs <;> omega
  simp only [hal] at e0 e1 e2 e3 e4 e5
  refine ⟨d, ?_, inv_of_prefix d L (by rw [e4, hsz]) (by rw [e1, e2]) (by omega) (by omega) e3
    (fun p hp => e5 p (by omega))⟩
  rw [Dq.copyNew, hal]
  rw [← hsz] at e0
  exact e0

theorem inv_moveNew (o : Dq α N) (L : List α) (h : Inv o L) :
    ∃ d o', o.moveNew = some (d, o') ∧ Inv d L ∧ Inv o' [] := by
  have hN := h.capN
  have hle := h.le
  unfold Dq.moveNew
  split_ifs with hc
  · refine ⟨_, _, rfl, ⟨h.size, h.alloc, h.capN, h.le, h.head, h.live, h.dead⟩, ?_⟩
    exact inv_empty
  · obtain ⟨st, e0, e1, e2, e3, e4, e5, e6, e7, e8, e9, e10⟩ := inv_moveLoop o L h
      ⟨N, fun _ => none, o.cap, 0, o.size⟩ (fun d i => d.slotOf i)
      (fun d' a b c i hi => by
        have hl : L.length ≠ 0 := by omega
        have hs : d'.size = L.length := by rw [c, h.size]
        rw [Dq.slotOf, hs, if_neg hl, (slotIdx i L.length hl).1, Dq.item, a, b, if_neg (by omega),
          Int.emod_eq_of_lt (by omega) (by omega)]
        simp)
      (by simp only; omega) (by simp)
    simp only at e6 e7 e8 e9 e10
    rw [h.size] at e0 e9 ⊢
    refine ⟨st.2, { st.1 with size := 0, head := 0 }, ?_, ?_, ?_⟩
    · rw [e0]; rfl
    · exact inv_of_prefix _ L e9 (by omega) (by omega) (by omega) e8 (fun p hp => e10 p (by omega))
    · refine inv_of_prefix _ [] rfl (by simp [e1, e2, h.alloc]) (by simp [e2, hN]) (by simp) rfl ?_
      intro p hp
      simp only [e2] at hp
      simpa using e5 p hp

theorem inv_moveAssign (d : Dq α N) (L0 : List α) (h0 : Inv d L0) (o : Dq α N) (L : List α)
    (h : Inv o L) : ∃ d' o', d.moveAssign o = some (d', o') ∧ Inv d' L ∧ Inv o' [] := by
  have hN := h.capN
  have hN0 := h0.capN
  have hle := h.le
  obtain ⟨d1, q1, q2, q3, q4⟩ := inv_destroyAll d L0 h0
  unfold Dq.moveAssign
  simp only [q1, Option.bind_eq_bind, Option.bind_some]
  split_ifs with hc
  · refine ⟨_, _, rfl, ⟨h.size, h.alloc, h.capN, h.le, h.head, h.live, h.dead⟩, ?_⟩
    exact inv_empty
  · have ha := h0.alloc
    obtain ⟨st, e0, e1, e2, e3, e4, e5, e6, e7, e8, e9, e10⟩ := inv_moveLoop o L h
      { d1 with head := 0 } (fun d i => d.slotOf i)
      (fun d' a b c i hi => by
        have hl : L.length ≠ 0 := by omega
        have hs : d'.size = L.length := by rw [c, h.size]
        rw [Dq.slotOf, hs, if_neg hl, (slotIdx i L.length hl).1, Dq.item, a, b, if_neg (by omega),
          Int.emod_eq_of_lt (by omega) (by omega)]
        simp)
      (by simp only; omega) (by intro p hp; simp only at hp ⊢; exact q4 p (by omega))
    simp only at e6 e7 e8 e9 e10
    rw [h.size]
    refine ⟨{ st.2 with size := L.length }, { st.1 with size := 0, head := 0 }, ?_, ?_, ?_⟩
    · simp only [Option.bind_eq_bind] at e0
      simp only [e0, Option.bind_some]
    · exact inv_of_prefix _ L rfl (by simp only; omega) (by simp only; omega) (by simp only; omega)
        e8 (fun p hp => e10 p (by simp only at hp; omega))
    · refine inv_of_prefix _ [] rfl (by simp [e1, e2, h.alloc]) (by simp [e2, hN]) (by simp) rfl ?_
      intro p hp
      simp only [e2] at hp
      simpa using e5 p hp

theorem inv_constructNext (d : Dq α N) (L : List α) (h : Inv d L) (hc : L.length < d.cap) (v : α) :
    ∃ d', d.construct ((d.head + L.length) % d.cap) v = some d' ∧ d'.cap = d.cap ∧
      d'.head = d.head ∧ d'.alloc = d.alloc ∧ d'.size = d.size ∧
      Inv (N := N) { d' with size := d'.size + 1 } (L ++ [v]) := by
  have hd := h.dead_next L.length (le_refl _) hc
  have hlt : (d.head + L.length) % d.cap < d.cap := Nat.mod_lt _ (by omega)
  refine ⟨{ d with slots := Function.update d.slots ((d.head + L.length) % d.cap) (some v) },
    ?_, rfl, rfl, rfl, rfl, ?_⟩
  · simp only [Dq.construct, h.alloc, hlt, hd, and_self, if_true]
  · refine ⟨by simp [h.size], h.alloc, h.capN, by simp; omega, h.head, ?_, ?_⟩
    · intro i hi
      simp only [List.length_append, List.length_singleton] at hi
      simp only
      by_cases hi2 : i = L.length
      · subst hi2; simp
      · rw [Function.update_of_ne, h.live i (by omega), List.getElem?_append_left (by omega)]
        intro e
        exact hi2 (mod_inj (by omega) (by omega) e)
    · intro p hp hall
      simp only [List.length_append, List.length_singleton] at hp hall ⊢
      rw [Function.update_of_ne (hall _ (by omega))]
      exact h.dead p hp fun i hi => hall i (by omega)

theorem construct_size (d : Dq α N) (p : ℕ) (v : α) (k : ℕ) :
    Dq.construct (N := N) { d with size := k } p v
      = (d.construct p v).map fun d' => { d' with size := k } := by
  unfold Dq.construct
  simp only
  split_ifs <;> rfl

theorem inv_copyAssign (d : Dq α N) (L0 : List α) (h0 : Inv d L0) (o : Dq α N) (L : List α)
    (h : Inv o L) : ∃ d', d.copyAssign o = some d' ∧ Inv d' L := by
  obtain ⟨d1, r1, i1, c1, s1, _⟩ := inv_reserve d L0 h0 o.size
  have hs0 := h0.size
  have hs := h.size
  set n := min L0.length L.length with hn
  -- loop 1
  have l1 := foldlM_range_inv (fun (d : Dq α N) (i : ℕ) => do
      let v ← o.get i
      d.set i v)
    (fun m d => d.cap = d1.cap ∧ d.size = d1.size ∧ Inv d (L.take m ++ L0.drop m)) n d1
    ⟨rfl, rfl, by simpa using i1⟩ (by
      rintro i hi d ⟨e1, e2, e3⟩
      have hiL : i < L.length := by omega
      have hi0 : i < L0.length := by omega
      have hlen : (L.take i ++ L0.drop i).length = L0.length := by
        simp; omega
      obtain ⟨d', q1, q2, q3, q4⟩ := inv_set d _ e3 (i : ℤ) L[i] (by
        intro hh; rw [hh] at hlen; simp at hlen; omega)
      refine ⟨d', ?_, by rw [q3, e1], by rw [q4, e2], ?_⟩
      · simp only [inv_getNat o L h i hiL, List.getElem?_eq_getElem hiL, Option.bind_eq_bind,
          Option.bind_some, q1]
      · rw [hlen] at q2
        have : ((i : ℤ) % (L0.length : ℤ)).toNat = i := by
          rw [Int.emod_eq_of_lt (by omega) (by omega)]; simp
        rw [this] at q2
        convert q2 using 1
        apply List.ext_getElem?
        intro j
        rcases lt_trichotomy j i with hj | hj | hj
        · rw [List.getElem?_append_left (by simp; omega), List.getElem?_set_ne (by omega),
            List.getElem?_append_left (by simp; omega)]
          rw [List.getElem?_take, List.getElem?_take, if_pos (by omega), if_pos (by omega)]
        · subst hj
          rw [List.getElem?_append_left (by simp; omega), List.getElem?_set_self (by omega),
            List.getElem?_take, if_pos (by omega), List.getElem?_eq_getElem hiL]
        · rw [List.getElem?_append_right (by simp; omega), List.getElem?_set_ne (by omega),
            List.getElem?_append_right (by simp; omega)]
          simp only [List.getElem?_drop, List.length_take]
          congr 1; omega)
  obtain ⟨d2, a1, a2, a3, a4⟩ := l1
  -- loop 2
  have l2 : ∃ d3, (List.range (L.length - n)).foldlM (fun (d : Dq α N) (k : ℕ) => do
      let p ← d.item (n + k)
      let v ← o.get (n + k : ℕ)
      d.construct p v) d2 = some d3 ∧ d3.cap = d1.cap ∧
      (Inv (N := N) { d3 with size := max L0.length L.length } (L ++ L0.drop L.length)) := by
    rcases le_total L.length L0.length with hle | hle
    · have : L.length - n = 0 := by omega
      have hnL : n = L.length := by omega
      rw [this]
      refine ⟨d2, rfl, a2, ?_⟩
      rw [hnL, List.take_length] at a4
      have : ({ d2 with size := max L0.length L.length } : Dq α N) = d2 := by
        have : d2.size = max L0.length L.length := by rw [a4.size]; simp; omega
        rw [← this]
      rw [this]; exact a4
    · have hn0 : n = L0.length := by omega
      have := foldlM_range_inv (fun (d : Dq α N) (k : ℕ) => do
          let p ← d.item (n + k)
          let v ← o.get (n + k : ℕ)
          d.construct p v)
        (fun m d => d.cap = d1.cap ∧ Inv (N := N) { d with size := n + m } (L.take (n + m)))
        (L.length - n) d2 ⟨a2, by
          rw [hn0, List.drop_length, List.append_nil] at a4
          have e : ({ d2 with size := n + 0 } : Dq α N) = d2 := by
            have : d2.size = n + 0 := by rw [a4.size]; simp; omega
            rw [← this]
          rw [e, Nat.add_zero, hn0]; exact a4⟩ (by
          rintro k hk d ⟨e1, e2⟩
          have hcap := i1.le
          have hlen : (L.take (n + k)).length = n + k := by simp; omega
          obtain ⟨d', q1, q2, q3, q4, q5, q6⟩ := inv_constructNext _ _ e2
            (by rw [hlen]; simp only; omega) (L[n + k]'(by omega))
          rw [construct_size, hlen] at q1
          simp only at q1
          cases hcons : d.construct ((d.head + (n + k)) % d.cap) (L[n + k]'(by omega)) with
          | none => rw [hcons] at q1; simp at q1
          | some d3 =>
            rw [hcons] at q1
            simp only [Option.map_some, Option.some.injEq] at q1
            subst q1
            refine ⟨d3, ?_, by simpa [e1] using q2, ?_⟩
            · simp only [Dq.item]
              rw [if_neg (by omega)]
              simp only [Option.bind_eq_bind, Option.bind_some]
              rw [inv_getNat o L h (n + k) (by omega), List.getElem?_eq_getElem (by omega)]
              simp only [Option.bind_some]
              exact hcons
            · rw [← add_assoc, List.take_add_one, List.getElem?_eq_getElem (by omega)]
              exact q6)
      obtain ⟨d3, b1, b2, b3⟩ := this
      refine ⟨d3, b1, b2, ?_⟩
      have e1 : n + (L.length - n) = L.length := by omega
      rw [e1, List.take_length] at b3
      rw [max_eq_right hle, List.drop_eq_nil_of_le hle, List.append_nil]
      exact b3
  obtain ⟨d3, b1, b2, b3⟩ := l2
  -- loop 3
  have hlenb : (L ++ L0.drop L.length).length = max L0.length L.length := by simp; omega
  obtain ⟨d4, g1, g2, g3, g4, g5, g6⟩ := inv_destroyLoop _ _ b3 (L0.length - n) n
    (by rw [hlenb]; omega)
  have l3 : ∃ d5, (List.range (L0.length - n)).foldlM (fun (d : Dq α N) (k : ℕ) => do
      let p ← d.item (n + k)
      d.destroyAt p) d3 = some d5 ∧ Inv (N := N) { d5 with size := L.length } L := by
    have hgen : ∀ (l : List ℕ) (x y : Dq α N) (s : ℕ),
        l.foldlM (fun (d : Dq α N) (k : ℕ) => do
          let p ← d.item (n + k)
          d.destroyAt p) { x with size := s } = some y →
        ∃ z, l.foldlM (fun (d : Dq α N) (k : ℕ) => do
          let p ← d.item (n + k)
          d.destroyAt p) x = some z ∧ y = { z with size := s } := by
      intro l
      induction l with
      | nil =>
        intro x y s hy
        simp only [List.foldlM_nil] at hy ⊢
        exact ⟨x, rfl, by simpa using hy.symm⟩
      | cons a l ih =>
        intro x y s hy
        simp only [List.foldlM_cons, Option.bind_eq_bind, Dq.item, Dq.destroyAt] at hy ⊢
        by_cases hz : x.cap = 0
        · simp [hz] at hy
        · simp only [hz, if_false, Option.bind_some] at hy ⊢
          by_cases hq : (x.head + (n + a)) % x.cap < x.alloc ∧
              (x.slots ((x.head + (n + a)) % x.cap)).isSome = true
          · rw [if_pos hq] at hy ⊢
            simp only [Option.bind_some] at hy ⊢
            have := ih { x with slots := Function.update x.slots ((x.head + (n + a)) % x.cap) none } y s
            simp only [Option.bind_eq_bind, Dq.item, Dq.destroyAt] at this
            exact this hy
          · rw [if_neg hq] at hy
            simp at hy
    obtain ⟨d5, k1, k2⟩ := hgen _ _ _ _ g1
    refine ⟨d5, k1, ?_⟩
    subst k2
    simp only at g2 g3 g4 g6
    have hb := b3
    refine ⟨rfl, ?_, ?_, ?_, ?_, ?_, ?_⟩
    · simp only; rw [g2, g3]; exact b3.alloc
    · simp only; rw [g3]; exact b3.capN
    · have := b3.le; rw [hlenb] at this; simp only at this ⊢; omega
    · simp only [g3, g4]; exact b3.head
    · intro i hi
      simp only [g3, g4]
      have hcp := b3.le
      rw [hlenb] at hcp
      simp only at hcp
      rw [g6, if_neg]
      · have := b3.live i (by rw [hlenb]; omega)
        simp only at this
        rw [this, List.getElem?_append_left hi]
      · rintro ⟨j, u1, u2, u3⟩
        have hij := mod_inj (by omega) (by omega) u3
        omega
    · intro p hp hall
      simp only [g3, g4] at hp hall ⊢
      rw [g6]
      split_ifs with hex
      · rfl
      · apply b3.dead p hp
        intro i hi
        rw [hlenb] at hi
        simp only
        by_cases hiL : i < L.length
        · exact hall i hiL
        · intro e
          exact hex ⟨i, by omega, by omega, e⟩
  obtain ⟨d5, k1, k2⟩ := l3
  refine ⟨{ d5 with size := L.length }, ?_, k2⟩
  unfold Dq.copyAssign
  simp only [hs0, hs, ← hn] at r1 ⊢
  simp only [Option.bind_eq_bind] at a1 b1 k1
  simp only [r1, Option.bind_eq_bind, Option.bind_some, a1, b1, k1]

theorem inv_eq [DecidableEq α] (d o : Dq α N) (L0 L : List α) (h0 : Inv d L0) (h : Inv o L) :
    d.eq o = some (decide (L0 = L)) := by
  unfold Dq.eq
  split_ifs with hs
  · rw [h0.size, h.size] at hs
    have : L0 ≠ L := fun e => hs (by rw [e])
    simp [this]
  · push Not at hs
    rw [h0.size, h.size] at hs
    rw [h0.size]
    have := foldlM_range_inv (fun (acc : Bool) (i : ℕ) =>
      if acc then do
        let a ← d.get i
        let b ← o.get i
        some (decide (a = b))
      else some false)
      (fun m acc => acc = decide (L0.take m = L.take m)) L0.length true (by simp) (by
        intro i hi acc hacc
        simp only [inv_getNat d L0 h0 i hi, inv_getNat o L h i (by omega),
          List.getElem?_eq_getElem hi, List.getElem?_eq_getElem (show i < L.length by omega),
          Option.bind_eq_bind, Option.bind_some]
        have step : (L0.take (i + 1) = L.take (i + 1)) ↔
            (L0.take i = L.take i ∧ L0[i] = L[i]'(by omega)) := by
          rw [List.take_add_one, List.take_add_one, List.getElem?_eq_getElem hi,
            List.getElem?_eq_getElem (show i < L.length by omega)]
          constructor
          · intro e
            have := List.append_inj e (by simp; omega)
            exact ⟨this.1, by simpa using this.2⟩
          · rintro ⟨e1, e2⟩; rw [e1, e2]
        refine ⟨if acc then decide (L0[i] = L[i]'(by omega)) else false,
          by split_ifs <;> rfl, ?_⟩
        rw [hacc]
        by_cases hc : L0.take i = L.take i
        · simp [hc, step]
        · simp [hc, step])
    obtain ⟨s, e1, e2⟩ := this
    rw [e1, e2, List.take_length, hs, List.take_length]

end Geomc.Deque
