import Verif.SmallStorage.Model
import Mathlib.Tactic.Ring

namespace Geomc.SmallStorage

variable {α : Type} {N : ℕ}

/-- The array holds exactly `L` in its first slots, all other slots are dead, and the allocation has
exactly `cap` slots. -/
structure Inv (d : SS α N) (L : List α) : Prop where
  size : d.size = L.length
  alloc : d.alloc = d.cap
  capN : N ≤ d.cap
  le : L.length ≤ d.cap
  slots : ∀ p, p < d.cap → d.slots p = L[p]?

theorem inv_empty : Inv (SS.empty : SS α N) [] := by
  refine ⟨rfl, rfl, le_refl _, by simp, by simp [SS.empty]⟩

/-- Filling a dead buffer in order. -/
theorem fill_loop (src : ℕ → Option α) (L : List α) (hsrc : ∀ i, i < L.length → src i = L[i]?)
    (t : SS α N) (h1 : L.length ≤ t.alloc) (h2 : ∀ p, p < t.alloc → t.slots p = none) :
    ∃ d, (List.range L.length).foldlM (fun (d : SS α N) (i : ℕ) => do
      let v ← src i
      d.construct i v) t = some d ∧ d.alloc = t.alloc ∧ d.cap = t.cap ∧ d.size = t.size ∧
      ∀ p, p < t.alloc → d.slots p = L[p]? := by
  have := foldlM_range_inv (fun (d : SS α N) (i : ℕ) => do
      let v ← src i
      d.construct i v)
    (fun m d => d.alloc = t.alloc ∧ d.cap = t.cap ∧ d.size = t.size ∧
      ∀ p, p < t.alloc → d.slots p = if p < m then L[p]? else none) L.length t
    ⟨rfl, rfl, rfl, fun p hp => by simp [h2 p hp]⟩ ?_
  · obtain ⟨d, e0, e1, e2, e4, e5⟩ := this
    refine ⟨d, e0, e1, e2, e4, fun p hp => ?_⟩
    rw [e5 p hp]
    split_ifs with hc
    · rfl
    · rw [List.getElem?_eq_none (by omega)]
  · rintro i hi d ⟨e1, e2, e4, e5⟩
    refine ⟨{ d with slots := Function.update d.slots i (some L[i]) }, ?_, e1, e2, e4, ?_⟩
    · have hn : d.slots i = none := by rw [e5 i (by omega)]; simp
      simp only [hsrc i hi, List.getElem?_eq_getElem hi, Option.bind_eq_bind,
        Option.bind_some, SS.construct, e1, lt_of_lt_of_le hi h1, hn, and_self, if_true]
    · intro p hp
      by_cases hpi : p = i
      · subst hpi; simp [List.getElem?_eq_getElem hi]
      · simp only [Function.update_of_ne hpi, e5 p hp]
        congr 1
        apply propext; omega

theorem destroy_loop (d : SS α N) (L : List α) (h : Inv d L) (n k : ℕ) (hk : n + k ≤ L.length) :
    ∃ d', (List.range k).foldlM (fun (d : SS α N) (i : ℕ) => d.destroyAt (n + i)) d = some d' ∧
      d'.alloc = d.alloc ∧ d'.cap = d.cap ∧ d'.size = d.size ∧
      ∀ p, d'.slots p = if n ≤ p ∧ p < n + k then none else d.slots p := by
  have hle := h.le
  have ha := h.alloc
  have := foldlM_range_inv (fun (d : SS α N) (i : ℕ) => d.destroyAt (n + i))
    (fun m d' => d'.alloc = d.alloc ∧ d'.cap = d.cap ∧ d'.size = d.size ∧
      ∀ p, d'.slots p = if n ≤ p ∧ p < n + m then none else d.slots p) k d
    ⟨rfl, rfl, rfl, fun p => by rw [if_neg]; omega⟩ ?_
  · exact this
  · rintro i hi d' ⟨e1, e2, e3, e4⟩
    have hs : d'.slots (n + i) = some (L[n + i]'(by omega)) := by
      rw [e4, if_neg (by omega), h.slots _ (by omega), List.getElem?_eq_getElem (by omega)]
    refine ⟨{ d' with slots := Function.update d'.slots (n + i) none }, ?_, e1, e2, e3, ?_⟩
    · rw [SS.destroyAt, if_pos]
      exact ⟨by omega, by rw [hs]; rfl⟩
    · intro p
      by_cases hp : p = n + i
      · subst hp; simp
      · simp only [Function.update_of_ne hp, e4]
        congr 1
        apply propext; omega

theorem inv_destroyAll (d : SS α N) (L : List α) (h : Inv d L) :
    ∃ d', d.destroyAll = some d' ∧ d'.alloc = d.alloc ∧ d'.cap = d.cap ∧ d'.size = d.size ∧
      ∀ p, p < d.cap → d'.slots p = none := by
  obtain ⟨d', e1, e2, e3, e4, e5⟩ := destroy_loop d L h 0 L.length (by omega)
  refine ⟨d', ?_, e2, e3, e4, ?_⟩
  · rw [SS.destroyAll, h.size]; simpa using e1
  · intro p hp
    rw [e5]
    split_ifs with hc
    · rfl
    · rw [h.slots p hp, List.getElem?_eq_none (by omega)]

theorem move_loop (o : SS α N) (L : List α) (h : Inv o L) (t : SS α N)
    (h1 : L.length ≤ t.alloc) (h2 : ∀ p, p < t.alloc → t.slots p = none) :
    ∃ st, (List.range L.length).foldlM (fun (st : SS α N × SS α N) (i : ℕ) => do
        let (v, old) ← st.1.takeAt i
        let new ← st.2.construct i v
        some (old, new)) (o, t) = some st ∧
      st.1.alloc = o.alloc ∧ st.1.cap = o.cap ∧ st.1.size = o.size ∧
      (∀ p, p < o.cap → st.1.slots p = none) ∧
      st.2.alloc = t.alloc ∧ st.2.cap = t.cap ∧ st.2.size = t.size ∧
      (∀ p, p < t.alloc → st.2.slots p = L[p]?) := by
  have hle := h.le
  have ha := h.alloc
  have := foldlM_range_inv (fun (st : SS α N × SS α N) (i : ℕ) => do
        let (v, old) ← st.1.takeAt i
        let new ← st.2.construct i v
        some (old, new))
    (fun m st => st.1.alloc = o.alloc ∧ st.1.cap = o.cap ∧ st.1.size = o.size ∧
      (∀ p, p < o.cap → st.1.slots p = if p < m then none else L[p]?) ∧
      st.2.alloc = t.alloc ∧ st.2.cap = t.cap ∧ st.2.size = t.size ∧
      (∀ p, p < t.alloc → st.2.slots p = if p < m then L[p]? else none)) L.length (o, t)
    ⟨rfl, rfl, rfl, fun p hp => by simp [h.slots p hp], rfl, rfl, rfl,
      fun p hp => by simp [h2 p hp]⟩ ?_
  · obtain ⟨st, e0, e1, e2, e3, e4, e5, e6, e7, e8⟩ := this
    refine ⟨st, e0, e1, e2, e3, ?_, e5, e6, e7, ?_⟩
    · intro p hp
      rw [e4 p hp]
      split_ifs with hc
      · rfl
      · rw [List.getElem?_eq_none (by omega)]
    · intro p hp
      rw [e8 p hp]
      split_ifs with hc
      · rfl
      · rw [List.getElem?_eq_none (by omega)]
  · rintro i hi ⟨a, b⟩ ⟨e1, e2, e3, e4, e5, e6, e7, e8⟩
    simp only at e1 e2 e3 e4 e5 e6 e7 e8
    have hs : a.slots i = some L[i] := by
      rw [e4 i (by omega)]; simp [hi]
    have hlt : i < a.alloc := by omega
    have hn : b.slots i = none := by rw [e8 i (by omega)]; simp
    refine ⟨({ a with slots := Function.update a.slots i none },
      { b with slots := Function.update b.slots i (some L[i]) }), ?_, e1, e2, e3, ?_, e5, e6, e7, ?_⟩
    · simp only [SS.takeAt, SS.readAt, hlt, if_true, hs, Option.bind_eq_bind, Option.bind_some,
        SS.destroyAt, Option.isSome_some, and_self, SS.construct, hn, e5, lt_of_lt_of_le hi h1]
    · intro p hp
      by_cases hpi : p = i
      · subst hpi; simp
      · simp only [Function.update_of_ne hpi, e4 p hp]
        have : (p < i) = (p < i + 1) := by apply propext; omega
        simp only [this]
    · intro p hp
      by_cases hpi : p = i
      · subst hpi; simp [List.getElem?_eq_getElem hi]
      · simp only [Function.update_of_ne hpi, e8 p hp]
        have : (p < i) = (p < i + 1) := by apply propext; omega
        simp only [this]

/-- A monadic fold that starts from an undefined step stays undefined. -/
theorem foldlM_none {σ : Type} (f : σ → ℕ → Option σ) (P : ℕ → σ → Prop) (n k : ℕ) (s0 : σ)
    (hk : k < n) (h0 : P 0 s0) (hs : ∀ i, i < k → ∀ s, P i s → ∃ s', f s i = some s' ∧ P (i + 1) s')
    (hbad : ∀ s, P k s → f s k = none) : (List.range n).foldlM f s0 = none := by
  obtain ⟨s, e, hP⟩ := foldlM_range_inv f P k s0 h0 hs
  obtain ⟨m, rfl⟩ : ∃ m, n = k + 1 + m := ⟨n - (k + 1), by omega⟩
  rw [List.range_add, List.foldlM_append, List.range_succ, List.foldlM_append, e]
  simp [hbad s hP]

theorem ensureCapacity_noop (d : SS α N) (n : ℕ) (h : n ≤ d.cap) : d.ensureCapacity n = some d := by
  rw [SS.ensureCapacity, if_neg (by omega)]

theorem ensureCapacity_ub (d : SS α N) (L : List α) (h : Inv d L) (n : ℕ) (hn : n > d.cap) :
    d.ensureCapacity n = none := by
  have hle := h.le
  rw [SS.ensureCapacity, if_pos hn]
  have ha := h.alloc
  have := foldlM_none (fun (st : SS α N × SS α N) (i : ℕ) => do
        let (v, old) ← st.1.takeAt i
        let new ← st.2.construct i v
        some (old, new))
    (fun m st => st.1.alloc = d.alloc ∧
      (∀ p, p < d.cap → st.1.slots p = if p < m then none else L[p]?) ∧
      st.2.alloc = max n (d.cap * 2) ∧
      (∀ p, p < max n (d.cap * 2) → m ≤ p → st.2.slots p = none)) n L.length
    (d, ⟨max n (d.cap * 2), fun _ => none, max n (d.cap * 2), d.size⟩) (by omega)
    ⟨rfl, fun p hp => by simp [h.slots p hp], rfl, fun _ _ _ => rfl⟩ ?_ ?_
  · dsimp only
    rw [this]; rfl
  · rintro i hi ⟨a, b⟩ ⟨e1, e2, e3, e4⟩
    simp only at e1 e2 e3 e4
    have hs : a.slots i = some L[i] := by
      rw [e2 i (by omega)]; simp [hi]
    have hlt : i < a.alloc := by omega
    have hlt2 : i < b.alloc := by omega
    have hn : b.slots i = none := e4 i (by omega) (le_refl _)
    refine ⟨({ a with slots := Function.update a.slots i none },
      { b with slots := Function.update b.slots i (some L[i]) }), ?_, e1, ?_, e3, ?_⟩
    · simp only [SS.takeAt, SS.readAt, hlt, if_true, hs, Option.bind_eq_bind, Option.bind_some,
        SS.destroyAt, Option.isSome_some, and_self, SS.construct, hn, hlt2]
    · intro p hp
      by_cases hpi : p = i
      · subst hpi; simp
      · simp only [Function.update_of_ne hpi, e2 p hp]
        have : (p < i) = (p < i + 1) := by apply propext; omega
        simp only [this]
    · intro p hp hp2
      simp only
      rw [Function.update_of_ne (by omega)]
      exact e4 p hp (by omega)
  · rintro ⟨a, b⟩ ⟨e1, e2, e3, e4⟩
    simp only at e1 e2
    simp only [SS.takeAt, SS.readAt, Option.bind_eq_bind]
    by_cases hlt : L.length < a.alloc
    · rw [if_pos hlt, e2 _ (by omega), if_neg (by omega), List.getElem?_eq_none (by omega)]
      rfl
    · rw [if_neg hlt]; rfl

theorem inv_construct (d : SS α N) (L : List α) (h : Inv d L) (hc : L.length < d.cap) (v : α) :
    ∃ d', d.construct L.length v = some d' ∧ d'.alloc = d.alloc ∧ d'.cap = d.cap ∧
      d'.size = d.size ∧ ∀ p, p < d.cap → d'.slots p = (L ++ [v])[p]? := by
  have ha := h.alloc
  refine ⟨{ d with slots := Function.update d.slots L.length (some v) }, ?_, rfl, rfl, rfl, ?_⟩
  · rw [SS.construct, if_pos]
    exact ⟨by omega, by rw [h.slots _ hc, List.getElem?_eq_none (le_refl _)]⟩
  · intro p hp
    by_cases hpl : p = L.length
    · subst hpl; simp
    · simp only [Function.update_of_ne hpl, h.slots p hp]
      rcases Nat.lt_or_ge p L.length with h1 | h1
      · rw [List.getElem?_append_left h1]
      · rw [List.getElem?_eq_none h1, List.getElem?_eq_none (by simp; omega)]

theorem inv_pushBack (d : SS α N) (L : List α) (h : Inv d L) (hc : L.length < d.cap) (v : α) :
    ∃ d', d.pushBack v = some d' ∧ Inv d' (L ++ [v]) ∧ d'.cap = d.cap := by
  obtain ⟨d', e, e1, e2, e3, e4⟩ := inv_construct d L h hc v
  have hsz := h.size
  refine ⟨{ d' with size := d'.size + 1 }, ?_, ⟨?_, ?_, ?_, ?_, ?_⟩, e2⟩
  · simp only [SS.pushBack, ensureCapacity_noop d (d.size + 1) (by omega), Option.bind_eq_bind,
      Option.bind_some]
    rw [hsz, e]; rfl
  · simp [e3, h.size]
  · simp [e1, e2, h.alloc]
  · simp [e2, h.capN]
  · simp [e2]; omega
  · intro p hp; simp only [e2] at hp; exact e4 p hp

theorem inv_popBack (d : SS α N) (L : List α) (h : Inv d L) :
    ∃ d', d.popBack = some (d', L.getLast?) ∧ Inv d' L.dropLast ∧ d'.cap = d.cap := by
  have hle := h.le
  have ha := h.alloc
  have hsz := h.size
  rcases List.eq_nil_or_concat L with rfl | ⟨L, v, rfl⟩
  · exact ⟨d, by simp [SS.popBack, h.size], h, rfl⟩
  · rw [List.concat_eq_append] at *
    simp only [List.length_append, List.length_singleton] at hle hsz
    have hne : d.size ≠ 0 := by omega
    have hlt : L.length < d.alloc := by omega
    have hv : d.slots L.length = some v := by rw [h.slots _ (by omega)]; simp
    refine ⟨{ d with slots := Function.update d.slots L.length none, size := d.size - 1 }, ?_,
      ⟨?_, ha, h.capN, ?_, ?_⟩, rfl⟩
    · have : d.size - 1 = L.length := by omega
      simp only [SS.popBack, hne, if_false, this, SS.takeAt, SS.readAt, hlt, if_true, hv,
        Option.bind_eq_bind, Option.bind_some, SS.destroyAt, Option.isSome_some, and_self]
      simp
    · simp [hsz]
    · simp; omega
    · intro p hp
      rw [List.dropLast_concat]
      by_cases hpl : p = L.length
      · subst hpl; simp
      · simp only [Function.update_of_ne hpl, h.slots p hp]
        rcases Nat.lt_or_ge p L.length with h1 | h1
        · rw [List.getElem?_append_left h1]
        · rw [List.getElem?_eq_none h1, List.getElem?_eq_none (by simp; omega)]

theorem inv_clear (d : SS α N) (L : List α) (h : Inv d L) :
    ∃ d', d.clear = some d' ∧ Inv d' [] ∧ d'.cap = d.cap := by
  obtain ⟨d', e, e1, e2, _, e3⟩ := inv_destroyAll d L h
  refine ⟨{ d' with size := 0 }, by simp [SS.clear, e], ⟨rfl, ?_, ?_, by simp, ?_⟩, e2⟩
  · simp [e1, e2, h.alloc]
  · simp [e2, h.capN]
  · intro p hp; simp only [e2] at hp; simpa using e3 p hp

theorem inv_resize (d : SS α N) (L : List α) (h : Inv d L) (n : ℕ) (v : α) (hn : n ≤ d.cap) :
    ∃ d', d.resize n v = some d' ∧ Inv d' (L.take n ++ List.replicate (n - L.length) v) ∧
      d'.cap = d.cap := by
  have hle := h.le
  have ha := h.alloc
  have hsz := h.size
  unfold SS.resize
  rw [hsz]
  split_ifs with hc
  · have := foldlM_range_inv (fun (d : SS α N) (k : ℕ) => d.construct (L.length + k) v)
      (fun m d' => d'.alloc = d.alloc ∧ d'.cap = d.cap ∧
        ∀ p, p < d.cap → d'.slots p = (L ++ List.replicate m v)[p]?) (n - L.length) d
      ⟨rfl, rfl, fun p hp => by simp [h.slots p hp]⟩ ?_
    · obtain ⟨d', e0, e1, e2, e3⟩ := this
      refine ⟨{ d' with size := n }, ?_, ⟨?_, ?_, ?_, ?_, ?_⟩, e2⟩
      · simp only [ensureCapacity_noop d n hn, Option.bind_eq_bind, Option.bind_some, e0]
      · simp; omega
      · simp only; omega
      · simp only; rw [e2]; exact h.capN
      · simp; omega
      · intro p hp
        simp only [e2] at hp
        simp only
        rw [e3 p hp, List.take_of_length_le (by omega)]
    · rintro i hi d' ⟨e1, e2, e3⟩
      have hi' : Inv (N := N) { d' with size := L.length + i } (L ++ List.replicate i v) := by
        refine ⟨by simp, by simp only; omega, by simp only; rw [e2]; exact h.capN,
          by simp; omega, ?_⟩
        intro p hp; simp only [e2] at hp; exact e3 p hp
      have hlen : (L ++ List.replicate i v).length = L.length + i := by simp
      have hslot : d'.slots (L.length + i) = none := by
        rw [e3 _ (by omega), List.getElem?_eq_none (by rw [hlen])]
      refine ⟨{ d' with slots := Function.update d'.slots (L.length + i) (some v) }, ?_, e1, e2, ?_⟩
      · rw [SS.construct, if_pos ⟨by omega, hslot⟩]
      · intro p hp
        by_cases hpl : p = L.length + i
        · subst hpl
          simp only [Function.update_self]
          rw [List.getElem?_append_right (by omega)]
          simp
        · simp only [Function.update_of_ne hpl, e3 p hp]
          rcases Nat.lt_or_ge p L.length with h1 | h1
          · rw [List.getElem?_append_left h1, List.getElem?_append_left h1]
          · rw [List.getElem?_append_right h1, List.getElem?_append_right h1,
              List.getElem?_replicate, List.getElem?_replicate]
            have : (p - L.length < i) = (p - L.length < i + 1) := by apply propext; omega
            simp only [this]
  · obtain ⟨d', e0, e1, e2, e3, e4⟩ := destroy_loop d L h n (L.length - n) (by omega)
    refine ⟨{ d' with size := n }, ?_, ⟨?_, ?_, ?_, ?_, ?_⟩, e2⟩
    · simp only [e0, Option.bind_eq_bind, Option.bind_some]
    · simp; omega
    · simp only; omega
    · simp only; rw [e2]; exact h.capN
    · simp; omega
    · intro p hp
      simp only [e2] at hp
      simp only
      have : n - L.length = 0 := by omega
      rw [e4, this, List.replicate_zero, List.append_nil, List.getElem?_take]
      by_cases hpn : p < n
      · rw [if_neg (by omega), if_pos hpn, h.slots p hp]
      · rw [if_neg hpn]
        split_ifs with hq
        · rfl
        · rw [h.slots p hp, List.getElem?_eq_none (by omega)]

theorem inv_get (d : SS α N) (L : List α) (h : Inv d L) (i : ℕ) : d.get i = L[i]? := by
  have := h.alloc
  have hle := h.le
  unfold SS.get SS.readAt
  split_ifs with hc
  · exact h.slots i (by omega)
  · rw [List.getElem?_eq_none (by omega)]

theorem inv_back (d : SS α N) (L : List α) (h : Inv d L) : d.back = L.getLast? := by
  unfold SS.back
  split_ifs with hc
  · have : L = [] := by rw [h.size] at hc; simpa using hc
    subst this; rfl
  · have := inv_get d L h (d.size - 1)
    rw [SS.get] at this
    rw [this, h.size, List.getLast?_eq_getElem?]

theorem inv_ofList (L : List α) : ∃ d : SS α N, SS.ofList L = some d ∧ Inv d L := by
  have hal : (if L.length > N then L.length else N) = max L.length N := by split_ifs <;> omega
  obtain ⟨d, e0, e1, e2, e3, e4⟩ := fill_loop (N := N) (fun i => L[i]?) L (fun _ _ => rfl)
    ⟨if L.length > N then L.length else N, fun _ => none, max L.length N, L.length⟩
    (by simp only; omega) (by simp)
  simp only [hal] at e1 e2 e3 e4
  exact ⟨d, e0, e3, by omega, by omega, by omega, fun p hp => e4 p (by omega)⟩

theorem inv_copyNew (o : SS α N) (L : List α) (h : Inv o L) :
    ∃ d, o.copyNew = some d ∧ Inv d L := by
  have hsz := h.size
  have hal : (if max L.length N > N then L.length else N) = max L.length N := by
    split_ifs <;> omega
  obtain ⟨d, e0, e1, e2, e3, e4⟩ := fill_loop (N := N) (fun i => o.readAt i) L
    (fun i hi => inv_get o L h i)
    ⟨if max L.length N > N then L.length else N, fun _ => none, max L.length N, L.length⟩
    (by simp only; omega) (by simp)
  simp only [hal] at e1 e2 e3 e4
  refine ⟨d, ?_, e3, by omega, by omega, by omega, fun p hp => e4 p (by omega)⟩
  rw [SS.copyNew, hsz]; exact e0

theorem inv_copyAssign (d : SS α N) (L0 : List α) (h0 : Inv d L0) (o : SS α N) (L : List α)
    (h : Inv o L) : ∃ d', d.copyAssign o = some d' ∧ Inv d' L := by
  have hsz := h.size
  have hle := h.le
  have hN := h0.capN
  have ha0 := h0.alloc
  obtain ⟨d1, q0, q1, q2, q3, q4⟩ := inv_destroyAll d L0 h0
  unfold SS.copyAssign
  simp only [q0, Option.bind_eq_bind, Option.bind_some, hsz]
  set t : SS α N := if d1.cap < L.length then
      ⟨min o.cap (2 * L.length), fun _ => none, min o.cap (2 * L.length), d1.size⟩ else d1 with ht
  have ht1 : t.alloc = t.cap := by rw [ht]; split_ifs <;> (try dsimp only) <;> omega
  have ht2 : L.length ≤ t.cap ∧ N ≤ t.cap := by
    rw [ht]; split_ifs <;> (try dsimp only) <;> omega
  have ht3 : ∀ p, p < t.alloc → t.slots p = none := by
    rw [ht]; split_ifs
    · intros; rfl
    · intro p hp; exact q4 p (by omega)
  obtain ⟨d', e0, e1, e2, e3, e4⟩ := fill_loop (N := N) (fun i => o.readAt i) L
    (fun i hi => inv_get o L h i) t (by omega) ht3
  simp only [Option.bind_eq_bind] at e0
  refine ⟨{ d' with size := L.length }, by rw [e0]; rfl, rfl, ?_, ?_, ?_, ?_⟩
  · simp only; omega
  · simp only; omega
  · simp only; omega
  · intro p hp; simp only at hp; exact e4 p (by omega)

theorem inv_moveAssign (d : SS α N) (L0 : List α) (h0 : Inv d L0) (o : SS α N) (L : List α)
    (h : Inv o L) : ∃ d' o', d.moveAssign o = some (d', o') ∧ Inv d' L ∧ Inv o' [] := by
  have hsz := h.size
  have hle := h.le
  have hN := h.capN
  obtain ⟨d1, q0, _⟩ := inv_destroyAll d L0 h0
  unfold SS.moveAssign
  simp only [q0, Option.bind_eq_bind, Option.bind_some, hsz]
  split_ifs with hc
  · exact ⟨_, _, rfl, ⟨rfl, h.alloc, h.capN, h.le, h.slots⟩, inv_empty⟩
  · obtain ⟨st, e0, e1, e2, e3, e4, e5, e6, e7, e8⟩ := move_loop o L h
      ⟨N, fun _ => none, o.cap, L.length⟩ (by simp only; omega) (by simp)
    simp only at e5 e6 e7 e8
    simp only [Option.bind_eq_bind] at e0
    refine ⟨st.2, _, by rw [e0]; rfl, ⟨e7, by omega, by omega, by omega,
      fun p hp => e8 p (by omega)⟩, inv_empty⟩

theorem inv_moveNew_heap (o : SS α N) (L : List α) (h : Inv o L) (hc : N < o.cap) :
    ∃ d o', o.moveNew = some (d, o') ∧ Inv d L ∧ Inv o' [] := by
  unfold SS.moveNew
  rw [if_neg (by omega)]
  exact ⟨_, _, rfl, h, inv_empty⟩

theorem inv_eq [DecidableEq α] (d o : SS α N) (L0 L : List α) (h0 : Inv d L0) (h : Inv o L) :
    d.eq o = some (decide (L0 = L)) := by
  unfold SS.eq
  split_ifs with hs
  · rw [h0.size, h.size] at hs
    have : L0 ≠ L := fun e => hs (by rw [e])
    simp [this]
  · push Not at hs
    rw [h0.size, h.size] at hs
    rw [h0.size]
    have := foldlM_range_inv (fun (acc : Bool) (i : ℕ) =>
      if acc then do
        let a ← d.get i
        let b ← o.get i
        some (decide (a = b))
      else some false)
      (fun m acc => acc = decide (L0.take m = L.take m)) L0.length true (by simp) (by
        intro i hi acc hacc
        simp only [inv_get d L0 h0 i, inv_get o L h i,
          List.getElem?_eq_getElem hi, List.getElem?_eq_getElem (show i < L.length by omega),
          Option.bind_eq_bind, Option.bind_some]
        have step : (L0.take (i + 1) = L.take (i + 1)) ↔
            (L0.take i = L.take i ∧ L0[i] = L[i]'(by omega)) := by
          rw [List.take_add_one, List.take_add_one, List.getElem?_eq_getElem hi,
            List.getElem?_eq_getElem (show i < L.length by omega)]
          constructor
          · intro e
            have := List.append_inj e (by simp; omega)
            exact ⟨this.1, by simpa using this.2⟩
          · rintro ⟨e1, e2⟩; rw [e1, e2]
        refine ⟨if acc then decide (L0[i] = L[i]'(by omega)) else false,
          by split_ifs <;> rfl, ?_⟩
        rw [hacc]
        by_cases hc : L0.take i = L.take i
        · simp [hc, step]
        · simp [hc, step])
    obtain ⟨s, e1, e2⟩ := this
    rw [e1, e2, List.take_length, hs, List.take_length]

end Geomc.SmallStorage
