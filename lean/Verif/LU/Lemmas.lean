import Mathlib.Algebra.BigOperators.Intervals
import Mathlib.Algebra.BigOperators.Fin
import Mathlib.Algebra.BigOperators.Group.Finset.Basic
import Mathlib.GroupTheory.Perm.Sign
import Mathlib.Tactic.Ring
import Mathlib.Tactic.Linarith
import Mathlib.Tactic.FieldSimp
import Verif.LU.Model

namespace Geomc.LU

/-! ### Loops -/

theorem loop_inv {S : Type} {n : ℕ} {f : ℕ → S → S} {s : S} (P : ℕ → S → Prop) (h0 : P 0 s)
    (hs : ∀ i < n, ∀ s, P i s → P (i + 1) (f i s)) : P n (loop n f s) := by
  induction n with
  | zero => exact h0
  | succ n ih => exact hs n n.lt_succ_self _ (ih (fun i hi => hs i (by omega)))

theorem loopFrom_inv {S : Type} {lo hi : ℕ} {f : ℕ → S → S} {s : S} (P : ℕ → S → Prop) (h : lo ≤ hi)
    (h0 : P lo s) (hs : ∀ i, lo ≤ i → i < hi → ∀ s, P i s → P (i + 1) (f i s)) : P hi (loopFrom lo hi f s) := by
  have := loop_inv (n := hi - lo) (f := fun t => f (lo + t)) (s := s) (fun t => P (lo + t)) h0
    (fun i hi' s hP => hs (lo + i) (by omega) (by omega) s hP)
  rwa [show lo + (hi - lo) = hi by omega] at this

theorem loopM_inv {S : Type} {n : ℕ} {f : ℕ → S → Option S} {s : S} (P : ℕ → S → Prop) (h0 : P 0 s)
    (hs : ∀ i < n, ∀ s, P i s → ∃ s', f i s = some s' ∧ P (i + 1) s') :
    ∃ s', loopM n f s = some s' ∧ P n s' := by
  induction n with
  | zero => exact ⟨s, rfl, h0⟩
  | succ n ih =>
    obtain ⟨t, e, hP⟩ := ih (fun i hi => hs i (by omega))
    obtain ⟨t', e', hP'⟩ := hs n n.lt_succ_self t hP
    exact ⟨t', by rw [loopM, e, Option.bind_some, e'], hP'⟩

theorem loopM_none {S : Type} {n : ℕ} {f : ℕ → S → Option S} {s : S} {k : ℕ} (hk : k < n)
    (h : ∀ s, f k s = none) : loopM n f s = none := by
  induction n with
  | zero => omega
  | succ n ih =>
    rw [loopM]
    rcases Nat.lt_or_eq_of_le (Nat.lt_succ_iff.1 hk) with h' | rfl
    · rw [ih h', Option.bind_none]
    · cases loopM k f s with
      | none => rfl
      | some t => exact h t

variable {K : Type}

theorem put_apply (A : ℕ → ℕ → K) (r c : ℕ) (x : K) (r' c' : ℕ) :
    put A r c x r' c' = if r' = r ∧ c' = c then x else A r' c' := rfl

theorem put_self (A : ℕ → ℕ → K) (r c : ℕ) (x : K) : put A r c x r c = x := if_pos ⟨rfl, rfl⟩

theorem put_of_ne (A : ℕ → ℕ → K) {r c r' c' : ℕ} (x : K) (h : ¬ (r' = r ∧ c' = c)) :
    put A r c x r' c' = A r' c' := if_neg h

variable [Field K] [LinearOrder K]

/-! ### Closed forms -/

omit [Field K] [LinearOrder K] in
theorem swapRows_apply (A : ℕ → ℕ → K) (cols : ℕ) {i j : ℕ} (r c : ℕ) :
    swapRows A cols i j r c = if c < cols then A (Equiv.swap i j r) c else A r c := by
  have key := loop_inv (n := cols) (f := fun c A => put (put A i c (A j c)) j c (A i c)) (s := A)
    (fun k B => ∀ r c, B r c = if c < k then A (Equiv.swap i j r) c else A r c) (fun r c => by simp) (by
      intro k _ B hB r c
      by_cases hc : c = k
      · subst hc
        rw [if_pos (Nat.lt_succ_self c), put_apply, put_apply]
        by_cases h1 : r = j
        · rw [if_pos ⟨h1, rfl⟩, hB, if_neg (lt_irrefl c), h1, Equiv.swap_apply_right]
        · rw [if_neg (fun h => h1 h.1)]
          by_cases h2 : r = i
          · rw [if_pos ⟨h2, rfl⟩, hB, if_neg (lt_irrefl c), h2, Equiv.swap_apply_left]
          · rw [if_neg (fun h => h2 h.1), hB, if_neg (lt_irrefl c), Equiv.swap_apply_of_ne_of_ne h2 h1]
      · rw [put_of_ne _ _ (fun h => hc h.2), put_of_ne _ _ (fun h => hc h.2), hB]
        exact if_congr (by omega) rfl rfl)
  exact key r c

omit [Field K] [LinearOrder K] in
theorem swapCols_apply (A : ℕ → ℕ → K) (rows : ℕ) {i j : ℕ} (r c : ℕ) :
    swapCols A rows i j r c = if r < rows then A r (Equiv.swap i j c) else A r c := by
  have key := loop_inv (n := rows) (f := fun r A => put (put A r i (A r j)) r j (A r i)) (s := A)
    (fun k B => ∀ r c, B r c = if r < k then A r (Equiv.swap i j c) else A r c) (fun r c => by simp) (by
      intro k _ B hB r c
      by_cases hc : r = k
      · subst hc
        rw [if_pos (Nat.lt_succ_self r), put_apply, put_apply]
        by_cases h1 : c = j
        · rw [if_pos ⟨rfl, h1⟩, hB, if_neg (lt_irrefl r), h1, Equiv.swap_apply_right]
        · rw [if_neg (fun h => h1 h.2)]
          by_cases h2 : c = i
          · rw [if_pos ⟨rfl, h2⟩, hB, if_neg (lt_irrefl r), h2, Equiv.swap_apply_left]
          · rw [if_neg (fun h => h2 h.2), hB, if_neg (lt_irrefl r), Equiv.swap_apply_of_ne_of_ne h2 h1]
      · rw [put_of_ne _ _ (fun h => hc h.1), put_of_ne _ _ (fun h => hc h.1), hB]
        exact if_congr (by omega) rfl rfl)
  exact key r c

theorem swapIdx_apply (p : ℕ → ℕ) (i j r : ℕ) : swapIdx p i j r = p (Equiv.swap i j r) := by
  unfold swapIdx
  by_cases h1 : r = j
  · rw [h1, Function.update_self, Equiv.swap_apply_right]
  · rw [Function.update_of_ne h1]
    by_cases h2 : r = i
    · rw [h2, Function.update_self, Equiv.swap_apply_left]
    · rw [Function.update_of_ne h2, Equiv.swap_apply_of_ne_of_ne h2 h1]

omit [LinearOrder K] in
theorem elimRow_apply (A : ℕ → ℕ → K) (cols i r : ℕ) (b : K) (hi : i < cols) (hr : r ≠ i) (r' c' : ℕ) :
    loopFrom (i + 1) cols (fun c A => put A r c (-b * A i c + A r c)) A r' c' =
      if r' = r ∧ i < c' ∧ c' < cols then A r c' - b * A i c' else A r' c' := by
  have key := loopFrom_inv (lo := i + 1) (hi := cols) (f := fun c A => put A r c (-b * A i c + A r c)) (s := A)
    (fun k B => ∀ r' c', B r' c' = if r' = r ∧ i < c' ∧ c' < k then A r c' - b * A i c' else A r' c') hi
    (fun r' c' => by rw [if_neg (by omega)]) (by
      intro k hk hk' B hB r' c'
      by_cases h : r' = r ∧ c' = k
      · obtain ⟨rfl, rfl⟩ := h
        rw [put_self, if_pos ⟨rfl, by omega, by omega⟩, hB, hB, if_neg (by omega), if_neg (by omega)]
        ring
      · rw [put_of_ne _ _ h, hB]
        exact if_congr (by omega) rfl rfl)
  exact key r' c'

theorem eliminate_apply' (A : ℕ → ℕ → K) {rows cols i : ℕ} (hr : i < rows) (hc : i < cols) (r c : ℕ) :
    loopFrom (i + 1) rows (fun r B =>
      put (if B r i / A i i ≠ 0 then
          loopFrom (i + 1) cols (fun c B' => put B' r c (-(B r i / A i i) * B' i c + B' r c)) B
        else B) r i (B r i / A i i)) A r c =
      if i < r ∧ r < rows then
        if c = i then A r i / A i i else if i < c ∧ c < cols then A r c - A r i / A i i * A i c else A r c
      else A r c := by
  have key := loopFrom_inv (lo := i + 1) (hi := rows) (f := fun r B =>
      put (if B r i / A i i ≠ 0 then
          loopFrom (i + 1) cols (fun c B' => put B' r c (-(B r i / A i i) * B' i c + B' r c)) B
        else B) r i (B r i / A i i)) (s := A)
    (fun k B => ∀ r c, B r c = if i < r ∧ r < k then
        if c = i then A r i / A i i else if i < c ∧ c < cols then A r c - A r i / A i i * A i c else A r c
      else A r c) hr (fun r c => by rw [if_neg (by omega)]) (by
      intro k hk hk' B hB r c
      have hBk : B k i = A k i := by rw [hB, if_neg (by omega)]
      by_cases hrk : r = k
      · subst hrk
        rw [if_pos (show i < r ∧ r < r + 1 from ⟨hk, Nat.lt_succ_self r⟩)]
        by_cases hci : c = i
        · subst hci
          rw [put_self, if_pos rfl, hBk]
        · rw [put_of_ne _ _ (fun h => hci h.2), if_neg hci, hBk]
          have h1 : ∀ c, B r c = A r c := fun c => by rw [hB, if_neg (by omega)]
          have h2 : ∀ c, B i c = A i c := fun c => by rw [hB, if_neg (by omega)]
          split_ifs with hb hcc hcc
          · rw [elimRow_apply B cols i r _ hc (by omega), if_pos ⟨rfl, hcc⟩, h1, h2]
          · rw [elimRow_apply B cols i r _ hc (by omega), if_neg (fun h => hcc h.2), h1]
          · rw [not_not] at hb
            rw [h1, hb]
            ring
          · exact h1 c
      · rw [put_of_ne _ _ (fun h => hrk h.1)]
        have : (if B k i / A i i ≠ 0 then
            loopFrom (i + 1) cols (fun c B' => put B' k c (-(B k i / A i i) * B' i c + B' k c)) B
            else B) r c = B r c := by
          split_ifs
          · rw [elimRow_apply B cols i k _ hc (by omega), if_neg (fun h => hrk h.1)]
          · rfl
        rw [this, hB]
        exact if_congr (by omega) rfl rfl)
  exact key r c

theorem eliminate_apply (A : ℕ → ℕ → K) {rows cols i : ℕ} (hr : i < rows) (hc : i < cols) (r c : ℕ) :
    eliminate A rows cols i r c = if i < r ∧ r < rows then
        if c = i then A r i / A i i else if i < c ∧ c < cols then A r c - A r i / A i i * A i c else A r c
      else A r c := eliminate_apply' A hr hc r c

/-! ### The pivot search -/

theorem findRowPivot_spec (A : ℕ → ℕ → K) {rows i : ℕ} (hi : i < rows) :
    i ≤ (findRowPivot A rows i).1 ∧ (findRowPivot A rows i).1 < rows ∧
    (findRowPivot A rows i).2 = |A (findRowPivot A rows i).1 i| ∧
    ∀ r, i ≤ r → r < rows → |A r i| ≤ (findRowPivot A rows i).2 := by
  refine loopFrom_inv (lo := i + 1) (hi := rows)
    (f := fun p (s : ℕ × K) => if s.2 < |A p i| then (p, |A p i|) else s) (s := (i, |A i i|))
    (fun k s => i ≤ s.1 ∧ s.1 < k ∧ s.2 = |A s.1 i| ∧ ∀ r, i ≤ r → r < k → |A r i| ≤ s.2) hi
    ⟨le_rfl, Nat.lt_succ_self i, rfl, fun r h h' => ?_⟩ ?_
  · obtain rfl : r = i := by omega
    exact le_rfl
  · rintro k hk hk' ⟨p, b⟩ ⟨h1, h2, h3, h4⟩
    simp only at h1 h2 h3 h4
    simp only
    split_ifs with h
    · refine ⟨by simp only; omega, Nat.lt_succ_self k, rfl, fun r hr hrk => ?_⟩
      rcases Nat.lt_or_eq_of_le (Nat.lt_succ_iff.1 hrk) with h' | rfl
      · exact (h4 r hr h').trans h.le
      · exact le_rfl
    · refine ⟨h1, by simp only; omega, h3, fun r hr hrk => ?_⟩
      rcases Nat.lt_or_eq_of_le (Nat.lt_succ_iff.1 hrk) with h' | rfl
      · exact h4 r hr h'
      · exact not_lt.1 h

theorem findColPivot_eq (A : ℕ → ℕ → K) (cols i : ℕ) :
    findColPivot A cols i = findRowPivot (fun r c => A c r) cols i := rfl

/-! ### The factorisation so far -/

/-- After `i` rounds the row-permuted input `B` is the product of the finished part of the factors, plus the
unfinished remainder. -/
def Factors (B A : ℕ → ℕ → K) (rows cols i : ℕ) : Prop :=
  ∀ r < rows, ∀ c < cols, B r c = (∑ k ∈ Finset.range (min r i), if k ≤ c then A r k * A k c else 0) +
    if min r i ≤ c then A r c else 0

omit [LinearOrder K] in
theorem Factors.zero (A : ℕ → ℕ → K) (rows cols : ℕ) : Factors A A rows cols 0 := by
  intro r _ c _
  simp

omit [LinearOrder K] in
theorem Factors.degenerate {B A : ℕ → ℕ → K} {rows cols i : ℕ} (h : Factors B A rows cols i)
    (hz : ∀ r, i ≤ r → r < rows → A r i = 0) : Factors B A rows cols (i + 1) := by
  intro r hr c hc
  rw [h r hr c hc]
  by_cases hri : r ≤ i
  · rw [show min r (i + 1) = min r i by omega]
  · rw [show min r (i + 1) = i + 1 by omega, show min r i = i by omega, Finset.sum_range_succ,
      hz r (by omega) hr, zero_mul, ite_self, add_zero]
    congr 1
    by_cases hci : c = i
    · rw [hci, hz r (by omega) hr, ite_self, ite_self]
    · exact if_congr (by omega) rfl rfl

omit [LinearOrder K] in
theorem Factors.swapRows {B A : ℕ → ℕ → K} {rows cols i j : ℕ} (h : Factors B A rows cols i) (hij : i < j)
    (hj : j < rows) :
    Factors (fun r c => B (Equiv.swap i j r) c) (LU.swapRows A cols i j) rows cols i := by
  intro r hr c hc
  have hlt : Equiv.swap i j r < rows := by
    rw [Equiv.swap_apply_def]
    split_ifs <;> omega
  have hmin : min (Equiv.swap i j r) i = min r i := by
    rw [Equiv.swap_apply_def]
    split_ifs <;> omega
  simp only
  rw [h _ hlt c hc, hmin]
  congr 1
  · refine Finset.sum_congr rfl (fun k hk => ?_)
    rw [Finset.mem_range] at hk
    split_ifs with hkc
    · rw [swapRows_apply, swapRows_apply, if_pos (by omega), if_pos hc,
        Equiv.swap_apply_of_ne_of_ne (show k ≠ i by omega) (by omega)]
    · rfl
  · rw [swapRows_apply, if_pos hc]

omit [LinearOrder K] in
theorem Factors.swapCols {B A : ℕ → ℕ → K} {rows cols i j : ℕ} (h : Factors B A rows cols i) (hij : i < j)
    (hj : j < cols) :
    Factors (fun r c => B r (Equiv.swap i j c)) (LU.swapCols A rows i j) rows cols i := by
  intro r hr c hc
  have hlt : Equiv.swap i j c < cols := by
    rw [Equiv.swap_apply_def]
    split_ifs <;> omega
  have hle : ∀ t, t ≤ i → (t ≤ Equiv.swap i j c ↔ t ≤ c) := by
    intro t ht
    rw [Equiv.swap_apply_def]
    split_ifs <;> omega
  simp only
  rw [h _ hr _ hlt]
  congr 1
  · refine Finset.sum_congr rfl (fun k hk => ?_)
    rw [Finset.mem_range] at hk
    refine if_congr (hle k (by omega)) ?_ rfl
    rw [swapCols_apply, swapCols_apply, if_pos hr, if_pos (by omega),
      Equiv.swap_apply_of_ne_of_ne (show k ≠ i by omega) (by omega)]
  · rw [swapCols_apply, if_pos hr]
    exact if_congr (hle _ (by omega)) rfl rfl

theorem Factors.eliminate {B A : ℕ → ℕ → K} {rows cols i : ℕ} (h : Factors B A rows cols i) (hi : i < rows)
    (hic : i < cols) (ha : A i i ≠ 0) : Factors B (LU.eliminate A rows cols i) rows cols (i + 1) := by
  intro r hr c hc
  rw [h r hr c hc]
  have low : ∀ k, k ≤ i → ∀ c, LU.eliminate A rows cols i k c = A k c := fun k hk c => by
    rw [eliminate_apply A hi hic, if_neg (by omega)]
  by_cases hri : r ≤ i
  · rw [show min r (i + 1) = min r i by omega]
    congr 1
    · refine Finset.sum_congr rfl (fun k hk => ?_)
      rw [Finset.mem_range] at hk
      rw [low r hri, low k (by omega)]
    · rw [low r hri]
  · rw [show min r (i + 1) = i + 1 by omega, show min r i = i by omega, Finset.sum_range_succ, add_assoc]
    have hE : ∀ c, LU.eliminate A rows cols i r c =
        if c = i then A r i / A i i else if i < c ∧ c < cols then A r c - A r i / A i i * A i c else A r c :=
      fun c => by rw [eliminate_apply A hi hic, if_pos ⟨by omega, hr⟩]
    congr 1
    · refine Finset.sum_congr rfl (fun k hk => ?_)
      rw [Finset.mem_range] at hk
      rw [low k (by omega), hE k, if_neg (show ¬ k = i by omega), if_neg (show ¬ (i < k ∧ k < cols) by omega)]
    · rw [low i le_rfl, hE i, if_pos rfl, hE c]
      rcases lt_trichotomy c i with hlt | rfl | hgt
      · rw [if_neg (by omega), if_neg (by omega), if_neg (by omega), add_zero]
      · rw [if_pos le_rfl, if_pos le_rfl, if_neg (by omega), add_zero, div_mul_cancel₀ _ ha]
      · rw [if_pos hgt.le, if_pos hgt.le, if_pos (show i + 1 ≤ c from hgt), if_neg (by omega), if_pos ⟨hgt, hc⟩]
        ring

/-! ### Index arrays -/

/-- The array `p` is the permutation `σ`. -/
def IsPerm {n : ℕ} (p : ℕ → ℕ) (σ : Equiv.Perm (Fin n)) : Prop := ∀ i : Fin n, p i = (σ i : Fin n)

theorem IsPerm.swap {n : ℕ} {p : ℕ → ℕ} {σ : Equiv.Perm (Fin n)} (h : IsPerm p σ) {i j : ℕ} (hi : i < n)
    (hj : j < n) : IsPerm (swapIdx p i j) (σ * Equiv.swap ⟨i, hi⟩ ⟨j, hj⟩) := by
  intro k
  have : Equiv.swap i j (k : ℕ) = (Equiv.swap (⟨i, hi⟩ : Fin n) ⟨j, hj⟩ k : Fin n) := by
    rw [Equiv.swap_apply_def, Equiv.swap_apply_def]
    simp only [Fin.ext_iff]
    split_ifs <;> rfl
  rw [swapIdx_apply, this, h, Equiv.Perm.mul_apply]

end Geomc.LU
