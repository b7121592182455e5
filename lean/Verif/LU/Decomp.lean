import Mathlib.LinearAlgebra.Matrix.Determinant.Basic
import Mathlib.LinearAlgebra.Matrix.Block
import Mathlib.LinearAlgebra.Matrix.NonsingularInverse
import Mathlib.Algebra.Order.AbsoluteValue.Basic
import Verif.LU.Lemmas
import Verif.Perms.Props

/-!
# C31: LU decomposition
-/

namespace Geomc.LU

variable {K : Type} [Field K] [LinearOrder K] [IsStrictOrderedRing K]

/-- The matrix held by an array. -/
def view (A : ℕ → ℕ → K) (rows cols : ℕ) : Matrix (Fin rows) (Fin cols) K := Matrix.of fun r c => A r c

/-- The lower factor of a decomposed array: the elements left of the diagonal, and ones on it. -/
def lower (A : ℕ → ℕ → K) (rows n : ℕ) : Matrix (Fin rows) (Fin n) K :=
  Matrix.of fun r k => if (k : ℕ) < r then A r k else if (k : ℕ) = r then 1 else 0

/-- The upper factor: the diagonal and what is right of it. -/
def upper (A : ℕ → ℕ → K) (n cols : ℕ) : Matrix (Fin n) (Fin cols) K :=
  Matrix.of fun k c => if (k : ℕ) ≤ c then A k c else 0

/-! ### The loop invariant -/

structure PluInv (A₀ : ℕ → ℕ → K) (rows cols i : ℕ) (s : State K) : Prop where
  perm : ∃ σ : Equiv.Perm (Fin rows), IsPerm s.p σ ∧ Equiv.Perm.sign σ = if s.parity then -1 else 1
  fac : Factors (fun r c => A₀ (s.p r) c) s.A rows cols i
  bad : s.bad = ((Finset.range i).filter (fun k => s.A k k = 0)).card
  mult : ∀ k < i, ∀ r, k < r → r < rows → |s.A r k| ≤ 1

theorem PluInv.step {A₀ : ℕ → ℕ → K} {rows cols i : ℕ} {s : State K} (h : PluInv A₀ rows cols i s)
    (hr : i < rows) (hc : i < cols) : PluInv A₀ rows cols (i + 1) (pluStep rows cols i s) := by
  obtain ⟨h1, h2, h3, h4⟩ := findRowPivot_spec s.A hr
  unfold pluStep
  generalize findRowPivot s.A rows i = q at h1 h2 h3 h4
  obtain ⟨pvt, big⟩ := q
  simp only at h1 h2 h3 h4 ⊢
  by_cases hbig : big = 0
  · rw [if_pos hbig]
    have hz : ∀ r, i ≤ r → r < rows → s.A r i = 0 := fun r hr hr' =>
      abs_eq_zero.1 (le_antisymm ((h4 r hr hr').trans hbig.le) (abs_nonneg _))
    refine ⟨h.perm, h.fac.degenerate hz, ?_, ?_⟩
    · show s.bad + 1 = _
      rw [Finset.range_add_one, Finset.filter_insert, if_pos (hz i le_rfl hr), Finset.card_insert_of_notMem (by simp),
        ← h.bad]
    · intro k hk r hkr hr'
      rcases Nat.lt_or_eq_of_le (Nat.lt_succ_iff.1 hk) with h' | rfl
      · exact h.mult k h' r hkr hr'
      · show |s.A r k| ≤ 1
        rw [hz r hkr.le hr', abs_zero]
        exact zero_le_one
  · rw [if_neg hbig]
    -- the state after the exchange
    have hx : ∃ s₁ : State K, (if pvt ≠ i then
        { s with A := swapRows s.A cols i pvt, p := swapIdx s.p i pvt, parity := !s.parity } else s) = s₁ ∧
        PluInv A₀ rows cols i s₁ ∧ |s₁.A i i| = big ∧ ∀ r, i ≤ r → r < rows → |s₁.A r i| ≤ big := by
      by_cases hp : pvt = i
      · refine ⟨s, if_neg (not_not.2 hp), h, ?_, h4⟩
        rw [h3, hp]
      · have hlt : i < pvt := lt_of_le_of_ne h1 (Ne.symm hp)
        refine ⟨_, if_pos hp, ⟨?_, ?_, ?_, ?_⟩, ?_, ?_⟩
        · obtain ⟨σ, hσ, hs⟩ := h.perm
          refine ⟨_, hσ.swap hr h2, ?_⟩
          rw [map_mul, hs, Equiv.Perm.sign_swap (by simpa [Fin.ext_iff] using hlt.ne)]
          cases s.parity <;> rfl
        · have := h.fac.swapRows hlt h2
          intro r hr c hc
          rw [← this r hr c hc]
          simp only [swapIdx_apply]
        · rw [h.bad]
          congr 1
          refine Finset.filter_congr (fun k hk => ?_)
          rw [Finset.mem_range] at hk
          show _ ↔ swapRows s.A cols i pvt k k = 0
          rw [swapRows_apply, if_pos (by omega), Equiv.swap_apply_of_ne_of_ne (by omega) (by omega)]
        · intro k hk r hkr hr'
          show |swapRows s.A cols i pvt r k| ≤ 1
          rw [swapRows_apply, if_pos (by omega)]
          refine h.mult k hk _ ?_ ?_ <;> rw [Equiv.swap_apply_def] <;> split_ifs <;> omega
        · show |swapRows s.A cols i pvt i i| = big
          rw [swapRows_apply, if_pos hc, Equiv.swap_apply_left, h3]
        · intro r hir hr'
          show |swapRows s.A cols i pvt r i| ≤ big
          rw [swapRows_apply, if_pos hc]
          refine h4 _ ?_ ?_ <;> rw [Equiv.swap_apply_def] <;> split_ifs <;> omega
    obtain ⟨s₁, e, hs₁, hii, hmax⟩ := hx
    rw [e]
    have hne : s₁.A i i ≠ 0 := fun h0 => hbig (by rw [← hii, h0, abs_zero])
    have low : ∀ k, k ≤ i → ∀ c, eliminate s₁.A rows cols i k c = s₁.A k c := fun k hk c => by
      rw [eliminate_apply s₁.A hr hc, if_neg (by omega)]
    refine ⟨hs₁.perm, hs₁.fac.eliminate hr hc hne, ?_, ?_⟩
    · show s₁.bad = _
      rw [Finset.range_add_one, Finset.filter_insert]
      simp only
      rw [if_neg (by rw [low i le_rfl]; exact hne), hs₁.bad]
      congr 1
      refine Finset.filter_congr (fun k hk => ?_)
      rw [Finset.mem_range] at hk
      rw [low k hk.le]
    · intro k hk r hkr hr'
      show |eliminate s₁.A rows cols i r k| ≤ 1
      rw [eliminate_apply s₁.A hr hc]
      rcases Nat.lt_or_eq_of_le (Nat.lt_succ_iff.1 hk) with h' | rfl
      · have := hs₁.mult k h' r hkr hr'
        rw [if_neg (show ¬ k = i by omega), if_neg (show ¬ (i < k ∧ k < cols) by omega), ite_self]
        exact this
      · rw [if_pos ⟨hkr, hr'⟩, if_pos rfl, abs_div, hii]
        exact div_le_one_of_le₀ (hmax r hkr.le hr') (hii ▸ abs_nonneg _)

theorem plu_inv (A : ℕ → ℕ → K) (rows cols : ℕ) :
    PluInv A rows cols (min rows cols - 1) (decompPlu A rows cols) := by
  refine loop_inv (n := min rows cols - 1) (PluInv A rows cols) ⟨⟨1, fun i => rfl, by simp⟩, ?_, by simp, ?_⟩ ?_
  · exact Factors.zero A rows cols
  · intro k hk
    omega
  · intro i hi s h
    exact h.step (by omega) (by omega)

omit [LinearOrder K] [IsStrictOrderedRing K] in
/-- The product of the stored factors, row by row. -/
theorem lower_mul_upper (A : ℕ → ℕ → K) (rows n cols : ℕ) (r : Fin rows) (c : Fin cols) :
    (lower A rows n * upper A n cols) r c =
      (∑ k ∈ Finset.range (min r n), if k ≤ (c : ℕ) then A r k * A k c else 0) +
        if (r : ℕ) < n ∧ (r : ℕ) ≤ c then A r c else 0 := by
  rw [Matrix.mul_apply]
  have : ∀ k : Fin n, lower A rows n r k * upper A n cols k c =
      (fun k : ℕ => if k < r then (if k ≤ (c : ℕ) then A r k * A k c else 0) else
        if k = r then (if (r : ℕ) ≤ c then A r c else 0) else 0) k := by
    intro k
    simp only [lower, upper, Matrix.of_apply]
    by_cases h1 : (k : ℕ) < r
    · rw [if_pos h1, if_pos h1, mul_ite, mul_zero]
    · rw [if_neg h1, if_neg h1]
      by_cases h2 : (k : ℕ) = r
      · rw [if_pos h2, if_pos h2, one_mul, h2]
      · rw [if_neg h2, if_neg h2, zero_mul]
  rw [Finset.sum_congr rfl (fun k _ => this k), Fin.sum_univ_eq_sum_range (fun k : ℕ =>
      if k < r then (if k ≤ (c : ℕ) then A r k * A k c else 0) else
        if k = r then (if (r : ℕ) ≤ c then A r c else 0) else 0) n]
  have split : ∀ k, (if k < (r : ℕ) then (if k ≤ (c : ℕ) then A r k * A k c else 0) else
        if k = r then (if (r : ℕ) ≤ c then A r c else 0) else 0) =
      (if k < (r : ℕ) then (if k ≤ (c : ℕ) then A r k * A k c else 0) else 0) +
        (if k = (r : ℕ) then (if (r : ℕ) ≤ c then A r c else 0) else 0) := by
    intro k
    by_cases h1 : k < (r : ℕ)
    · rw [if_pos h1, if_pos h1, if_neg (show ¬ k = (r : ℕ) by omega), add_zero]
    · rw [if_neg h1, if_neg h1, zero_add]
  rw [Finset.sum_congr rfl (fun k _ => split k), Finset.sum_add_distrib]
  congr 1
  · rw [← Finset.sum_filter]
    refine Finset.sum_congr ?_ (fun _ _ => rfl)
    ext k
    simp only [Finset.mem_filter, Finset.mem_range]
    omega
  · rw [Finset.sum_ite_eq' (Finset.range n)]
    simp only [Finset.mem_range]
    by_cases h1 : (r : ℕ) < n
    · rw [if_pos h1]
      exact if_congr (by simp [h1]) rfl rfl
    · rw [if_neg h1, if_neg (fun h => h1 h.1)]

/-! ### C31 -/

/-- **C31**: for every array with no more rows than columns, degenerate or not, the factors stored by `decomp_plu`
multiply to the input with its rows in the order of `reorder`, which is a permutation of the reported parity. -/
theorem C31_plu (A : ℕ → ℕ → K) {rows cols : ℕ} (h : rows ≤ cols) :
    ∃ σ : Equiv.Perm (Fin rows), (∀ r : Fin rows, (decompPlu A rows cols).p r = (σ r : Fin rows)) ∧
      (Equiv.Perm.sign σ = if (decompPlu A rows cols).parity then -1 else 1) ∧
      lower (decompPlu A rows cols).A rows rows * upper (decompPlu A rows cols).A rows cols =
        (view A rows cols).submatrix σ id := by
  obtain ⟨⟨σ, hσ, hs⟩, hf, -, -⟩ := plu_inv A rows cols
  refine ⟨σ, hσ, hs, ?_⟩
  ext r c
  rw [lower_mul_upper]
  have := hf r r.2 c c.2
  simp only [hσ r] at this
  rw [show min (r : ℕ) (min rows cols - 1) = r by omega] at this
  rw [show min (r : ℕ) rows = r by omega, if_congr (show (r : ℕ) < rows ∧ (r : ℕ) ≤ c ↔ (r : ℕ) ≤ c by omega)
    rfl rfl, ← this]
  rfl

/-- **C31** for tall arrays: the last column is never eliminated, so the factors are right exactly when there is
nothing to eliminate in it, or when the last pivot happens to be one. -/
theorem C31_plu_tall_iff (A : ℕ → ℕ → K) {rows cols : ℕ} (h0 : 0 < cols) (h : cols < rows) :
    ∃ σ : Equiv.Perm (Fin rows), (∀ r : Fin rows, (decompPlu A rows cols).p r = (σ r : Fin rows)) ∧
      (Equiv.Perm.sign σ = if (decompPlu A rows cols).parity then -1 else 1) ∧
      (lower (decompPlu A rows cols).A rows cols * upper (decompPlu A rows cols).A cols cols =
        (view A rows cols).submatrix σ id ↔
        ∀ r, cols ≤ r → r < rows → (decompPlu A rows cols).A r (cols - 1) = 0 ∨
          (decompPlu A rows cols).A (cols - 1) (cols - 1) = 1) := by
  obtain ⟨⟨σ, hσ, hs⟩, hf, -, -⟩ := plu_inv A rows cols
  refine ⟨σ, hσ, hs, ?_⟩
  set D := (decompPlu A rows cols).A with hD
  rw [show min rows cols - 1 = cols - 1 by omega] at hf
  have low : ∀ (r : Fin rows) (c : Fin cols), (r : ℕ) < cols →
      (lower D rows cols * upper D cols cols) r c = A (σ r : Fin rows) c := by
    intro r c hr
    rw [lower_mul_upper]
    have := hf r r.2 c c.2
    simp only [hσ r] at this
    rw [show min (r : ℕ) (cols - 1) = r by omega] at this
    rw [show min (r : ℕ) cols = r by omega, if_congr (show (r : ℕ) < cols ∧ (r : ℕ) ≤ c ↔ (r : ℕ) ≤ c by omega)
      rfl rfl, ← this]
  have high : ∀ (r : Fin rows) (c : Fin cols), cols ≤ (r : ℕ) →
      (lower D rows cols * upper D cols cols) r c = A (σ r : Fin rows) c +
        if (c : ℕ) = cols - 1 then D r (cols - 1) * (D (cols - 1) (cols - 1) - 1) else 0 := by
    intro r c hr
    rw [lower_mul_upper]
    have := hf r r.2 c c.2
    simp only [hσ r] at this
    rw [show min (r : ℕ) (cols - 1) = cols - 1 by omega] at this
    rw [this, if_neg (show ¬ ((r : ℕ) < cols ∧ (r : ℕ) ≤ c) by omega), add_zero,
      show min (r : ℕ) cols = cols - 1 + 1 by omega, Finset.sum_range_succ, add_assoc]
    congr 1
    by_cases hc : (c : ℕ) = cols - 1
    · rw [if_pos hc, if_pos hc.ge, if_pos hc.ge, hc]
      ring
    · rw [if_neg hc, if_neg (by omega), if_neg (by omega), add_zero]
  constructor
  · intro he r hr hr'
    have := congrFun (congrFun he ⟨r, hr'⟩) ⟨cols - 1, by omega⟩
    rw [high ⟨r, hr'⟩ ⟨cols - 1, by omega⟩ hr, if_pos rfl] at this
    have h2 : D r (cols - 1) * (D (cols - 1) (cols - 1) - 1) = 0 := by
      have h3 : (view A rows cols).submatrix σ id ⟨r, hr'⟩ ⟨cols - 1, by omega⟩ =
        A (σ ⟨r, hr'⟩ : Fin rows) (cols - 1) := rfl
      rw [h3] at this
      linarith
    rcases mul_eq_zero.1 h2 with h3 | h3
    · exact Or.inl h3
    · exact Or.inr (sub_eq_zero.1 h3)
  · intro hall
    ext r c
    by_cases hr : (r : ℕ) < cols
    · exact low r c hr
    · rw [high r c (by omega)]
      have : D r (cols - 1) * (D (cols - 1) (cols - 1) - 1) = 0 := by
        rcases hall r (by omega) r.2 with h3 | h3
        · rw [h3, zero_mul]
        · rw [h3, sub_self, mul_zero]
      rw [this, ite_self, add_zero]
      rfl

/-- **C31** refuted for tall arrays: a column of two numbers. -/
theorem C31_tall_refuted :
    let s := decompPlu (fun r _ => if r = 0 then (2 : ℚ) else 4) 2 1
    s.bad = 0 ∧ (lower s.A 2 1 * upper s.A 1 1) 1 0 ≠ 4 ∧ (lower s.A 2 1 * upper s.A 1 1) 1 0 ≠ 2 := by
  decide +kernel

/-- **C31**: the returned count is the number of zero pivots before the last diagonal position. -/
theorem C31_plu_count (A : ℕ → ℕ → K) (rows cols : ℕ) :
    (decompPlu A rows cols).bad =
      ((Finset.range (min rows cols - 1)).filter (fun k => (decompPlu A rows cols).A k k = 0)).card :=
  (plu_inv A rows cols).bad

/-! ### Square arrays -/

omit [LinearOrder K] [IsStrictOrderedRing K] in
theorem lower_det (A : ℕ → ℕ → K) (n : ℕ) : (lower A n n).det = 1 := by
  rw [Matrix.det_of_lowerTriangular]
  · refine Finset.prod_eq_one (fun i _ => ?_)
    simp [lower]
  · intro i j hij
    have hij : (i : ℕ) < j := hij
    simp only [lower, Matrix.of_apply]
    rw [if_neg (by omega), if_neg (by omega)]

omit [LinearOrder K] [IsStrictOrderedRing K] in
theorem upper_det (A : ℕ → ℕ → K) (n : ℕ) : (upper A n n).det = ∏ i : Fin n, A i i := by
  rw [Matrix.det_of_upperTriangular]
  · refine Finset.prod_congr rfl (fun i _ => ?_)
    simp [upper]
  · intro i j hij
    have hij : (j : ℕ) < i := hij
    simp only [upper, Matrix.of_apply]
    rw [if_neg (by omega)]

/-- The determinant, from the factors. -/
theorem plu_det (A : ℕ → ℕ → K) (n : ℕ) :
    (view A n n).det = (if (decompPlu A n n).parity then -1 else 1) *
      ∏ i : Fin n, (decompPlu A n n).A i i := by
  obtain ⟨σ, -, hs, he⟩ := C31_plu A (le_refl n)
  have := congrArg Matrix.det he
  rw [Matrix.det_mul, lower_det, upper_det, one_mul, Matrix.det_permute, hs] at this
  rw [this]
  cases (decompPlu A n n).parity <;> simp

theorem plu_det_ne_zero (A : ℕ → ℕ → K) (n : ℕ) :
    (view A n n).det ≠ 0 ↔ ∀ i < n, (decompPlu A n n).A i i ≠ 0 := by
  rw [plu_det, mul_ne_zero_iff, Finset.prod_ne_zero_iff]
  constructor
  · rintro ⟨-, h⟩ i hi
    exact h ⟨i, hi⟩ (Finset.mem_univ _)
  · intro h
    refine ⟨by split_ifs <;> simp, fun i _ => h i i.2⟩

/-- **C31**: a square array reported as degenerate is singular. -/
theorem C31_degenerate (A : ℕ → ℕ → K) (n : ℕ) (h : (decompPlu A n n).bad ≠ 0) : (view A n n).det = 0 := by
  by_contra hne
  rw [← ne_eq, plu_det_ne_zero] at hne
  apply h
  rw [C31_plu_count, Finset.card_eq_zero, Finset.filter_eq_empty_iff]
  intro k hk
  rw [Finset.mem_range] at hk
  exact hne k (by omega)

/-! ### Column pivoting -/

structure LupInv (A₀ : ℕ → ℕ → K) (rows cols i : ℕ) (s : State K) : Prop where
  perm : ∃ σ : Equiv.Perm (Fin cols), IsPerm s.p σ ∧ Equiv.Perm.sign σ = if s.parity then -1 else 1
  fac : s.bad = 0 → Factors (fun r c => A₀ r (s.p c)) s.A rows cols i
  bad : s.bad = ((Finset.range i).filter (fun k => s.A k k = 0)).card
  mult : ∀ k < i, ∀ c, k < c → c < cols → |s.A k c| ≤ |s.A k k|

theorem LupInv.step {A₀ : ℕ → ℕ → K} {rows cols i : ℕ} {s : State K} (h : LupInv A₀ rows cols i s)
    (hr : i < rows) (hc : i < cols) : LupInv A₀ rows cols (i + 1) (lupStep rows cols i s) := by
  obtain ⟨h1, h2, h3, h4⟩ := findRowPivot_spec (fun r c => s.A c r) hc
  rw [← findColPivot_eq] at h1 h2 h3 h4
  unfold lupStep
  generalize findColPivot s.A cols i = q at h1 h2 h3 h4
  obtain ⟨pvt, big⟩ := q
  simp only at h1 h2 h3 h4 ⊢
  by_cases hbig : big = 0
  · rw [if_pos hbig]
    have hz : ∀ r, i ≤ r → r < cols → s.A i r = 0 := fun r hr hr' =>
      abs_eq_zero.1 (le_antisymm ((h4 r hr hr').trans hbig.le) (abs_nonneg _))
    refine ⟨h.perm, fun h0 => absurd h0 (Nat.succ_ne_zero _), ?_, ?_⟩
    · show s.bad + 1 = _
      rw [Finset.range_add_one, Finset.filter_insert, if_pos (hz i le_rfl hc), Finset.card_insert_of_notMem (by simp),
        ← h.bad]
    · intro k hk r hkr hr'
      rcases Nat.lt_or_eq_of_le (Nat.lt_succ_iff.1 hk) with h' | rfl
      · exact h.mult k h' r hkr hr'
      · show |s.A k r| ≤ |s.A k k|
        rw [hz r hkr.le hr', abs_zero]
        exact abs_nonneg _
  · rw [if_neg hbig]
    have hx : ∃ s₁ : State K, (if pvt ≠ i then
        { s with A := swapCols s.A rows i pvt, p := swapIdx s.p i pvt, parity := !s.parity } else s) = s₁ ∧
        LupInv A₀ rows cols i s₁ ∧ |s₁.A i i| = big ∧ ∀ r, i ≤ r → r < cols → |s₁.A i r| ≤ big := by
      by_cases hp : pvt = i
      · refine ⟨s, if_neg (not_not.2 hp), h, ?_, h4⟩
        rw [h3, hp]
      · have hlt : i < pvt := lt_of_le_of_ne h1 (Ne.symm hp)
        refine ⟨_, if_pos hp, ⟨?_, ?_, ?_, ?_⟩, ?_, ?_⟩
        · obtain ⟨σ, hσ, hs⟩ := h.perm
          refine ⟨_, hσ.swap hc h2, ?_⟩
          rw [map_mul, hs, Equiv.Perm.sign_swap (by simpa [Fin.ext_iff] using hlt.ne)]
          cases s.parity <;> rfl
        · intro h0
          have := (h.fac h0).swapCols hlt h2
          intro r hr c hc
          rw [← this r hr c hc]
          simp only [swapIdx_apply]
        · rw [h.bad]
          congr 1
          refine Finset.filter_congr (fun k hk => ?_)
          rw [Finset.mem_range] at hk
          show _ ↔ swapCols s.A rows i pvt k k = 0
          rw [swapCols_apply, if_pos (by omega), Equiv.swap_apply_of_ne_of_ne (by omega) (by omega)]
        · intro k hk r hkr hr'
          show |swapCols s.A rows i pvt k r| ≤ |swapCols s.A rows i pvt k k|
          rw [swapCols_apply, if_pos (by omega), swapCols_apply, if_pos (by omega),
            Equiv.swap_apply_of_ne_of_ne (show k ≠ i by omega) (by omega)]
          refine h.mult k hk _ ?_ ?_ <;> rw [Equiv.swap_apply_def] <;> split_ifs <;> omega
        · show |swapCols s.A rows i pvt i i| = big
          rw [swapCols_apply, if_pos hr, Equiv.swap_apply_left, h3]
        · intro r hir hr'
          show |swapCols s.A rows i pvt i r| ≤ big
          rw [swapCols_apply, if_pos hr]
          refine h4 _ ?_ ?_ <;> rw [Equiv.swap_apply_def] <;> split_ifs <;> omega
    obtain ⟨s₁, e, hs₁, hii, hmax⟩ := hx
    rw [e]
    have hne : s₁.A i i ≠ 0 := fun h0 => hbig (by rw [← hii, h0, abs_zero])
    have low : ∀ k, k ≤ i → ∀ c, eliminate s₁.A rows cols i k c = s₁.A k c := fun k hk c => by
      rw [eliminate_apply s₁.A hr hc, if_neg (by omega)]
    refine ⟨hs₁.perm, fun h0 => (hs₁.fac h0).eliminate hr hc hne, ?_, ?_⟩
    · show s₁.bad = _
      rw [Finset.range_add_one, Finset.filter_insert]
      simp only
      rw [if_neg (by rw [low i le_rfl]; exact hne), hs₁.bad]
      congr 1
      refine Finset.filter_congr (fun k hk => ?_)
      rw [Finset.mem_range] at hk
      rw [low k hk.le]
    · intro k hk r hkr hr'
      show |eliminate s₁.A rows cols i k r| ≤ |eliminate s₁.A rows cols i k k|
      rw [low k (by omega), low k (by omega)]
      rcases Nat.lt_or_eq_of_le (Nat.lt_succ_iff.1 hk) with h' | rfl
      · exact hs₁.mult k h' r hkr hr'
      · rw [hii]
        exact hmax r hkr.le hr'

theorem lup_inv (A : ℕ → ℕ → K) (rows cols : ℕ) :
    LupInv A rows cols (min rows cols - 1) (decompLup A rows cols) := by
  refine loop_inv (n := min rows cols - 1) (LupInv A rows cols) ⟨⟨1, fun i => rfl, by simp⟩, ?_, by simp, ?_⟩ ?_
  · exact fun _ => Factors.zero A rows cols
  · intro k hk
    omega
  · intro i hi s h
    exact h.step (by omega) (by omega)

/-- **C31** for `decomp_lup`: when no degenerate column is reported, the factors multiply to the input with its
columns in the order of `reorder`, which is a permutation of the reported parity. -/
theorem C31_lup (A : ℕ → ℕ → K) {rows cols : ℕ} (h : rows ≤ cols) (h0 : (decompLup A rows cols).bad = 0) :
    ∃ σ : Equiv.Perm (Fin cols), (∀ c : Fin cols, (decompLup A rows cols).p c = (σ c : Fin cols)) ∧
      (Equiv.Perm.sign σ = if (decompLup A rows cols).parity then -1 else 1) ∧
      lower (decompLup A rows cols).A rows rows * upper (decompLup A rows cols).A rows cols =
        (view A rows cols).submatrix id σ := by
  obtain ⟨⟨σ, hσ, hs⟩, hf, -, -⟩ := lup_inv A rows cols
  refine ⟨σ, hσ, hs, ?_⟩
  ext r c
  rw [lower_mul_upper]
  have := hf h0 r r.2 c c.2
  simp only [hσ c] at this
  rw [show min (r : ℕ) (min rows cols - 1) = r by omega] at this
  rw [show min (r : ℕ) rows = r by omega, if_congr (show (r : ℕ) < rows ∧ (r : ℕ) ≤ c ↔ (r : ℕ) ≤ c by omega)
    rfl rfl, ← this]
  rfl

/-- **C31**: the count of `decomp_lup`. -/
theorem C31_lup_count (A : ℕ → ℕ → K) (rows cols : ℕ) :
    (decompLup A rows cols).bad =
      ((Finset.range (min rows cols - 1)).filter (fun k => (decompLup A rows cols).A k k = 0)).card :=
  (lup_inv A rows cols).bad

/-- Unlike `decomp_plu`, `decomp_lup` leaves no factorisation behind when it meets a degenerate column. -/
theorem C31_lup_degenerate_refuted :
    let s := decompLup (fun r c => if r = 1 ∧ c = 0 then (1 : ℚ) else 0) 2 2
    s.bad = 1 ∧ ∀ r c, (lower s.A 2 2 * upper s.A 2 2) r c = 0 := by
  decide +kernel

/-! ### C73 -/

/-- **C73**: row pivoting keeps every multiplier in the lower factor within `[-1, 1]`. -/
theorem C73_plu (A : ℕ → ℕ → K) {rows cols : ℕ} (h : rows ≤ cols) (r k : Fin rows) :
    |lower (decompPlu A rows cols).A rows rows r k| ≤ 1 := by
  simp only [lower, Matrix.of_apply]
  split_ifs with h1
  · exact (plu_inv A rows cols).mult k (by omega) r h1 r.2
  · simp
  · simp

/-- **C73**: column pivoting keeps every element of a row of the upper factor within the pivot. -/
theorem C73_lup (A : ℕ → ℕ → K) {rows cols k c : ℕ} (hk : k + 1 < min rows cols) (hkc : k ≤ c) (hc : c < cols) :
    |(decompLup A rows cols).A k c| ≤ |(decompLup A rows cols).A k k| := by
  rcases Nat.lt_or_eq_of_le hkc with h | rfl
  · exact (lup_inv A rows cols).mult k (by omega) c h hc
  · exact le_rfl

/-! ### Concrete instances -/

example : let s := decompPlu (fun r c => if r = 0 then (if c = 0 then (1 : ℚ) else 2) else 3 + (c : ℚ)) 2 2
    (s.p 0, s.p 1, s.parity, s.bad) = (1, 0, true, 0) ∧
    (s.A 0 0, s.A 0 1, s.A 1 0, s.A 1 1) = (3, 4, 1 / 3, 2 / 3) := by decide +kernel

example : let s := decompLup (fun r c => if r = 0 then (if c = 0 then (1 : ℚ) else 2) else 3 + (c : ℚ)) 2 2
    (s.p 0, s.p 1, s.parity, s.bad) = (1, 0, true, 0) ∧
    (s.A 0 0, s.A 0 1, s.A 1 0, s.A 1 1) = (2, 1, 2, 1) := by decide +kernel

end Geomc.LU
