import Mathlib.LinearAlgebra.Matrix.NonsingularInverse
import Mathlib.LinearAlgebra.Matrix.Permanent
import Mathlib.GroupTheory.Perm.Fin
import Verif.LU.SmallFloatModel
import Verif.LU.Small
import Verif.Float.Vec
import Verif.Float.Range

/-! # Property C116: rounding errors of determinants and inverses of sizes 2, 3 and 4 -/

namespace Geomc.LU

open Geomc.Flt

variable {K : Type} [Field K] [LinearOrder K] [IsStrictOrderedRing K] [FloorRing K]

/-! ## Approximations -/

/-- `y` is `x` up to `c - 1` relative to `A`, which is not less than `|x|`. -/
def Ap (c y x A : K) : Prop := |y - x| ≤ (c - 1) * A ∧ |x| ≤ A

theorem Ap.nonneg {c y x A : K} (h : Ap c y x A) : 0 ≤ A := (abs_nonneg x).trans h.2

theorem Ap.mono {c d y x A B : K} (h : Ap c y x A) (h1 : 1 ≤ c) (hc : c ≤ d) (hA : A ≤ B) : Ap d y x B :=
  ⟨h.1.trans (mul_le_mul (by linarith) hA h.nonneg (by linarith)), h.2.trans hA⟩

theorem Ap.mul {c d y x A v w B : K} (h : Ap c y x A) (h' : Ap d v w B) (hc : 1 ≤ c) (hd : 1 ≤ d) :
    Ap (c * d) (y * v) (x * w) (A * B) := by
  have hv : |v| ≤ d * B := by
    have := abs_sub_abs_le_abs_sub v w
    linarith [h'.1, h'.2]
  refine ⟨?_, ?_⟩
  · have e : y * v - x * w = (y - x) * v + x * (v - w) := by ring
    rw [e]
    refine (abs_add_le _ _).trans ?_
    rw [abs_mul, abs_mul]
    have t1 := mul_le_mul h.1 hv (abs_nonneg _) (mul_nonneg (by linarith) h.nonneg)
    have t2 := mul_le_mul h.2 h'.1 (abs_nonneg _) h.nonneg
    linarith
  · rw [abs_mul]
    exact mul_le_mul h.2 h'.2 (abs_nonneg _) h.nonneg

theorem Ap.scale {c y x A : K} (h : Ap c y x A) (a : K) : Ap c (a * y) (a * x) (|a| * A) := by
  refine ⟨?_, ?_⟩
  · rw [← mul_sub, abs_mul]
    have := mul_le_mul_of_nonneg_left h.1 (abs_nonneg a)
    linarith
  · rw [abs_mul]
    exact mul_le_mul_of_nonneg_left h.2 (abs_nonneg a)

theorem Ap.add {c y x A v w B : K} (h : Ap c y x A) (h' : Ap c v w B) : Ap c (y + v) (x + w) (A + B) := by
  refine ⟨?_, (abs_add_le _ _).trans (add_le_add h.2 h'.2)⟩
  rw [show y + v - (x + w) = (y - x) + (v - w) by ring, mul_add]
  exact (abs_add_le _ _).trans (add_le_add h.1 h'.1)

theorem Ap.neg {c y x A : K} (h : Ap c y x A) : Ap c (-y) (-x) A := by
  refine ⟨?_, by rw [abs_neg]; exact h.2⟩
  rw [show -y - -x = -(y - x) by ring, abs_neg]
  exact h.1

theorem Ap.sub {c y x A v w B : K} (h : Ap c y x A) (h' : Ap c v w B) : Ap c (y - v) (x - w) (A + B) := by
  rw [sub_eq_add_neg, sub_eq_add_neg]
  exact h.add h'.neg

/-- A further relative error. -/
theorem Ap.rel {c y x A r δ : K} (h : Ap c y x A) (hδ : 0 ≤ δ) (hr : |r - y| ≤ δ * |y|) : Ap (c * (1 + δ)) r x A := by
  refine ⟨?_, h.2⟩
  have hy : |y| ≤ c * A := by
    have := abs_sub_abs_le_abs_sub y x
    linarith [h.1, h.2]
  have e : |r - x| ≤ |r - y| + |y - x| := by
    rw [show r - x = (r - y) + (y - x) by ring]
    exact abs_add_le _ _
  have := mul_le_mul_of_nonneg_left hy hδ
  linarith [h.1]

section Ops

variable {p : ℕ} (hp : 1 ≤ p) {rnd : K → K} (hr : IsRound p rnd)
include hp hr

theorem diff_float (a b c d : K) : IsFloat p (diffOfProducts rnd a b c d) ∧ IsFloat p (sumOfProducts rnd a b c d) :=
  ⟨hr.mem _, hr.mem _⟩

theorem diff_ap {c y x A v w B : K} {a b c' d : K} (hy : y = a * b) (hv : v = c' * d) (h : Ap c y x A) (h' : Ap c v w B)
    (ha : IsFloat p a) (hb : IsFloat p b) (hc : IsFloat p c') (hd : IsFloat p d) :
    Ap (c * (1 + 3 * eps K p)) (diffOfProducts rnd a b c' d) (x - w) (A + B) ∧
    Ap (c * (1 + 3 * eps K p)) (sumOfProducts rnd a b c' d) (x + w) (A + B) := by
  have e0 := eps_pos (K := K) p
  obtain ⟨r1, r2⟩ := C95_relative hp hr ha hb hc hd
  subst hy hv
  exact ⟨(h.sub h').rel (by linarith) r1, (h.add h').rel (by linarith) r2⟩

/-- `|a| |d| + |b| |c|`. -/
theorem det2_ap {a b c d : K} (ha : IsFloat p a) (hb : IsFloat p b) (hc : IsFloat p c) (hd : IsFloat p d) :
    Ap (1 + 3 * eps K p) (det2F rnd a b c d) (a * d - b * c) |a * d - b * c| ∧
    Ap (1 + 3 * eps K p) (det2F rnd a b c d) (a * d - b * c) (|a| * |d| + |b| * |c|) ∧ IsFloat p (det2F rnd a b c d) := by
  have e0 := eps_pos (K := K) p
  have h1 : Ap (1 + 3 * eps K p) (det2F rnd a b c d) (a * d - b * c) |a * d - b * c| := by
    refine ⟨?_, le_refl _⟩
    rw [add_sub_cancel_left]
    exact (C95_relative hp hr ha hd hb hc).1
  refine ⟨h1, h1.mono (by linarith) (le_refl _) ?_, hr.mem _⟩
  rw [← abs_mul, ← abs_mul]
  exact abs_sub _ _

theorem cofac_ap {c : K} (h1 : 1 ≤ c) {a b c' d e f B D F b0 d0 f0 : K} (hb : Ap c b b0 B) (hd : Ap c d d0 D) (hf : Ap c f f0 F)
    (fa : IsFloat p a) (fb : IsFloat p b) (fc : IsFloat p c') (fd : IsFloat p d) :
    Ap (c * (1 + 3 * eps K p) * (1 + eps K p)) (cofacF rnd a b c' d e f) (a * b0 - c' * d0 + e * f0) (|a| * B + |c'| * D + |e| * F) := by
  have e0 := eps_pos (K := K) p
  have t := (diff_ap hp hr rfl rfl (hb.scale a) (hd.scale c') fa fb fc fd).1
  have t2 := t.add ((hf.scale e).mono (d := c * (1 + 3 * eps K p)) h1 (by nlinarith) (le_refl _))
  refine t2.rel e0.le ?_
  unfold cofacF multiplyAdd
  rw [add_comm (e * f)]
  exact hr.rel hp _

theorem cofac_float (a b c d e f : K) : IsFloat p (cofacF rnd a b c d e f) := hr.mem _

/-- A rounded quotient. -/
theorem quot_ap {c y x A D : K} (h : Ap c y x A) (hD : D ≠ 0) : Ap (c * (1 + eps K p)) (rnd (y / D) * D) x A := by
  refine h.rel (eps_pos p).le ?_
  have := mul_le_mul_of_nonneg_right (hr.rel hp (y / D)) (abs_nonneg D)
  rw [← abs_mul, sub_mul, mul_assoc, ← abs_mul, div_mul_cancel₀ _ hD] at this
  exact this

end Ops

/-! ## Permanents -/

omit [LinearOrder K] [IsStrictOrderedRing K] [FloorRing K] in
theorem sum_perm_succ {n : ℕ} (f : Equiv.Perm (Fin (n + 1)) → K) :
    ∑ σ, f σ = ∑ i, ∑ τ : Equiv.Perm (Fin n), f (Equiv.Perm.decomposeFin.symm (i, τ)) := by
  rw [← Equiv.sum_comp Equiv.Perm.decomposeFin.symm, Fintype.sum_prod_type]

omit [LinearOrder K] [IsStrictOrderedRing K] [FloorRing K] in
theorem permanent_three (M : Matrix (Fin 3) (Fin 3) K) : M.permanent =
    M 0 0 * (M 1 1 * M 2 2 + M 1 2 * M 2 1) + M 0 1 * (M 1 0 * M 2 2 + M 1 2 * M 2 0) + M 0 2 * (M 1 0 * M 2 1 + M 1 1 * M 2 0) := by
  unfold Matrix.permanent
  simp only [sum_perm_succ, Fin.sum_univ_succ, Fin.prod_univ_succ, Finset.univ_unique, Finset.sum_singleton, Finset.prod_singleton,
    Equiv.Perm.decomposeFin_symm_apply_succ, Equiv.Perm.decomposeFin_symm_apply_zero]
  simp [Equiv.swap_apply_def, Fin.ext_iff]
  ring

omit [LinearOrder K] [IsStrictOrderedRing K] [FloorRing K] in
theorem permanent_four (M : Matrix (Fin 4) (Fin 4) K) : M.permanent =
    (M 0 0 * M 1 1 + M 0 1 * M 1 0) * (M 2 2 * M 3 3 + M 2 3 * M 3 2) + (M 0 0 * M 1 2 + M 0 2 * M 1 0) * (M 2 1 * M 3 3 + M 2 3 * M 3 1) +
    ((M 0 1 * M 1 2 + M 0 2 * M 1 1) * (M 2 0 * M 3 3 + M 2 3 * M 3 0) + (M 0 1 * M 1 3 + M 0 3 * M 1 1) * (M 2 0 * M 3 2 + M 2 2 * M 3 0)) +
    ((M 0 0 * M 1 3 + M 0 3 * M 1 0) * (M 2 1 * M 3 2 + M 2 2 * M 3 1) + (M 0 2 * M 1 3 + M 0 3 * M 1 2) * (M 2 0 * M 3 1 + M 2 1 * M 3 0)) := by
  unfold Matrix.permanent
  simp only [sum_perm_succ, Fin.sum_univ_succ, Fin.prod_univ_succ, Finset.univ_unique, Finset.sum_singleton, Finset.prod_singleton,
    Equiv.Perm.decomposeFin_symm_apply_succ, Equiv.Perm.decomposeFin_symm_apply_zero]
  simp [Equiv.swap_apply_def, Fin.ext_iff]
  ring

/-! ## Size two -/

theorem eps_third {p : ℕ} (hp : 2 ≤ p) : 3 * eps K p < 1 := by
  have : eps K p ≤ 2 ^ (-2 : ℤ) := zle (by omega)
  rw [show (2 : K) ^ (-2 : ℤ) = 1 / 4 by norm_num] at this
  linarith

/-- **C116.** A determinant of size two is right up to `3 ε` of itself, whatever the cancellation; in particular its sign is right, and
it is zero exactly for singular matrices. -/
theorem C116_det2 {p : ℕ} (hp : 2 ≤ p) {rnd : K → K} (hr : IsRound p rnd) {a b c d : K} (ha : IsFloat p a) (hb : IsFloat p b)
    (hc : IsFloat p c) (hd : IsFloat p d) :
    |det2F rnd a b c d - Matrix.det !![a, b; c, d]| ≤ 3 * 2 ^ (-(p : ℤ)) * |Matrix.det !![a, b; c, d]| ∧
    SignType.sign (det2F rnd a b c d) = SignType.sign (Matrix.det !![a, b; c, d]) := by
  rw [Matrix.det_fin_two_of]
  have h := (det2_ap (by omega) hr ha hb hc hd).1.1
  rw [add_sub_cancel_left] at h
  refine ⟨h, ?_⟩
  set x := a * d - b * c
  set y := det2F rnd a b c d
  have e := eps_third (K := K) hp
  have e0 := eps_pos (K := K) p
  rcases lt_trichotomy x 0 with hx | hx | hx
  · rw [sign_neg hx, sign_neg]
    rw [abs_of_neg hx] at h
    have := (abs_le.1 h).2
    nlinarith
  · rw [hx] at h ⊢
    simp only [sub_zero, abs_zero, mul_zero] at h
    rw [abs_eq_zero.1 (le_antisymm h (abs_nonneg _))]
  · rw [sign_pos hx, sign_pos]
    rw [abs_of_pos hx] at h
    have := (abs_le.1 h).1
    nlinarith

omit [FloorRing K] in
/-- From the adjugate to the inverse. -/
theorem close {c z D x A d η : K} (h : Ap c (z * D) x A) (hd : d ≠ 0) (hη : η < 1) (hD : |D - d| ≤ η * |d|) :
    D ≠ 0 ∧ |z - x / d| ≤ ((c - 1) * (A / |d|) + η * |x / d|) / (1 - η) := by
  have d0 := abs_pos.2 hd
  have hD1 : (1 - η) * |d| ≤ |D| := by
    have := abs_sub_abs_le_abs_sub d D
    rw [abs_sub_comm] at this
    linarith
  have D0 : 0 < |D| := lt_of_lt_of_le (mul_pos (by linarith) d0) hD1
  have hD0 : D ≠ 0 := abs_pos.1 D0
  refine ⟨hD0, ?_⟩
  rw [le_div_iff₀ (by linarith)]
  have key : (z - x / d) * D = (z * D - x) - x / d * (D - d) := by field_simp; ring
  have k2 : |z - x / d| * |D| ≤ (c - 1) * A + |x / d| * (η * |d|) := by
    rw [← abs_mul, key]
    refine (abs_sub _ _).trans (add_le_add h.1 ?_)
    rw [abs_mul]
    exact mul_le_mul_of_nonneg_left hD (abs_nonneg _)
  have k3 := mul_le_mul_of_nonneg_left hD1 (abs_nonneg (z - x / d))
  have k4 : ((c - 1) * (A / |d|) + η * |x / d|) * |d| = (c - 1) * A + |x / d| * (η * |d|) := by
    field_simp
  refine le_of_mul_le_mul_right ?_ d0
  rw [k4]
  calc |z - x / d| * (1 - η) * |d| = |z - x / d| * ((1 - η) * |d|) := by ring
    _ ≤ _ := k3.trans k2

theorem Ap.exact (x : K) : Ap 1 x x |x| := ⟨by simp, le_refl _⟩

/-- **C116.** The inverse of a matrix of size two: failure is reported exactly for singular matrices, and every element of the result is
right up to `4 ε / (1 - 3 ε)` of itself, however badly conditioned the matrix. -/
theorem C116_inv2 {p : ℕ} (hp : 2 ≤ p) {rnd : K → K} (hr : IsRound p rnd) (out : ℕ → K) {m : ℕ → K} (hm : ∀ k < 4, IsFloat p (m k)) :
    ((flat 2 true m).det = 0 → inv2F rnd out m = (false, out)) ∧
    ((flat 2 true m).det ≠ 0 → ∃ z, inv2F rnd out m = (true, z) ∧
      ∀ i j, |flat 2 true z i j - (flat 2 true m)⁻¹ i j| ≤ 4 * 2 ^ (-(p : ℤ)) / (1 - 3 * 2 ^ (-(p : ℤ))) * |(flat 2 true m)⁻¹ i j|) := by
  have hp1 : 1 ≤ p := by omega
  have hdet : (flat 2 true m).det = m 0 * m 3 - m 1 * m 2 := by
    rw [Matrix.det_fin_two]; simp [flat]
  have h := (det2_ap hp1 hr (hm 0 (by omega)) (hm 1 (by omega)) (hm 2 (by omega)) (hm 3 (by omega))).1.1
  rw [add_sub_cancel_left, ← hdet] at h
  set d := (flat 2 true m).det with hd
  constructor
  · intro h0
    have : det2F rnd (m 0) (m 1) (m 2) (m 3) = 0 := by
      rw [h0] at h
      simpa using h
    simp only [inv2F, this, if_true]
  · intro h0
    have hD := fun (x z : K) (hz : Ap (1 * (1 + eps K p)) (z * det2F rnd (m 0) (m 1) (m 2) (m 3)) x |x|) => close hz h0 (eps_third hp) h
    have hD0 := (hD 0 0 (by simp [Ap])).1
    refine ⟨_, by simp only [inv2F, if_neg hD0]; rfl, ?_⟩
    have fin : ∀ x, |rnd (x / det2F rnd (m 0) (m 1) (m 2) (m 3)) - x / d| ≤
        4 * 2 ^ (-(p : ℤ)) / (1 - 3 * 2 ^ (-(p : ℤ))) * |x / d| := by
      intro x
      refine (hD x _ (quot_ap hp1 hr (Ap.exact x) hD0)).2.trans (le_of_eq ?_)
      rw [← abs_div]
      unfold eps
      ring
    intro i j
    rw [Matrix.inv_def, Ring.inverse_eq_inv', ← hd, Matrix.adjugate_fin_two]
    fin_cases i <;> fin_cases j
    · simpa [flat, copyOut, div_eq_inv_mul] using fin (m 3)
    · simpa [flat, copyOut, div_eq_inv_mul] using fin (-m 1)
    · simpa [flat, copyOut, div_eq_inv_mul] using fin (-m 2)
    · simpa [flat, copyOut, div_eq_inv_mul] using fin (m 0)

/-! ## Size three -/

/-- **C116.** A determinant of size three, to within `(1 + 3 ε)² (1 + ε) - 1` of the permanent of the absolute values. -/
theorem C116_det3 {p : ℕ} (hp : 1 ≤ p) {rnd : K → K} (hr : IsRound p rnd) {m : ℕ → K} (hm : ∀ k < 9, IsFloat p (m k)) :
    |det3F rnd m - (flat 3 true m).det| ≤
      ((1 + 3 * 2 ^ (-(p : ℤ))) ^ 2 * (1 + 2 ^ (-(p : ℤ))) - 1) * ((flat 3 true m).map abs).permanent := by
  have e0 := eps_pos (K := K) p
  have h := cofac_ap hp hr (e := m 2) (by linarith) (det2_ap hp hr (hm 4 (by omega)) (hm 5 (by omega)) (hm 7 (by omega)) (hm 8 (by omega))).2.1
    (det2_ap hp hr (hm 3 (by omega)) (hm 5 (by omega)) (hm 6 (by omega)) (hm 8 (by omega))).2.1
    (det2_ap hp hr (hm 3 (by omega)) (hm 4 (by omega)) (hm 6 (by omega)) (hm 7 (by omega))).2.1
    (hm 0 (by omega)) (hr.mem _) (hm 1 (by omega)) (hr.mem _)
  have h1 := h.1
  rw [Matrix.det_fin_three, permanent_three]
  simp only [flat, if_true, Matrix.of_apply, Matrix.map_apply] at *
  norm_num at *
  unfold det3F
  refine le_trans (le_of_eq ?_) (h1.trans (le_of_eq ?_))
  · congr 1; ring
  · unfold eps; simp only [zpow_neg, zpow_natCast]; ring

/-- **C116.** The inverse of a matrix of size three is the adjugate, of which every element is right up to `(1 + 3 ε) (1 + ε) - 1` of
itself, divided by a determinant which is right up to `(1 + 3 ε)² (1 + ε) - 1` of the permanent of the absolute values; failure is
reported exactly if that determinant is computed as zero. -/
theorem C116_inv3 {p : ℕ} (hp : 1 ≤ p) {rnd : K → K} (hr : IsRound p rnd) (out : ℕ → K) {m : ℕ → K} (hm : ∀ k < 9, IsFloat p (m k)) :
    ∃ D, |D - (flat 3 true m).det| ≤
        ((1 + 3 * 2 ^ (-(p : ℤ))) ^ 2 * (1 + 2 ^ (-(p : ℤ))) - 1) * ((flat 3 true m).map abs).permanent ∧
      (D = 0 → inv3F rnd out m = (false, out)) ∧
      (D ≠ 0 → ∃ z, inv3F rnd out m = (true, z) ∧ (∀ k, 9 ≤ k → z k = out k) ∧
        ∀ i j, |flat 3 true z i j * D - (flat 3 true m).adjugate i j| ≤
          ((1 + 3 * 2 ^ (-(p : ℤ))) * (1 + 2 ^ (-(p : ℤ))) - 1) * |(flat 3 true m).adjugate i j|) := by
  have e0 := eps_pos (K := K) p
  refine ⟨cofacF rnd (m 0) (det2F rnd (m 8) (m 7) (m 5) (m 4)) (m 3) (det2F rnd (m 8) (m 7) (m 2) (m 1)) (m 6)
    (det2F rnd (m 5) (m 4) (m 2) (m 1)), ?_, ?_, ?_⟩
  · have h := cofac_ap hp hr (e := m 6) (by linarith) (det2_ap hp hr (hm 8 (by omega)) (hm 7 (by omega)) (hm 5 (by omega)) (hm 4 (by omega))).2.1
      (det2_ap hp hr (hm 8 (by omega)) (hm 7 (by omega)) (hm 2 (by omega)) (hm 1 (by omega))).2.1
      (det2_ap hp hr (hm 5 (by omega)) (hm 4 (by omega)) (hm 2 (by omega)) (hm 1 (by omega))).2.1
      (hm 0 (by omega)) (hr.mem _) (hm 3 (by omega)) (hr.mem _)
    have h1 := h.1
    rw [Matrix.det_fin_three, permanent_three]
    simp only [flat, if_true, Matrix.of_apply, Matrix.map_apply] at *
    norm_num at *
    refine le_trans (le_of_eq ?_) (h1.trans (le_of_eq ?_))
    · congr 1; ring
    · unfold eps; simp only [zpow_neg, zpow_natCast]; ring
  · intro h0
    exact if_pos h0
  · intro h0
    refine ⟨_, if_neg h0, fun k hk => ?_, ?_⟩
    · simp [copyOut, hk]
    have fin : ∀ {D a b c d x : K}, D ≠ 0 → IsFloat p a → IsFloat p b → IsFloat p c → IsFloat p d → x = a * d - b * c →
        |rnd (det2F rnd a b c d / D) * D - x| ≤ ((1 + 3 * 2 ^ (-(p : ℤ))) * (1 + 2 ^ (-(p : ℤ))) - 1) * |x| := by
      rintro D a b c d x h0 ha hb hc hd rfl
      exact (quot_ap hp hr (det2_ap hp hr ha hb hc hd).1 h0).1
    intro i j
    rw [Matrix.adjugate_fin_succ_eq_det_submatrix]
    fin_cases i <;> fin_cases j
    · refine fin h0 (hm 8 (by omega)) (hm 7 (by omega)) (hm 5 (by omega)) (hm 4 (by omega)) ?_
      simp [Matrix.det_fin_two, flat, Fin.succAbove, Fin.ext_iff, Fin.lt_def]; try ring
    · refine fin h0 (hm 7 (by omega)) (hm 8 (by omega)) (hm 1 (by omega)) (hm 2 (by omega)) ?_
      simp [Matrix.det_fin_two, flat, Fin.succAbove, Fin.ext_iff, Fin.lt_def]; try ring
    · refine fin h0 (hm 5 (by omega)) (hm 4 (by omega)) (hm 2 (by omega)) (hm 1 (by omega)) ?_
      simp [Matrix.det_fin_two, flat, Fin.succAbove, Fin.ext_iff, Fin.lt_def]; try ring
    · refine fin h0 (hm 6 (by omega)) (hm 8 (by omega)) (hm 3 (by omega)) (hm 5 (by omega)) ?_
      simp [Matrix.det_fin_two, flat, Fin.succAbove, Fin.ext_iff, Fin.lt_def]; try ring
    · refine fin h0 (hm 8 (by omega)) (hm 6 (by omega)) (hm 2 (by omega)) (hm 0 (by omega)) ?_
      simp [Matrix.det_fin_two, flat, Fin.succAbove, Fin.ext_iff, Fin.lt_def]; try ring
    · refine fin h0 (hm 3 (by omega)) (hm 5 (by omega)) (hm 0 (by omega)) (hm 2 (by omega)) ?_
      simp [Matrix.det_fin_two, flat, Fin.succAbove, Fin.ext_iff, Fin.lt_def]; try ring
    · refine fin h0 (hm 7 (by omega)) (hm 6 (by omega)) (hm 4 (by omega)) (hm 3 (by omega)) ?_
      simp [Matrix.det_fin_two, flat, Fin.succAbove, Fin.ext_iff, Fin.lt_def]; try ring
    · refine fin h0 (hm 6 (by omega)) (hm 7 (by omega)) (hm 0 (by omega)) (hm 1 (by omega)) ?_
      simp [Matrix.det_fin_two, flat, Fin.succAbove, Fin.ext_iff, Fin.lt_def]; try ring
    · refine fin h0 (hm 4 (by omega)) (hm 3 (by omega)) (hm 1 (by omega)) (hm 0 (by omega)) ?_
      simp [Matrix.det_fin_two, flat, Fin.succAbove, Fin.ext_iff, Fin.lt_def]; try ring

/-! ## Size four -/

/-- **C116.** The inverse of a matrix of size four: every element of the adjugate is right up to `(1 + 3 ε)² (1 + ε)² - 1` of the permanent
of the absolute values of its minor, and the determinant by which it is divided is right up to `(1 + 3 ε)³ (1 + ε)² - 1` of the permanent
of the absolute values of the whole matrix; failure is reported exactly if that determinant is computed as zero. -/
theorem C116_inv4 {p : ℕ} (hp : 1 ≤ p) {rnd : K → K} (hr : IsRound p rnd) (out : ℕ → K) {m : ℕ → K} (hm : ∀ k < 16, IsFloat p (m k)) :
    ∃ D, |D - (flat 4 true m).det| ≤
        ((1 + 3 * 2 ^ (-(p : ℤ))) ^ 3 * (1 + 2 ^ (-(p : ℤ))) ^ 2 - 1) * ((flat 4 true m).map abs).permanent ∧
      (D = 0 → inv4F rnd out m = (false, out)) ∧
      (D ≠ 0 → ∃ z, inv4F rnd out m = (true, z) ∧ (∀ k, 16 ≤ k → z k = out k) ∧
        ∀ i j, |flat 4 true z i j * D - (flat 4 true m).adjugate i j| ≤
          ((1 + 3 * 2 ^ (-(p : ℤ))) ^ 2 * (1 + 2 ^ (-(p : ℤ))) ^ 2 - 1) *
            (((flat 4 true m).submatrix j.succAbove i.succAbove).map abs).permanent) := by
  have e0 := eps_pos (K := K) p
  have s0 := det2_ap hp hr (hm 0 (by omega)) (hm 1 (by omega)) (hm 4 (by omega)) (hm 5 (by omega))
  have s1 := det2_ap hp hr (hm 0 (by omega)) (hm 2 (by omega)) (hm 4 (by omega)) (hm 6 (by omega))
  have s2 := det2_ap hp hr (hm 0 (by omega)) (hm 3 (by omega)) (hm 4 (by omega)) (hm 7 (by omega))
  have s3 := det2_ap hp hr (hm 1 (by omega)) (hm 2 (by omega)) (hm 5 (by omega)) (hm 6 (by omega))
  have s4 := det2_ap hp hr (hm 1 (by omega)) (hm 3 (by omega)) (hm 5 (by omega)) (hm 7 (by omega))
  have s5 := det2_ap hp hr (hm 2 (by omega)) (hm 3 (by omega)) (hm 6 (by omega)) (hm 7 (by omega))
  have c0 := det2_ap hp hr (hm 8 (by omega)) (hm 9 (by omega)) (hm 12 (by omega)) (hm 13 (by omega))
  have c1 := det2_ap hp hr (hm 8 (by omega)) (hm 10 (by omega)) (hm 12 (by omega)) (hm 14 (by omega))
  have c2 := det2_ap hp hr (hm 8 (by omega)) (hm 11 (by omega)) (hm 12 (by omega)) (hm 15 (by omega))
  have c3 := det2_ap hp hr (hm 9 (by omega)) (hm 10 (by omega)) (hm 13 (by omega)) (hm 14 (by omega))
  have c4 := det2_ap hp hr (hm 9 (by omega)) (hm 11 (by omega)) (hm 13 (by omega)) (hm 15 (by omega))
  have c5 := det2_ap hp hr (hm 10 (by omega)) (hm 11 (by omega)) (hm 14 (by omega)) (hm 15 (by omega))
  refine ⟨rnd (rnd (diffOfProducts rnd (det2F rnd (m 0) (m 1) (m 4) (m 5)) (det2F rnd (m 10) (m 11) (m 14) (m 15)) (det2F rnd (m 0) (m 2) (m 4) (m 6)) (det2F rnd (m 9) (m 11) (m 13) (m 15)) + diffOfProducts rnd (det2F rnd (m 1) (m 2) (m 5) (m 6)) (det2F rnd (m 8) (m 11) (m 12) (m 15)) (det2F rnd (m 1) (m 3) (m 5) (m 7)) (det2F rnd (m 8) (m 10) (m 12) (m 14))) +
    sumOfProducts rnd (det2F rnd (m 0) (m 3) (m 4) (m 7)) (det2F rnd (m 9) (m 10) (m 13) (m 14)) (det2F rnd (m 2) (m 3) (m 6) (m 7)) (det2F rnd (m 8) (m 9) (m 12) (m 13))), ?_, ?_, ?_⟩
  · have q1 := (diff_ap hp hr rfl rfl (s0.2.1.mul c5.2.1 (by linarith) (by linarith)) (s1.2.1.mul c4.2.1 (by linarith) (by linarith))
      s0.2.2 c5.2.2 s1.2.2 c4.2.2).1
    have q2 := (diff_ap hp hr rfl rfl (s3.2.1.mul c2.2.1 (by linarith) (by linarith)) (s4.2.1.mul c1.2.1 (by linarith) (by linarith))
      s3.2.2 c2.2.2 s4.2.2 c1.2.2).1
    have q3 := (diff_ap hp hr rfl rfl (s2.2.1.mul c3.2.1 (by linarith) (by linarith)) (s5.2.1.mul c0.2.1 (by linarith) (by linarith))
      s2.2.2 c3.2.2 s5.2.2 c0.2.2).2
    have r1 := (q1.add q2).rel e0.le (hr.rel hp _)
    have o1 : 1 ≤ 1 + 3 * eps K p := by linarith
    have o2 : 1 ≤ (1 + 3 * eps K p) * (1 + 3 * eps K p) * (1 + 3 * eps K p) :=
      one_le_mul_of_one_le_of_one_le (one_le_mul_of_one_le_of_one_le o1 o1) o1
    have r2 := (r1.add (q3.mono o2 (le_mul_of_one_le_right (by linarith) (by linarith)) (le_refl _))).rel e0.le (hr.rel hp _)
    have h1 := r2.1
    refine le_trans (le_of_eq ?_) (h1.trans (le_of_eq ?_))
    · rw [det4_expand]
      simp only [flat, if_true, Matrix.of_apply]
      norm_num
      congr 1; ring
    · refine congrArg₂ (· * ·) (by unfold eps; ring) ?_
      rw [permanent_four]
      simp only [flat, if_true, Matrix.of_apply, Matrix.map_apply]
      norm_num
  · intro h0
    exact if_pos h0
  · intro h0
    refine ⟨_, if_neg h0, fun k hk => ?_, ?_⟩
    · simp [copyOut, hk]
    have fin : ∀ {D a b c d e f b0 d0 f0 B E F x A : K}, D ≠ 0 → Ap (1 + 3 * eps K p) b b0 B → Ap (1 + 3 * eps K p) d d0 E →
        Ap (1 + 3 * eps K p) f f0 F → IsFloat p a → IsFloat p b → IsFloat p c → IsFloat p d → x = a * b0 - c * d0 + e * f0 →
        A = |a| * B + |c| * E + |e| * F →
        |rnd (cofacF rnd a b c d e f / D) * D - x| ≤ ((1 + 3 * 2 ^ (-(p : ℤ))) ^ 2 * (1 + 2 ^ (-(p : ℤ))) ^ 2 - 1) * A := by
      rintro D a b c d e f b0 d0 f0 B E F x A h0 hb hd hf fa fb fc fd rfl rfl
      refine (quot_ap hp hr (cofac_ap hp hr (by linarith) hb hd hf fa fb fc fd) h0).1.trans (le_of_eq ?_)
      unfold eps
      ring
    have fin' : ∀ {D a b c d e f b0 d0 f0 B E F x A : K}, D ≠ 0 → Ap (1 + 3 * eps K p) b b0 B → Ap (1 + 3 * eps K p) d d0 E →
        Ap (1 + 3 * eps K p) f f0 F → IsFloat p a → IsFloat p b → IsFloat p c → IsFloat p d → x = -(a * b0 - c * d0 + e * f0) →
        A = |a| * B + |c| * E + |e| * F →
        |rnd (-cofacF rnd a b c d e f / D) * D - x| ≤ ((1 + 3 * 2 ^ (-(p : ℤ))) ^ 2 * (1 + 2 ^ (-(p : ℤ))) ^ 2 - 1) * A := by
      rintro D a b c d e f b0 d0 f0 B E F x A h0 hb hd hf fa fb fc fd rfl rfl
      refine (quot_ap hp hr (cofac_ap hp hr (by linarith) hb hd hf fa fb fc fd).neg h0).1.trans (le_of_eq ?_)
      unfold eps
      ring
    intro i j
    rw [Matrix.adjugate_fin_succ_eq_det_submatrix]
    fin_cases i <;> fin_cases j
    · refine fin h0 (e := m 7) c5.2.1 c4.2.1 c3.2.1 (hm 5 (by omega)) c5.2.2 (hm 6 (by omega)) c4.2.2 ?_ ?_
      · simp [Matrix.det_fin_three, flat, Fin.succAbove, Fin.ext_iff, Fin.lt_def]; try ring
      · simp [permanent_three, flat, Fin.succAbove, Fin.ext_iff, Fin.lt_def]; try ring
    · refine fin' h0 (e := m 3) c5.2.1 c4.2.1 c3.2.1 (hm 1 (by omega)) c5.2.2 (hm 2 (by omega)) c4.2.2 ?_ ?_
      · simp [Matrix.det_fin_three, flat, Fin.succAbove, Fin.ext_iff, Fin.lt_def]; try ring
      · simp [permanent_three, flat, Fin.succAbove, Fin.ext_iff, Fin.lt_def]; try ring
    · refine fin h0 (e := m 15) s5.2.1 s4.2.1 s3.2.1 (hm 13 (by omega)) s5.2.2 (hm 14 (by omega)) s4.2.2 ?_ ?_
      · simp [Matrix.det_fin_three, flat, Fin.succAbove, Fin.ext_iff, Fin.lt_def]; try ring
      · simp [permanent_three, flat, Fin.succAbove, Fin.ext_iff, Fin.lt_def]; try ring
    · refine fin' h0 (e := m 11) s5.2.1 s4.2.1 s3.2.1 (hm 9 (by omega)) s5.2.2 (hm 10 (by omega)) s4.2.2 ?_ ?_
      · simp [Matrix.det_fin_three, flat, Fin.succAbove, Fin.ext_iff, Fin.lt_def]; try ring
      · simp [permanent_three, flat, Fin.succAbove, Fin.ext_iff, Fin.lt_def]; try ring
    · refine fin' h0 (e := m 7) c5.2.1 c2.2.1 c1.2.1 (hm 4 (by omega)) c5.2.2 (hm 6 (by omega)) c2.2.2 ?_ ?_
      · simp [Matrix.det_fin_three, flat, Fin.succAbove, Fin.ext_iff, Fin.lt_def]; try ring
      · simp [permanent_three, flat, Fin.succAbove, Fin.ext_iff, Fin.lt_def]; try ring
    · refine fin h0 (e := m 3) c5.2.1 c2.2.1 c1.2.1 (hm 0 (by omega)) c5.2.2 (hm 2 (by omega)) c2.2.2 ?_ ?_
      · simp [Matrix.det_fin_three, flat, Fin.succAbove, Fin.ext_iff, Fin.lt_def]; try ring
      · simp [permanent_three, flat, Fin.succAbove, Fin.ext_iff, Fin.lt_def]; try ring
    · refine fin' h0 (e := m 15) s5.2.1 s2.2.1 s1.2.1 (hm 12 (by omega)) s5.2.2 (hm 14 (by omega)) s2.2.2 ?_ ?_
      · simp [Matrix.det_fin_three, flat, Fin.succAbove, Fin.ext_iff, Fin.lt_def]; try ring
      · simp [permanent_three, flat, Fin.succAbove, Fin.ext_iff, Fin.lt_def]; try ring
    · refine fin h0 (e := m 11) s5.2.1 s2.2.1 s1.2.1 (hm 8 (by omega)) s5.2.2 (hm 10 (by omega)) s2.2.2 ?_ ?_
      · simp [Matrix.det_fin_three, flat, Fin.succAbove, Fin.ext_iff, Fin.lt_def]; try ring
      · simp [permanent_three, flat, Fin.succAbove, Fin.ext_iff, Fin.lt_def]; try ring
    · refine fin h0 (e := m 7) c4.2.1 c2.2.1 c0.2.1 (hm 4 (by omega)) c4.2.2 (hm 5 (by omega)) c2.2.2 ?_ ?_
      · simp [Matrix.det_fin_three, flat, Fin.succAbove, Fin.ext_iff, Fin.lt_def]; try ring
      · simp [permanent_three, flat, Fin.succAbove, Fin.ext_iff, Fin.lt_def]; try ring
    · refine fin' h0 (e := m 3) c4.2.1 c2.2.1 c0.2.1 (hm 0 (by omega)) c4.2.2 (hm 1 (by omega)) c2.2.2 ?_ ?_
      · simp [Matrix.det_fin_three, flat, Fin.succAbove, Fin.ext_iff, Fin.lt_def]; try ring
      · simp [permanent_three, flat, Fin.succAbove, Fin.ext_iff, Fin.lt_def]; try ring
    · refine fin h0 (e := m 15) s4.2.1 s2.2.1 s0.2.1 (hm 12 (by omega)) s4.2.2 (hm 13 (by omega)) s2.2.2 ?_ ?_
      · simp [Matrix.det_fin_three, flat, Fin.succAbove, Fin.ext_iff, Fin.lt_def]; try ring
      · simp [permanent_three, flat, Fin.succAbove, Fin.ext_iff, Fin.lt_def]; try ring
    · refine fin' h0 (e := m 11) s4.2.1 s2.2.1 s0.2.1 (hm 8 (by omega)) s4.2.2 (hm 9 (by omega)) s2.2.2 ?_ ?_
      · simp [Matrix.det_fin_three, flat, Fin.succAbove, Fin.ext_iff, Fin.lt_def]; try ring
      · simp [permanent_three, flat, Fin.succAbove, Fin.ext_iff, Fin.lt_def]; try ring
    · refine fin' h0 (e := m 6) c3.2.1 c1.2.1 c0.2.1 (hm 4 (by omega)) c3.2.2 (hm 5 (by omega)) c1.2.2 ?_ ?_
      · simp [Matrix.det_fin_three, flat, Fin.succAbove, Fin.ext_iff, Fin.lt_def]; try ring
      · simp [permanent_three, flat, Fin.succAbove, Fin.ext_iff, Fin.lt_def]; try ring
    · refine fin h0 (e := m 2) c3.2.1 c1.2.1 c0.2.1 (hm 0 (by omega)) c3.2.2 (hm 1 (by omega)) c1.2.2 ?_ ?_
      · simp [Matrix.det_fin_three, flat, Fin.succAbove, Fin.ext_iff, Fin.lt_def]; try ring
      · simp [permanent_three, flat, Fin.succAbove, Fin.ext_iff, Fin.lt_def]; try ring
    · refine fin' h0 (e := m 14) s3.2.1 s1.2.1 s0.2.1 (hm 12 (by omega)) s3.2.2 (hm 13 (by omega)) s1.2.2 ?_ ?_
      · simp [Matrix.det_fin_three, flat, Fin.succAbove, Fin.ext_iff, Fin.lt_def]; try ring
      · simp [permanent_three, flat, Fin.succAbove, Fin.ext_iff, Fin.lt_def]; try ring
    · refine fin h0 (e := m 10) s3.2.1 s1.2.1 s0.2.1 (hm 8 (by omega)) s3.2.2 (hm 9 (by omega)) s1.2.2 ?_ ?_
      · simp [Matrix.det_fin_three, flat, Fin.succAbove, Fin.ext_iff, Fin.lt_def]; try ring
      · simp [permanent_three, flat, Fin.succAbove, Fin.ext_iff, Fin.lt_def]; try ring

/-! ## The inverses of matrices which are not too close to singular -/

/-- **C116.** If the rounding error of the determinant is smaller than the determinant, the inverse of size three succeeds, and every
element of the result is right up to a multiple of itself. -/
theorem C116_accurate3 {p : ℕ} (hp : 1 ≤ p) {rnd : K → K} (hr : IsRound p rnd) (out : ℕ → K) {m : ℕ → K} (hm : ∀ k < 9, IsFloat p (m k))
    {η : K} (h1 : η < 1) (hη : ((1 + 3 * 2 ^ (-(p : ℤ))) ^ 2 * (1 + 2 ^ (-(p : ℤ))) - 1) * ((flat 3 true m).map abs).permanent ≤
      η * |(flat 3 true m).det|) (h0 : (flat 3 true m).det ≠ 0) :
    ∃ z, inv3F rnd out m = (true, z) ∧ ∀ i j, |flat 3 true z i j - (flat 3 true m)⁻¹ i j| ≤
      ((1 + 3 * 2 ^ (-(p : ℤ))) * (1 + 2 ^ (-(p : ℤ))) - 1 + η) / (1 - η) * |(flat 3 true m)⁻¹ i j| := by
  obtain ⟨D, hD, -, hok⟩ := C116_inv3 hp hr out hm
  have hD' := hD.trans hη
  have hD0 := (close (c := 1) (z := 0) (x := 0) (A := 0) (by simp [Ap]) h0 h1 hD').1
  obtain ⟨z, hz, -, he⟩ := hok hD0
  refine ⟨z, hz, fun i j => ?_⟩
  rw [Matrix.inv_def, Ring.inverse_eq_inv', Matrix.smul_apply, smul_eq_mul, ← div_eq_inv_mul]
  refine (close ⟨he i j, le_refl _⟩ h0 h1 hD').2.trans (le_of_eq ?_)
  rw [abs_div]
  ring

/-- **C116.** The same for size four, relative to the permanents of the minors. -/
theorem C116_accurate4 {p : ℕ} (hp : 1 ≤ p) {rnd : K → K} (hr : IsRound p rnd) (out : ℕ → K) {m : ℕ → K} (hm : ∀ k < 16, IsFloat p (m k))
    {η : K} (h1 : η < 1) (hη : ((1 + 3 * 2 ^ (-(p : ℤ))) ^ 3 * (1 + 2 ^ (-(p : ℤ))) ^ 2 - 1) * ((flat 4 true m).map abs).permanent ≤
      η * |(flat 4 true m).det|) (h0 : (flat 4 true m).det ≠ 0) :
    ∃ z, inv4F rnd out m = (true, z) ∧ ∀ i j, |flat 4 true z i j - (flat 4 true m)⁻¹ i j| ≤
      ((1 + 3 * 2 ^ (-(p : ℤ))) ^ 2 * (1 + 2 ^ (-(p : ℤ))) ^ 2 - 1 + η) / (1 - η) *
        ((((flat 4 true m).submatrix j.succAbove i.succAbove).map abs).permanent / |(flat 4 true m).det|) := by
  obtain ⟨D, hD, -, hok⟩ := C116_inv4 hp hr out hm
  have hD' := hD.trans hη
  have hD0 := (close (c := 1) (z := 0) (x := 0) (A := 0) (by simp [Ap]) h0 h1 hD').1
  obtain ⟨z, hz, -, he⟩ := hok hD0
  refine ⟨z, hz, fun i j => ?_⟩
  rw [Matrix.inv_def, Ring.inverse_eq_inv', Matrix.smul_apply, smul_eq_mul, ← div_eq_inv_mul]
  have hA : |(flat 4 true m).adjugate i j| ≤ (((flat 4 true m).submatrix j.succAbove i.succAbove).map abs).permanent := by
    rw [Matrix.adjugate_fin_succ_eq_det_submatrix, abs_mul, abs_pow, abs_neg, abs_one, one_pow, one_mul, Matrix.det_apply']
    refine (Finset.abs_sum_le_sum_abs _ _).trans (le_of_eq ?_)
    unfold Matrix.permanent
    refine Finset.sum_congr rfl fun σ _ => ?_
    rw [abs_mul, Finset.abs_prod]
    rcases Int.units_eq_one_or (Equiv.Perm.sign σ) with h | h <;> simp [h]
  refine (close ⟨he i j, hA⟩ h0 h1 hD').2.trans ?_
  have η0 : 0 ≤ η := by
    by_contra hc
    have := (abs_nonneg _).trans hD'
    nlinarith [abs_pos.2 h0]
  rw [div_mul_eq_mul_div]
  refine div_le_div_of_nonneg_right ?_ (by linarith)
  have := mul_le_mul_of_nonneg_left (div_le_div_of_nonneg_right hA (abs_nonneg (flat 4 true m).det)) η0
  rw [abs_div]
  linarith

/-! ## Singular and regular matrices are confused -/

/-- Something added to a float that is less than half the spacing of floats is lost. -/
theorem absorb' {p : ℕ} {rnd : K → K} (hr : IsRound p rnd) {y θ : K} (hy : IsFloat p y) (hy1 : 1 ≤ y) (h0 : 0 ≤ θ)
    (h1 : θ < 2 ^ (-(p : ℤ))) : rnd (y + θ) = y := by
  have hge := hr.ge_of_ge hy (show y ≤ y + θ by linarith)
  have n := hr.near (y + θ) y hy
  rw [show y - (y + θ) = -θ by ring, abs_neg, abs_of_nonneg h0] at n
  have h2 := (abs_le.1 n).2
  obtain ⟨k, hk⟩ := grid_of_float hy (E := 0) (by rw [zpow_zero, abs_of_pos (by linarith)]; exact hy1)
  obtain ⟨l, hl⟩ := grid_of_float (hr.mem (y + θ)) (E := 0) (by rw [zpow_zero, abs_of_pos (by linarith)]; linarith)
  have sp : (2 : K) ^ (0 + 1 - (p : ℤ)) = 2 * 2 ^ (-(p : ℤ)) := by
    rw [show (0 : ℤ) + 1 - p = 1 + -(p : ℤ) by ring, zpow_add₀ (by norm_num), zpow_one]
  have pos : (0 : K) < 2 ^ (-(p : ℤ)) := two_zpow_pos _
  rw [sp] at hk hl
  have a1 : (k : K) ≤ l := by
    refine le_of_mul_le_mul_right ?_ (show (0 : K) < 2 * 2 ^ (-(p : ℤ)) by linarith)
    rw [← hk, ← hl]; exact hge
  have a2 : (l : K) < k + 1 := by
    refine lt_of_mul_lt_mul_right ?_ (show (0 : K) ≤ 2 * 2 ^ (-(p : ℤ)) by linarith)
    rw [← hl, add_mul, ← hk]; linarith
  have : k = l := le_antisymm (by exact_mod_cast a1) (Int.lt_add_one_iff.1 (by exact_mod_cast a2))
  rw [hl, hk, this]

/-- **C116, refuted.** A regular matrix of size three can have a determinant of zero, and be refused an inverse: for every precision and
every determinant from a whole interval. -/
theorem C116_regular_refuted {p : ℕ} (hp : 1 ≤ p) {rnd : K → K} (hr : IsRound p rnd) (out : ℕ → K) {t : K} (ht : IsFloat p t)
    (t0 : 0 < t) (t1 : t < 2 ^ (-(p : ℤ))) :
    (flat 3 true (copyOut [1, 1, 1, -t, 1, 0, 1, 0, 1] 0)).det = t ∧ det3F rnd (copyOut [1, 1, 1, -t, 1, 0, 1, 0, 1] 0) = 0 ∧
    (flat 3 true (copyOut [1, -t, 1, 1, 1, 0, 1, 0, 1] 0)).det = t ∧
    inv3F rnd out (copyOut [1, -t, 1, 1, 1, 0, 1, 0, 1] 0) = (false, out) := by
  have f1 : rnd 1 = 1 := hr.fix (by simpa using float_pow (K := K) hp 0)
  have fm1 : rnd (-1) = -1 := hr.fix (float_neg (by simpa using float_pow (K := K) hp 0))
  have f0 : rnd 0 = 0 := hr.fix (float_zero p)
  have ft : rnd t = t := hr.fix ht
  have fmt : rnd (-t) = -t := hr.fix (float_neg ht)
  have fa : rnd (1 + t) = 1 := absorb' hr (by simpa using float_pow (K := K) hp 0) (le_refl _) t0.le t1
  refine ⟨?_, ?_, ?_, ?_⟩
  · rw [Matrix.det_fin_three]; simp [flat, copyOut]
  · simp [det3F, cofacF, det2F, multiplyAdd, diffOfProducts, copyOut, f1, fm1, f0, ft, fmt, fa]
  · rw [Matrix.det_fin_three]; simp [flat, copyOut]
  · refine if_pos ?_
    simp [det2F, multiplyAdd, diffOfProducts, copyOut, f1, fm1, f0, ft, fmt, fa]

/-- **C116, refuted.** A singular matrix of size three can have a determinant other than zero and be given an "inverse", for every
precision of at least three bits. -/
theorem C116_singular_refuted {p : ℕ} (hp : 3 ≤ p) {rnd : K → K} (hr : IsRound p rnd) (out : ℕ → K) : ∃ m : ℕ → K,
    (∀ k, IsFloat p (m k)) ∧ (flat 3 true m).det = 0 ∧ det3F rnd m ≠ 0 ∧
    ∃ m' : ℕ → K, flat 3 true m' = (flat 3 true m).transpose ∧ (inv3F rnd out m').1 = true := by
  have hp1 : 1 ≤ p := by omega
  obtain ⟨δ, hδ⟩ : ∃ δ : K, δ = 2 ^ (1 - (p : ℤ)) := ⟨_, rfl⟩
  have δ0 : 0 < δ := hδ ▸ two_zpow_pos _
  have g : ∀ k : ℤ, |(k : K) * δ| ≤ 2 → IsFloat p ((k : K) * δ) := by
    intro k hk
    have := float_grid (K := K) hp1 0 k
    rw [zero_add, zpow_one, ← hδ] at this
    exact this hk
  have hδ4 : δ ≤ 1 / 4 := by
    rw [hδ, show (1 : K) / 4 = 2 ^ (-2 : ℤ) by norm_num]
    exact zle (by omega)
  obtain ⟨q, hq⟩ : ∃ q : ℤ, (q : K) * δ = 1 := by
    refine ⟨2 ^ (p - 1), ?_⟩
    rw [hδ, Int.cast_pow, Int.cast_ofNat, ← zpow_natCast, ← zpow_add₀ (by norm_num)]
    rw [show (((p - 1 : ℕ) : ℤ) + (1 - (p : ℤ))) = 0 by omega, zpow_zero]
  have F1 : IsFloat p (1 : K) := by simpa using float_pow (K := K) hp1 0
  have Fδ : IsFloat p δ := hδ ▸ float_pow hp1 _
  have Fa : IsFloat p (1 + δ) := by
    have := g (q + 1) (by push_cast; rw [add_mul, hq, one_mul, abs_of_pos (by linarith)]; linarith)
    push_cast at this; rwa [add_mul, hq, one_mul] at this
  have Fb : IsFloat p (1 + 2 * δ) := by
    have := g (q + 2) (by push_cast; rw [add_mul, hq, abs_of_pos (by linarith)]; linarith)
    push_cast at this; rwa [add_mul, hq] at this
  have Fs : IsFloat p (δ * δ) := by
    rw [hδ, ← zpow_add₀ (by norm_num)]; exact float_pow hp1 _
  have hs : δ * δ < 2 ^ (-(p : ℤ)) := by
    have : (2 : K) ^ (-(p : ℤ)) = δ / 2 := by
      rw [hδ, sub_eq_add_neg, zpow_add₀ (by norm_num), zpow_one]; ring
    rw [this]; nlinarith
  have f1 : rnd 1 = 1 := hr.fix F1
  have f0 : rnd 0 = 0 := hr.fix (float_zero p)
  have fδ : rnd δ = δ := hr.fix Fδ
  have fmδ : rnd (-δ) = -δ := hr.fix (float_neg Fδ)
  have fa : rnd (1 + δ) = 1 + δ := hr.fix Fa
  have fma : rnd (-δ + -1) = -δ + -1 := by
    rw [show -δ + -1 = -(1 + δ) by ring]
    exact hr.fix (float_neg Fa)
  have fb : rnd (1 + 2 * δ) = 1 + 2 * δ := hr.fix Fb
  have fs : rnd (δ * δ) = δ * δ := hr.fix Fs
  have fms : rnd (-(δ * δ)) = -(δ * δ) := hr.fix (float_neg Fs)
  have fx : rnd (1 + 2 * δ + δ * δ) = 1 + 2 * δ := absorb' hr Fb (by linarith) (by positivity) hs
  have last : rnd ((1 + δ) * (-δ + -1) + (1 + 2 * δ)) = -(δ * δ) := by
    rw [show (1 + δ) * (-δ + -1) + (1 + 2 * δ) = -(δ * δ) by ring, fms]
  refine ⟨copyOut [1 + 2 * δ, δ, 1 + δ, -δ, 1, 0, 1 + δ, 0, 1] 0, ?_, ?_, ?_,
    copyOut [1 + 2 * δ, -δ, 1 + δ, δ, 1, 0, 1 + δ, 0, 1] 0, ?_, ?_⟩
  · intro k
    rcases k with _ | _ | _ | _ | _ | _ | _ | _ | _ | k <;>
      simp [copyOut, F1, Fδ, float_neg Fδ, Fa, Fb, float_zero]
  · rw [Matrix.det_fin_three]; simp [flat, copyOut]; ring
  · have : det3F rnd (copyOut [1 + 2 * δ, δ, 1 + δ, -δ, 1, 0, 1 + δ, 0, 1] 0) = -(δ * δ) := by
      simp only [det3F, cofacF, det2F, multiplyAdd, diffOfProducts, copyOut]
      simp [f1, f0, fδ, fmδ, fa, fma, fb, fs, fms, fx, last]
    rw [this]
    exact neg_ne_zero.2 (by positivity)
  · ext i j
    fin_cases i <;> fin_cases j <;> simp [flat, copyOut]
  · have : multiplyAdd rnd (1 + δ) (det2F rnd 0 1 (1 + δ) (-δ)) (det2F rnd (1 + 2 * δ) δ (det2F rnd 1 0 (1 + δ) (-δ)) (det2F rnd 1 0 0 1)) =
        -(δ * δ) := by
      simp [det2F, multiplyAdd, diffOfProducts, f1, f0, fδ, fmδ, fa, fma, fb, fs, fms, fx, last]
    have h : multiplyAdd rnd (1 + δ) (det2F rnd 0 1 (1 + δ) (-δ)) (det2F rnd (1 + 2 * δ) δ (det2F rnd 1 0 (1 + δ) (-δ)) (det2F rnd 1 0 0 1)) ≠
        0 := by
      rw [this]
      exact neg_ne_zero.2 (by positivity)
    exact congrArg Prod.fst (if_neg h)

/-- Without rounding these are the functions of C33 and C34. -/
theorem C116_exact (out m : ℕ → K) : det3F id m = det3m m ∧ inv2F id out m = inv2 out m ∧ inv3F id out m = inv3 out m ∧
    inv4F id out m = inv4 out m := by
  have d : ∀ a b c d : K, Flt.diffOfProducts id a b c d = Duals.diffOfProducts a b c d := by
    intro a b c d
    rw [Duals.diffOfProducts_eq]
    simp only [Flt.diffOfProducts, id]
    ring
  have s : ∀ a b c d : K, Flt.sumOfProducts id a b c d = Duals.sumOfProducts a b c d := by
    intro a b c d
    rw [Duals.sumOfProducts_eq]
    simp only [Flt.sumOfProducts, id]
    ring
  refine ⟨?_, ?_, ?_, ?_⟩
  · simp only [det3F, det3m, cofacF, cofac, det2F, det2, d, multiplyAdd, id]
  · simp only [inv2F, inv2, det2F, det2, d, id]; rfl
  · simp only [inv3F, inv3, det2F, det2, d, multiplyAdd, id]; rfl
  · simp only [inv4F, inv4, cofacF, cofac, det2F, det2, d, s, multiplyAdd, id]; rfl

/-- With `double`s, the inverse of a matrix whose determinant is at least a millionth of the permanent of its absolute values has nine
correct digits. -/
example {rnd : ℚ → ℚ} (hr : IsRound 53 rnd) {m : ℕ → ℚ} (hm : ∀ k < 9, IsFloat 53 (m k)) (h0 : (flat 3 true m).det ≠ 0)
    (h : ((flat 3 true m).map abs).permanent ≤ 10 ^ 6 * |(flat 3 true m).det|) :
    ∃ z, inv3F rnd 0 m = (true, z) ∧ ∀ i j, |flat 3 true z i j - (flat 3 true m)⁻¹ i j| ≤ 1 / 10 ^ 9 * |(flat 3 true m)⁻¹ i j| := by
  obtain ⟨z, h1, h2⟩ := C116_accurate3 (η := 8 / 10 ^ 10) (by norm_num) hr 0 hm (by norm_num)
    ((mul_le_mul_of_nonneg_left h (by norm_num)).trans (by
      rw [← mul_assoc]
      exact mul_le_mul_of_nonneg_right (by norm_num) (abs_nonneg _))) h0
  exact ⟨z, h1, fun i j => (h2 i j).trans (mul_le_mul_of_nonneg_right (by norm_num) (abs_nonneg _))⟩

end Geomc.LU
