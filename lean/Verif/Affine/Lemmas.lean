import Mathlib.LinearAlgebra.Matrix.NonsingularInverse
import Verif.Affine.Model
import Verif.LU.Small
import Verif.LU.Solve
import Verif.Quat.Props
import Verif.Vec.Rotate

/-!
# Lemmas about affine transforms
-/

namespace Geomc.Affine

open Geomc.Vec

variable {K : Type} [Field K] {n : ℕ}

theorem foldl_add (f : Fin n → K) : (List.finRange n).foldl (fun s i => s + f i) 0 = ∑ i, f i := by
  have := foldl_sum f 0
  rw [zero_add] at this
  rw [← this]
  congr 1
  ext s i
  rw [add_comm]

theorem eye_eq : (eye n : Matrix (Fin n) (Fin n) K) = 1 := by
  ext i j
  rw [Matrix.one_apply]
  rfl

theorem mulMat_eq (A B : Matrix (Fin n) (Fin n) K) : mulMat A B = A * B := by
  ext r c
  rw [mulMat, Matrix.of_apply, foldl_add, Matrix.mul_apply]

theorem mulVec_eq (A : Matrix (Fin n) (Fin n) K) (v : Fin n → K) : mulVec A v = A.mulVec v := by
  ext r
  rw [mulVec, foldl_add]
  rfl

theorem applyBlock_eq (f : Fin n → Fin n → K) (v : Fin n → K) (r : Fin n) : applyBlock f v r = ∑ c, f r c * v c := by
  rw [applyBlock, foldl_add]

/-- Homogeneous coordinates. -/
def hom (p : Fin n → K) (w : K) : Fin (n + 1) → K := Fin.snoc (α := fun _ => K) p w

@[simp] theorem hom_castSucc (p : Fin n → K) (w : K) (i : Fin n) : hom p w i.castSucc = p i := Fin.snoc_castSucc ..
@[simp] theorem hom_last (p : Fin n → K) (w : K) : hom p w (Fin.last n) = w := Fin.snoc_last ..

theorem hom_inj {p q : Fin n → K} {w : K} (h : hom p w = hom q w) : p = q := by
  ext i
  have := congrFun h i.castSucc
  simpa using this

/-- The last row of the matrix is `0 … 0 1`. -/
def IsAffine (M : Matrix (Fin (n + 1)) (Fin (n + 1)) K) : Prop :=
  (∀ j : Fin n, M (Fin.last n) j.castSucc = 0) ∧ M (Fin.last n) (Fin.last n) = 1

/-- The linear part. -/
def lin (M : Matrix (Fin (n + 1)) (Fin (n + 1)) K) : Matrix (Fin n) (Fin n) K :=
  Matrix.of fun i j => M i.castSucc j.castSucc

theorem applyMat_eq (M : Matrix (Fin (n + 1)) (Fin (n + 1)) K) (p : Fin n → K) (i : Fin n) :
    applyMat M p i = (∑ j : Fin n, M i.castSucc j.castSucc * p j) + M i.castSucc (Fin.last n) := by
  have : applyMat M p i = M.mulVec (hom p 1) i.castSucc := by rw [applyMat, mulVec_eq]; rfl
  rw [this, Matrix.mulVec, dotProduct, Fin.sum_univ_castSucc]
  simp

theorem hom_apply {M : Matrix (Fin (n + 1)) (Fin (n + 1)) K} (h : IsAffine M) (p : Fin n → K) :
    M.mulVec (hom p 1) = hom (applyMat M p) 1 := by
  ext i
  refine Fin.lastCases ?_ (fun i => ?_) i
  · rw [Matrix.mulVec, dotProduct, Fin.sum_univ_castSucc]
    simp [h.1, h.2]
  · rw [hom_castSucc, applyMat, mulVec_eq]
    rfl

theorem hom_vector {M : Matrix (Fin (n + 1)) (Fin (n + 1)) K} (h : IsAffine M) (v : Fin n → K) :
    M.mulVec (hom v 0) = hom (applyBlock (fun r c => M r.castSucc c.castSucc) v) 0 := by
  ext i
  refine Fin.lastCases ?_ (fun i => ?_) i
  · rw [Matrix.mulVec, dotProduct, Fin.sum_univ_castSucc]
    simp [h.1, h.2]
  · rw [hom_castSucc, Matrix.mulVec, dotProduct, Fin.sum_univ_castSucc, applyBlock_eq]
    simp

theorem isAffine_mul {M N : Matrix (Fin (n + 1)) (Fin (n + 1)) K} (hM : IsAffine M) (hN : IsAffine N) :
    IsAffine (M * N) := by
  constructor
  · intro j
    rw [Matrix.mul_apply, Fin.sum_univ_castSucc]
    simp [hM.1, hM.2, hN.1]
  · rw [Matrix.mul_apply, Fin.sum_univ_castSucc]
    simp [hM.1, hM.2, hN.2]

theorem isAffine_one : IsAffine (1 : Matrix (Fin (n + 1)) (Fin (n + 1)) K) := by
  constructor
  · intro j
    rw [Matrix.one_apply_ne]
    exact (Fin.castSucc_lt_last j).ne'
  · rw [Matrix.one_apply_eq]

/-- Affine matrices act on points by composition. -/
theorem applyMat_mul {M N : Matrix (Fin (n + 1)) (Fin (n + 1)) K} (hM : IsAffine M) (hN : IsAffine N) (p : Fin n → K) :
    applyMat (M * N) p = applyMat M (applyMat N p) := by
  apply hom_inj (w := 1)
  rw [← hom_apply (isAffine_mul hM hN), ← Matrix.mulVec_mulVec, hom_apply hN, hom_apply hM]

theorem applyMat_one (p : Fin n → K) : applyMat (1 : Matrix (Fin (n + 1)) (Fin (n + 1)) K) p = p := by
  apply hom_inj (w := 1)
  rw [← hom_apply isAffine_one, Matrix.one_mulVec]

/-- An affine matrix is determined by its action on points. -/
theorem affine_ext {M N : Matrix (Fin (n + 1)) (Fin (n + 1)) K} (hM : IsAffine M) (hN : IsAffine N)
    (h : ∀ p, applyMat M p = applyMat N p) : M = N := by
  have ht : ∀ i : Fin n, M i.castSucc (Fin.last n) = N i.castSucc (Fin.last n) := by
    intro i
    have := congrFun (h 0) i
    rw [applyMat_eq, applyMat_eq] at this
    simpa using this
  ext i j
  refine Fin.lastCases ?_ (fun i => ?_) i <;> refine Fin.lastCases ?_ (fun j => ?_) j
  · rw [hM.2, hN.2]
  · rw [hM.1, hN.1]
  · exact ht i
  · have := congrFun (h (Pi.single j 1)) i
    rw [applyMat_eq, applyMat_eq, ht i] at this
    simpa [Pi.single_apply] using this

/-- Two affine matrices are inverse to each other as soon as one undoes the other on points. -/
theorem inverse_of_apply {M N : Matrix (Fin (n + 1)) (Fin (n + 1)) K} (hM : IsAffine M) (hN : IsAffine N)
    (h : ∀ p, applyMat N (applyMat M p) = p) : M * N = 1 ∧ N * M = 1 := by
  have h1 : N * M = 1 := affine_ext (isAffine_mul hN hM) isAffine_one (fun p => by
    rw [applyMat_mul hN hM, h, applyMat_one])
  exact ⟨mul_eq_one_comm.1 h1, h1⟩

/-- The stored inverse is the inverse. -/
structure Wf (x : XF K n) : Prop where
  mat : IsAffine x.mat
  inv : IsAffine x.inv
  left : x.mat * x.inv = 1
  right : x.inv * x.mat = 1

theorem Wf.of_apply {x : XF K n} (h1 : IsAffine x.mat) (h2 : IsAffine x.inv)
    (h : ∀ p, x.applyInverse (x.apply p) = p) : Wf x :=
  ⟨h1, h2, (inverse_of_apply h1 h2 h).1, (inverse_of_apply h1 h2 h).2⟩

/-! ### Rotations -/

omit n in
theorem applyMat3 (M : Matrix (Fin 4) (Fin 4) K) (p : Fin 3 → K) :
    applyMat M p = ![M 0 0 * p 0 + M 0 1 * p 1 + M 0 2 * p 2 + M 0 3, M 1 0 * p 0 + M 1 1 * p 1 + M 1 2 * p 2 + M 1 3,
      M 2 0 * p 0 + M 2 1 * p 1 + M 2 2 * p 2 + M 2 3] := by
  ext i
  rw [applyMat_eq, Fin.sum_univ_three]
  fin_cases i <;> rfl

omit n in
theorem applyMat2 (M : Matrix (Fin 3) (Fin 3) K) (p : Fin 2 → K) :
    applyMat M p = ![M 0 0 * p 0 + M 0 1 * p 1 + M 0 2, M 1 0 * p 0 + M 1 1 * p 1 + M 1 2] := by
  ext i
  rw [applyMat_eq, Fin.sum_univ_two]
  fin_cases i <;> rfl

theorem isAffine3 {M : Matrix (Fin 4) (Fin 4) K} (h0 : M 3 0 = 0) (h1 : M 3 1 = 0) (h2 : M 3 2 = 0) (h3 : M 3 3 = 1) :
    IsAffine (n := 3) M := by
  refine ⟨fun j => ?_, h3⟩
  fin_cases j <;> assumption

theorem isAffine2 {M : Matrix (Fin 3) (Fin 3) K} (h0 : M 2 0 = 0) (h1 : M 2 1 = 0) (h2 : M 2 2 = 1) :
    IsAffine (n := 2) M := by
  refine ⟨fun j => ?_, h2⟩
  fin_cases j <;> assumption

theorem rotmat_apply (k : Fin 3 → K) (c s : K) (p : Fin 3 → K) :
    applyMat (n := 3) (rotmat k c s) p = rodrigues c s k p := by
  rw [applyMat3]
  ext i
  fin_cases i <;> simp only [rotmat, rodrigues, dot3, cross_apply, Pi.add_apply, Pi.smul_apply, smul_eq_mul,
    Matrix.of_apply, Matrix.cons_val_zero, Matrix.cons_val_one, Matrix.cons_val, Fin.zero_eta, Fin.mk_one,
    Fin.reduceFinMk] <;> ring

theorem rotmat_affine (k : Fin 3 → K) (c s : K) : IsAffine (n := 3) (rotmat k c s) :=
  isAffine3 rfl rfl rfl rfl

/-- Changing the sign of the sine transposes the rotation. -/
theorem rotmat_transpose (k : Fin 3 → K) (c s : K) :
    (Matrix.of fun r' c' => rotmat k c s c' r' : Matrix (Fin 4) (Fin 4) K) = rotmat k c (-s) := by
  ext i j
  fin_cases i <;> fin_cases j <;> simp [rotmat] <;> ring

theorem rodrigues_inverse {c s : K} (hcs : c * c + s * s = 1) {k : Fin 3 → K} (hk : k ⬝ᵥ k = 1) (p : Fin 3 → K) :
    rodrigues c (-s) k (rodrigues c s k p) = p := by
  rw [(rodrigues_spec hcs hk p p).2.2.2 c (-s)]
  rw [show c * c - -s * s = 1 by linear_combination hcs, show -s * c + c * s = 0 by ring, rodrigues]
  module

/-- The rotation about a centre. -/
def rodriguesAbout (c s : K) (k center p : Fin 3 → K) : Fin 3 → K := center + rodrigues c s k (p - center)

theorem rodriguesAbout_inverse {c s : K} (hcs : c * c + s * s = 1) {k : Fin 3 → K} (hk : k ⬝ᵥ k = 1)
    (ctr p : Fin 3 → K) : rodriguesAbout c (-s) k ctr (rodriguesAbout c s k ctr p) = p := by
  rw [rodriguesAbout, rodriguesAbout, show ctr + rodrigues c s k (p - ctr) - ctr = rodrigues c s k (p - ctr) by abel,
    rodrigues_inverse hcs hk]
  abel

theorem rotmatAbout_apply (k ctr : Fin 3 → K) (hk : k ⬝ᵥ k = 1) (c s : K) (p : Fin 3 → K) :
    applyMat (n := 3) (rotmatAbout k ctr c s) p = rodriguesAbout c s k ctr p := by
  rw [applyMat3]
  rw [dot3] at hk
  ext i
  fin_cases i <;> simp only [rotmatAbout, rodriguesAbout, rodrigues, dot3, cross_apply, Pi.add_apply, Pi.sub_apply,
    Pi.smul_apply, smul_eq_mul, Duals.diffOfProducts_eq, Duals.sumOfProducts_eq,
    Matrix.of_apply, Matrix.cons_val_zero, Matrix.cons_val_one, Matrix.cons_val, Fin.zero_eta, Fin.mk_one,
    Fin.reduceFinMk]
  · linear_combination (c * p 0 + (1 - c) * ctr 0) * hk
  · linear_combination (c * p 1 + (1 - c) * ctr 1) * hk
  · linear_combination (c * p 2 + (1 - c) * ctr 2) * hk

theorem rotmatBoth_mat (k ctr : Fin 3 → K) (c s : K) :
    (rotmatBoth k ctr c s).mat = rotmatAbout k ctr c s ∧ (rotmatBoth k ctr c s).inv = rotmatAbout k ctr c (-s) := by
  constructor <;>
  · ext i j
    fin_cases i <;> fin_cases j <;>
      simp [rotmatBoth, rotmatAbout, Duals.diffOfProducts_eq, Duals.sumOfProducts_eq] <;> ring

theorem rotmatAbout_affine (k ctr : Fin 3 → K) (c s : K) : IsAffine (n := 3) (rotmatAbout k ctr c s) :=
  isAffine3 rfl rfl rfl rfl

theorem rotmatQuat_apply (q : Fin 4 → K) (p : Fin 3 → K) :
    applyMat (n := 3) (rotmatQuat q) p = Quat.rotate q p := by
  rw [applyMat3]
  ext i
  fin_cases i <;> simp only [rotmatQuat, Quat.rotate, Quat.mult, Quat.conj, Quat.mk, Quat.imag,
    Matrix.of_apply, Matrix.cons_val_zero, Matrix.cons_val_one, Matrix.cons_val, Fin.zero_eta, Fin.mk_one,
    Fin.reduceFinMk] <;> ring

theorem rotmatQuat_transpose (q : Fin 4 → K) :
    (Matrix.of fun r' c' => rotmatQuat q c' r' : Matrix (Fin 4) (Fin 4) K) = rotmatQuat (Quat.conj q) := by
  ext i j
  fin_cases i <;> fin_cases j <;> simp [rotmatQuat, Quat.conj] <;> ring

theorem rotmatXYZ (c s : K) :
    rotmatX c s = rotmat ![1, 0, 0] c s ∧ rotmatY c s = rotmat ![0, 1, 0] c s ∧
    rotmatZ c s = rotmat ![0, 0, 1] c s := by
  refine ⟨?_, ?_, ?_⟩ <;>
  · ext i j
    fin_cases i <;> fin_cases j <;> simp [rotmat, rotmatX, rotmatY, rotmatZ]

/-- A rotation with its transpose is consistent. -/
theorem rotmat_wf {c s : K} (hcs : c * c + s * s = 1) {k : Fin 3 → K} (hk : k ⬝ᵥ k = 1) :
    Wf (withTranspose (n := 3) (rotmat k c s)) := by
  apply Wf.of_apply
  · exact rotmat_affine k c s
  · show IsAffine (n := 3) (Matrix.of fun r' c' => rotmat k c s c' r')
    rw [rotmat_transpose]
    exact rotmat_affine k c (-s)
  · intro p
    show applyMat (n := 3) (Matrix.of fun r' c' => rotmat k c s c' r') (applyMat (n := 3) (rotmat k c s) p) = p
    rw [rotmat_transpose, rotmat_apply, rotmat_apply, rodrigues_inverse hcs hk]

theorem rotmatBoth_wf {c s : K} (hcs : c * c + s * s = 1) {k : Fin 3 → K} (hk : k ⬝ᵥ k = 1) (ctr : Fin 3 → K) :
    Wf (rotmatBoth k ctr c s) := by
  obtain ⟨h1, h2⟩ := rotmatBoth_mat k ctr c s
  apply Wf.of_apply
  · rw [h1]
    exact rotmatAbout_affine _ _ _ _
  · rw [h2]
    exact rotmatAbout_affine _ _ _ _
  · intro p
    rw [XF.applyInverse, XF.apply, h1, h2, rotmatAbout_apply _ _ hk, rotmatAbout_apply _ _ hk,
      rodriguesAbout_inverse hcs hk]

theorem rotmatQuat_wf {q : Fin 4 → K} (hq : mag2 q = 1) : Wf (withTranspose (n := 3) (rotmatQuat q)) := by
  apply Wf.of_apply
  · exact isAffine3 rfl rfl rfl rfl
  · show IsAffine (n := 3) (Matrix.of fun r' c' => rotmatQuat q c' r')
    rw [rotmatQuat_transpose]
    exact isAffine3 rfl rfl rfl rfl
  · intro p
    show applyMat (n := 3) (Matrix.of fun r' c' => rotmatQuat q c' r') (applyMat (n := 3) (rotmatQuat q) p) = p
    rw [rotmatQuat_transpose, rotmatQuat_apply, rotmatQuat_apply, ← Quat.unrotate_eq]
    exact ((Quat.C40_rotation q p p).2 hq).2.2.1

theorem rotation2_wf {c s : K} (hcs : c * c + s * s = 1) : Wf (rotation2 c s) := by
  apply Wf.of_apply
  · exact isAffine2 rfl rfl rfl
  · exact isAffine2 rfl rfl rfl
  · intro p
    rw [XF.applyInverse, XF.apply, applyMat2, applyMat2]
    ext i
    fin_cases i <;> simp [rotation2]
    · linear_combination p 0 * hcs
    · linear_combination p 1 * hcs

section Ordered
variable [LinearOrder K] [IsStrictOrderedRing K]

omit n in
/-- `direction_align` away from the poles is the `align` of C39. -/
theorem rotmatAlign_apply (dir tgt : Fin 3 → K) (h : |dir ⬝ᵥ tgt| ≠ 1) (p : Fin 3 → K) :
    align dir tgt p = some (applyMat (n := 3) (rotmatAlign dir tgt) p) := by
  have h1 : 1 + dir ⬝ᵥ tgt ≠ 0 := by
    intro h0
    apply h
    rw [show dir ⬝ᵥ tgt = -1 by linear_combination h0]
    simp
  have h2 : 1 - dir ⬝ᵥ tgt ≠ 0 := by
    intro h0
    apply h
    rw [show dir ⬝ᵥ tgt = 1 by linear_combination -h0]
    simp
  rw [align, rotmatAlign, applyMat3]
  simp only [dot_eq]
  rw [if_neg h1, if_neg h]
  have hk : (1 - dir ⬝ᵥ tgt) / (1 - dir ⬝ᵥ tgt * dir ⬝ᵥ tgt) = 1 / (1 + dir ⬝ᵥ tgt) := by
    rw [show 1 - dir ⬝ᵥ tgt * dir ⬝ᵥ tgt = (1 - dir ⬝ᵥ tgt) * (1 + dir ⬝ᵥ tgt) by ring]
    field_simp
  rw [hk]
  congr 1
  ext i
  fin_cases i <;> simp

end Ordered

end Geomc.Affine
