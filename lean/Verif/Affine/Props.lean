import Mathlib.Tactic.LinearCombination
import Verif.Affine.Lemmas

/-!
# C41, C42: consistency of the stored inverse, composition and normals
-/

namespace Geomc.Affine

open Geomc.Vec

section
variable {K : Type} [Field K] {n : ℕ}

/-! ### Consistency of each constructor -/

theorem identity_wf : Wf (XF.identity : XF K n) := by
  constructor <;> simp [XF.identity, eye_eq, isAffine_one]

theorem eye_block (i j : Fin n) : (eye (n + 1) : Matrix _ _ K) i.castSucc j.castSucc = if i = j then 1 else 0 := by
  simp [eye]

theorem translation_apply (t p : Fin n → K) :
    (translation t).apply p = p + t ∧ (translation t).applyInverse p = p - t := by
  constructor <;>
  · ext i
    have hj : ∀ j : Fin n, (j : ℕ) ≠ n := fun j => j.2.ne
    first | rw [XF.apply, applyMat_eq] | rw [XF.applyInverse, applyMat_eq]
    simp [translation, eye_block, hj, sub_eq_add_neg]

theorem eye_affine_rows (M : Matrix (Fin (n + 1)) (Fin (n + 1)) K)
    (h : ∀ j, M (Fin.last n) j = eye (n + 1) (Fin.last n) j) : IsAffine M := by
  constructor
  · intro j
    rw [h, eye_eq]
    exact isAffine_one.1 j
  · rw [h, eye_eq]
    exact isAffine_one.2

theorem translation_wf (t : Fin n → K) : Wf (translation t) := by
  apply Wf.of_apply
  · exact eye_affine_rows _ (fun j => by simp [translation])
  · exact eye_affine_rows _ (fun j => by simp [translation])
  · intro p
    rw [(translation_apply t p).1, (translation_apply t _).2]
    abel

theorem scale_apply [DecidableEq K] {s : Fin n → K} {x : XF K n} (h : scale s = some x) (p : Fin n → K) :
    x.apply p = s * p ∧ x.applyInverse p = p / s := by
  unfold scale at h
  split at h
  · cases h
  cases h
  constructor <;>
  · ext i
    have hl : ¬ (i.castSucc = Fin.last n) := (Fin.castSucc_lt_last i).ne
    have hb : ∀ j : Fin n, ¬ (i : Fin n) = j → (eye (n + 1) : Matrix _ _ K) i.castSucc j.castSucc = 0 := fun j h => by
      simp [eye, h]
    first | rw [XF.apply, applyMat_eq] | rw [XF.applyInverse, applyMat_eq]
    simp only [Matrix.of_apply, Fin.val_castSucc, i.2, dif_pos, hl, if_false, Fin.castSucc_inj]
    rw [show (eye (n + 1) : Matrix _ _ K) i.castSucc (Fin.last n) = 0 by simp [eye, hl], add_zero,
      Finset.sum_eq_single i]
    · simp [div_eq_inv_mul]
    · intro j _ hj
      rw [if_neg hj.symm, hb j hj.symm, zero_mul]
    · simp

theorem scale_wf [DecidableEq K] {s : Fin n → K} {x : XF K n} (h : scale s = some x) : Wf x := by
  have hap := scale_apply h
  unfold scale at h
  split at h
  · cases h
  rename_i hs
  push Not at hs
  cases h
  apply Wf.of_apply
  · exact eye_affine_rows _ (fun j => by simp)
  · exact eye_affine_rows _ (fun j => by simp)
  · intro p
    rw [(hap p).1, (hap _).2]
    ext i
    simp [mul_div_cancel_left₀ _ (hs i)]

section Ordered
variable [LinearOrder K] [IsStrictOrderedRing K]

/-- What `inv` computes for a nonsingular matrix. -/
theorem simpleInv_spec (n : ℕ) (rm : Bool) (m : ℕ → K) (h : (LU.flat n rm m).det ≠ 0) :
    ∃ r, simpleInv n rm m = some (true, r) ∧ LU.view r n n * LU.flat n rm m = 1 := by
  have hflat : ∀ (n : ℕ) (z : ℕ → K), LU.view (fun i j => z (n * i + j)) n n = LU.flat n true z := fun n z => rfl
  unfold simpleInv
  simp only
  by_cases h2 : n = 2
  · subst h2
    obtain ⟨z, e, h1, -⟩ := (LU.C33_inv2 (fun k => if k / 2 = k % 2 then 1 else 0) m true rm).2 h
    rw [if_pos rfl, e]
    exact ⟨_, rfl, by rw [hflat]; exact h1⟩
  rw [if_neg h2]
  by_cases h3 : n = 3
  · subst h3
    obtain ⟨z, e, h1, -⟩ := (LU.C33_inv3 (fun k => if k / 3 = k % 3 then 1 else 0) m true rm).2 h
    rw [if_pos rfl, e]
    exact ⟨_, rfl, by rw [hflat]; exact h1⟩
  rw [if_neg h3]
  by_cases h4 : n = 4
  · subst h4
    obtain ⟨z, e, h1, -⟩ := (LU.C33_inv4 (fun k => if k / 4 = k % 4 then 1 else 0) m true rm).2 h
    rw [if_pos rfl, e]
    exact ⟨_, rfl, by rw [hflat]; exact h1⟩
  rw [if_neg h4]
  have hv : LU.view (fun r c => if rm then m (n * r + c) else m (n * c + r)) n n = LU.flat n rm m := rfl
  obtain ⟨Z, e⟩ := (LU.C33_invNxN_complete (fun r c => if r = c then 1 else 0)
    (fun r c => if rm then m (n * r + c) else m (n * c + r)) n).1 (by rw [hv]; exact h)
  exact ⟨Z, e, by rw [← hv]; exact (LU.C33_invNxN_sound e).2⟩

/-- **C41**: `transformation(M)` of a nonsingular `M` transforms by `M`, and back by its inverse. -/
theorem C41_transformation (n : ℕ) (rm : Bool) (m : ℕ → K) (h : (LU.flat n rm m).det ≠ 0) :
    ∃ x, transformation n rm m = some x ∧ Wf x ∧ (∀ p, x.apply p = (LU.flat n rm m).mulVec p) ∧
      ∀ p, x.applyInverse p = ((LU.flat n rm m)⁻¹).mulVec p := by
  obtain ⟨r, e, h1⟩ := simpleInv_spec n rm m h
  have hl : ∀ i : Fin n, (eye (n + 1) : Matrix _ _ K) i.castSucc (Fin.last n) = 0 := fun i => by
    simp [eye, (Fin.castSucc_lt_last i).ne]
  have hA : ∀ p, ((⟨Matrix.of fun i j => if (i : ℕ) < n ∧ (j : ℕ) < n then
        (if rm then m (n * (i : ℕ) + j) else m (n * (j : ℕ) + i)) else eye _ i j,
        Matrix.of fun i j => if (i : ℕ) < n ∧ (j : ℕ) < n then r i j else eye _ i j⟩ : XF K n)).apply p =
        (LU.flat n rm m).mulVec p := by
    intro p
    ext i
    rw [XF.apply, applyMat_eq]
    simp [hl, Matrix.mulVec, dotProduct, LU.flat]
  have hB : ∀ p, ((⟨Matrix.of fun i j => if (i : ℕ) < n ∧ (j : ℕ) < n then
        (if rm then m (n * (i : ℕ) + j) else m (n * (j : ℕ) + i)) else eye _ i j,
        Matrix.of fun i j => if (i : ℕ) < n ∧ (j : ℕ) < n then r i j else eye _ i j⟩ : XF K n)).applyInverse p =
        ((LU.flat n rm m)⁻¹).mulVec p := by
    intro p
    rw [Matrix.inv_eq_left_inv h1]
    ext i
    rw [XF.applyInverse, applyMat_eq]
    simp [hl, Matrix.mulVec, dotProduct, LU.view]
  refine ⟨_, by rw [transformation, e]; rfl, ?_, hA, hB⟩
  apply Wf.of_apply
  · exact eye_affine_rows _ (fun j => by simp)
  · exact eye_affine_rows _ (fun j => by simp)
  · intro p
    rw [hA, hB, Matrix.mulVec_mulVec, Matrix.nonsing_inv_mul _ (Ne.isUnit h), Matrix.one_mulVec]

omit [IsStrictOrderedRing K] in
/-- **C41** refuted for singular matrices of size 2, 3, 4: the failure of `inv` is not looked at, and the transform keeps
the identity as its inverse. -/
theorem C41_singular_refuted (n : ℕ) (hn : 2 ≤ n ∧ n ≤ 4) (rm : Bool) (m : ℕ → K) (h : (LU.flat n rm m).det = 0) :
    ∃ x, transformation n rm m = some x ∧ (∀ p, x.applyInverse p = p) ∧ ¬ Wf x := by
  have main : simpleInv n rm m = some (false, fun i j => if (n * i + j) / n = (n * i + j) % n then 1 else 0) := by
    unfold simpleInv
    simp only
    obtain rfl | rfl | rfl : n = 2 ∨ n = 3 ∨ n = 4 := by omega
    · rw [if_pos rfl, (LU.C33_inv2 _ m true rm).1 h]
    · rw [if_neg (by decide), if_pos rfl, (LU.C33_inv3 _ m true rm).1 h]
    · rw [if_neg (by decide), if_neg (by decide), if_pos rfl, (LU.C33_inv4 _ m true rm).1 h]
  refine ⟨_, by rw [transformation, main]; rfl, ?_, ?_⟩
  · intro p
    ext i
    rw [XF.applyInverse, applyMat_eq]
    have hq : ∀ i j : Fin n, (n * (i : ℕ) + j) / n = (n * (i : ℕ) + j) % n ↔ i = j := by
      intro i j
      rw [Nat.mul_add_div (by omega), Nat.mul_add_mod, Nat.div_eq_of_lt j.2, Nat.mod_eq_of_lt j.2, Fin.ext_iff, add_zero]
    simp only [Matrix.of_apply, Fin.val_castSucc, Fin.is_lt, and_self, if_true, hq]
    simp [eye, (Fin.castSucc_lt_last i).ne]
  · intro hw
    have hinv : IsUnit (LU.flat n rm m) := by
      have h1 : lin ((Matrix.of fun (i j : Fin (n + 1)) => if (i : ℕ) < n ∧ (j : ℕ) < n then
          (if rm then m (n * (i : ℕ) + j) else m (n * (j : ℕ) + i)) else eye _ i j)) = LU.flat n rm m := by
        ext i j
        simp [lin, LU.flat]
      have h2 := hw.left
      refine IsUnit.of_mul_eq_one (lin (Matrix.of fun (i j : Fin (n + 1)) => if (i : ℕ) < n ∧ (j : ℕ) < n then
        (if (n * (i : ℕ) + j) / n = (n * (i : ℕ) + j) % n then 1 else 0) else eye _ i j)) ?_
      rw [← h1]
      ext i j
      have h3 := congrFun (congrFun h2 i.castSucc) j.castSucc
      rw [Matrix.mul_apply, Fin.sum_univ_castSucc] at h3
      rw [Matrix.mul_apply]
      simp only [lin, Matrix.of_apply, Matrix.one_apply, Fin.castSucc_inj] at h3 ⊢
      rw [← h3, left_eq_add]
      simp [eye, (Fin.castSucc_lt_last i).ne]
    rw [Matrix.isUnit_iff_isUnit_det, h] at hinv
    exact not_isUnit_zero hinv

end Ordered

/-! ### Closure -/

theorem mul_wf {a b : XF K n} (ha : Wf a) (hb : Wf b) : Wf (a.mul b) := by
  constructor <;> simp only [XF.mul, XF.applyXF, mulMat_eq]
  · exact isAffine_mul ha.mat hb.mat
  · exact isAffine_mul hb.inv ha.inv
  · rw [Matrix.mul_assoc, ← Matrix.mul_assoc b.mat, hb.left, Matrix.one_mul, ha.left]
  · rw [Matrix.mul_assoc, ← Matrix.mul_assoc a.inv, ha.right, Matrix.one_mul, hb.right]

theorem inverse_wf {a : XF K n} (ha : Wf a) : Wf a.inverse := ⟨ha.inv, ha.mat, ha.right, ha.left⟩

theorem div_eq (a b : XF K n) : a.div b = b.inverse.mul a := rfl

theorem div_wf {a b : XF K n} (ha : Wf a) (hb : Wf b) : Wf (a.div b) := by
  rw [div_eq]
  exact mul_wf (inverse_wf hb) ha

theorem mulAssign_eq (env : ℕ → XF K n) (i j : ℕ) :
    mulAssign env i j = Function.update env i ((env j).mul (env i)) := by
  unfold mulAssign
  simp only
  by_cases h : j = i
  · subst h
    simp [XF.mul, XF.applyXF]
  · simp [Function.update_of_ne h, XF.mul, XF.applyXF]

theorem divAssign_eq (env : ℕ → XF K n) {i j : ℕ} (h : i ≠ j) :
    divAssign env i j = Function.update env i ((env i).div (env j)) := by
  unfold divAssign
  simp only
  simp [Function.update_of_ne h.symm, XF.div, XF.applyInverseXF]

/-- Transforms as they are first made.  Angles are given by their cosine and sine. -/
inductive Made {K : Type} [Field K] [LinearOrder K] (sqrt : K → K) : (n : ℕ) → XF K n → Prop
  | identity (n : ℕ) : Made sqrt n XF.identity
  | translation {n : ℕ} (t : Fin n → K) : Made sqrt n (translation t)
  | scale {n : ℕ} (s : Fin n → K) (x : XF K n) (h : scale s = some x) : Made sqrt n x
  | rotation2 (c s : K) (h : c * c + s * s = 1) : Made sqrt 2 (rotation2 c s)
  | rotation (axis : Fin 3 → K) (c s : K) (x : XF K 3) (h : c * c + s * s = 1) (e : rotation sqrt axis c s = some x) :
      Made sqrt 3 x
  | rotationAbout (axis center : Fin 3 → K) (c s : K) (x : XF K 3) (h : c * c + s * s = 1)
      (e : rotationAbout sqrt axis center c s = some x) : Made sqrt 3 x
  | rotationQuat (q : Fin 4 → K) (x : XF K 3) (e : rotationQuat sqrt q = some x) : Made sqrt 3 x
  | rotationX (c s : K) (h : c * c + s * s = 1) : Made sqrt 3 (rotationX c s)
  | rotationY (c s : K) (h : c * c + s * s = 1) : Made sqrt 3 (rotationY c s)
  | rotationZ (c s : K) (h : c * c + s * s = 1) : Made sqrt 3 (rotationZ c s)
  | directionAlign (dir tgt : Fin 3 → K) (h₁ : dir ⬝ᵥ dir = 1) (h₂ : tgt ⬝ᵥ tgt = 1) : Made sqrt 3 (directionAlign dir tgt)
  | transformation (n : ℕ) (rm : Bool) (m : ℕ → K) (x : XF K n) (h : (LU.flat n rm m).det ≠ 0)
      (e : transformation n rm m = some x) : Made sqrt n x

/-- Every program on variables holding transforms, except one that divides a variable in place by itself. -/
inductive Hist {K : Type} [Field K] [LinearOrder K] (sqrt : K → K) {n : ℕ} : (ℕ → XF K n) → Prop
  | start : Hist sqrt fun _ => XF.identity
  | store {env} (i : ℕ) {x : XF K n} (h : Hist sqrt env) (hx : Made sqrt n x) : Hist sqrt (Function.update env i x)
  | copy {env} (i j : ℕ) (h : Hist sqrt env) : Hist sqrt (Function.update env i (env j))
  | mul {env} (i j k : ℕ) (h : Hist sqrt env) : Hist sqrt (Function.update env i ((env j).mul (env k)))
  | div {env} (i j k : ℕ) (h : Hist sqrt env) : Hist sqrt (Function.update env i ((env j).div (env k)))
  | apply {env} (i j k : ℕ) (h : Hist sqrt env) : Hist sqrt (Function.update env i ((env j).applyXF (env k)))
  | applyInverse {env} (i j k : ℕ) (h : Hist sqrt env) :
      Hist sqrt (Function.update env i ((env j).applyInverseXF (env k)))
  | inverse {env} (i j : ℕ) (h : Hist sqrt env) : Hist sqrt (Function.update env i (env j).inverse)
  | mulAssign {env} (i j : ℕ) (h : Hist sqrt env) : Hist sqrt (mulAssign env i j)
  | divAssign {env} (i j : ℕ) (h : Hist sqrt env) (hij : i ≠ j) : Hist sqrt (divAssign env i j)

end

section
variable {K : Type} [Field K] [LinearOrder K] [IsStrictOrderedRing K] {n : ℕ}

/-- `direction_align` preserves inner products for unit directions, opposite or not. -/
theorem rotmatAlign_dot {dir tgt : Fin 3 → K} (hd : dir ⬝ᵥ dir = 1) (ht : tgt ⬝ᵥ tgt = 1) (u v : Fin 3 → K) :
    applyMat (n := 3) (rotmatAlign dir tgt) u ⬝ᵥ applyMat (n := 3) (rotmatAlign dir tgt) v = u ⬝ᵥ v := by
  by_cases h : |dir ⬝ᵥ tgt| = 1
  · rw [rotmatAlign]
    simp only [dot_eq]
    rw [if_pos h]
    split
    · rw [applyMat3, applyMat3]
      simp [dot3]
      ring
    · rw [eye_eq, applyMat_one, applyMat_one]
  · have h' : tgt ≠ -dir := by
      rintro rfl
      apply h
      rw [dotProduct_neg, hd]
      simp
    obtain ⟨u', v', e1, e2, e3, -⟩ := (C39_align hd ht u v).2 h'
    rw [rotmatAlign_apply _ _ h] at e1 e2
    cases e1
    cases e2
    exact e3

omit [LinearOrder K] [IsStrictOrderedRing K] in
/-- A matrix without translation that preserves inner products is inverted by its transpose. -/
theorem withTranspose_wf {M : Matrix (Fin (n + 1)) (Fin (n + 1)) K} (h : IsAffine M)
    (h0 : ∀ i : Fin n, M i.castSucc (Fin.last n) = 0)
    (hd : ∀ u v, applyMat M u ⬝ᵥ applyMat M v = u ⬝ᵥ v) : Wf (withTranspose M) := by
  apply Wf.of_apply
  · exact h
  · exact ⟨h0, h.2⟩
  · intro p
    ext i
    have h1 := hd (Pi.single i 1) p
    rw [single_one_dotProduct] at h1
    rw [← h1]
    show applyMat (Matrix.of fun r c => M c r) (applyMat M p) i = _
    rw [applyMat_eq, dotProduct]
    simp only [Matrix.of_apply, h.1, add_zero]
    apply Finset.sum_congr rfl
    intro j _
    rw [applyMat_eq (p := Pi.single i 1)]
    simp [h0, Pi.single_apply]

theorem directionAlign_wf {dir tgt : Fin 3 → K} (hd : dir ⬝ᵥ dir = 1) (ht : tgt ⬝ᵥ tgt = 1) :
    Wf (directionAlign dir tgt) := by
  apply withTranspose_wf
  · rw [rotmatAlign]
    simp only
    split
    · split
      · exact isAffine3 rfl rfl rfl rfl
      · rw [eye_eq]
        exact isAffine_one
    · exact isAffine3 rfl rfl rfl rfl
  · intro i
    rw [rotmatAlign]
    simp only
    split
    · split
      · fin_cases i <;> rfl
      · exact if_neg (Fin.castSucc_lt_last i).ne
    · fin_cases i <;> rfl
  · exact rotmatAlign_dot hd ht

theorem made_wf {sqrt : K → K} (hs : IsSqrt sqrt) {x : XF K n} (h : Made sqrt n x) : Wf x := by
  cases h with
  | identity => exact identity_wf
  | translation t => exact translation_wf t
  | scale s x h => exact scale_wf h
  | rotation2 c s h => exact rotation2_wf h
  | rotation axis c s x h e =>
    unfold rotation at e
    rcases hu : unit sqrt axis with _ | k
    · rw [hu] at e
      cases e
    · rw [hu] at e
      cases e
      exact rotmat_wf h (((C37_unit hs axis).2 k hu).1)
  | rotationAbout axis center c s x h e =>
    unfold rotationAbout at e
    rcases hu : unit sqrt axis with _ | k
    · rw [hu] at e
      cases e
    · rw [hu] at e
      cases e
      exact rotmatBoth_wf h (((C37_unit hs axis).2 k hu).1) center
  | rotationQuat q x e =>
    unfold rotationQuat at e
    rcases hu : unit sqrt q with _ | k
    · rw [hu] at e
      cases e
    · rw [hu] at e
      cases e
      exact rotmatQuat_wf (by rw [mag2_eq]; exact ((C37_unit hs q).2 k hu).1)
  | rotationX c s h =>
    rw [rotationX, (rotmatXYZ c s).1]
    exact rotmat_wf h (by simp [dot3])
  | rotationY c s h =>
    rw [rotationY, (rotmatXYZ c s).2.1]
    exact rotmat_wf h (by simp [dot3])
  | rotationZ c s h =>
    rw [rotationZ, (rotmatXYZ c s).2.2]
    exact rotmat_wf h (by simp [dot3])
  | directionAlign dir tgt h₁ h₂ => exact directionAlign_wf h₁ h₂
  | transformation n rm m x h e =>
    obtain ⟨x', e', hw, -⟩ := C41_transformation _ rm m h
    rw [e] at e'
    cases e'
    exact hw

theorem hist_wf {sqrt : K → K} (hs : IsSqrt sqrt) {env : ℕ → XF K n} (h : Hist sqrt env) (i : ℕ) : Wf (env i) := by
  have upd : ∀ {env : ℕ → XF K n} {x : XF K n} (j : ℕ), (∀ i, Wf (env i)) → Wf x → ∀ i, Wf (Function.update env j x i) := by
    intro env x j h hx i
    by_cases hij : i = j
    · subst hij
      rw [Function.update_self]
      exact hx
    · rw [Function.update_of_ne hij]
      exact h i
  induction h generalizing i with
  | start => exact identity_wf
  | store j _ hx ih => exact upd j ih (made_wf hs hx) i
  | copy j k _ ih => exact upd j ih (ih k) i
  | mul j k l _ ih => exact upd j ih (mul_wf (ih k) (ih l)) i
  | div j k l _ ih => exact upd j ih (div_wf (ih k) (ih l)) i
  | apply j k l _ ih => exact upd j ih (mul_wf (ih l) (ih k)) i
  | applyInverse j k l _ ih => exact upd j ih (div_wf (ih k) (ih l)) i
  | inverse j k _ ih => exact upd j ih (inverse_wf (ih k)) i
  | mulAssign j k _ ih =>
    rw [mulAssign_eq]
    exact upd j ih (mul_wf (ih k) (ih j)) i
  | divAssign j k _ hjk ih =>
    rw [divAssign_eq _ hjk]
    exact upd j ih (div_wf (ih j) (ih k)) i

omit [LinearOrder K] [IsStrictOrderedRing K] in
theorem vector_eq {x : XF K n} (v : Fin n → K) :
    x.applyVector v = (lin x.mat).mulVec v ∧ x.applyInverseVector v = (lin x.inv).mulVec v ∧
    x.applyNormal v = (lin x.inv).transpose.mulVec v ∧ x.applyInverseNormal v = (lin x.mat).transpose.mulVec v := by
  refine ⟨?_, ?_, ?_, ?_⟩ <;>
  · ext i
    simp only [XF.applyVector, XF.applyInverseVector, XF.applyNormal, XF.applyInverseNormal, applyBlock_eq]
    rfl

omit [LinearOrder K] [IsStrictOrderedRing K] in
theorem lin_mul {M N : Matrix (Fin (n + 1)) (Fin (n + 1)) K} (hN : IsAffine N) : lin (M * N) = lin M * lin N := by
  ext i j
  simp [lin, Matrix.mul_apply, Fin.sum_univ_castSucc, hN.1]

omit [LinearOrder K] [IsStrictOrderedRing K] in
theorem lin_one : lin (1 : Matrix (Fin (n + 1)) (Fin (n + 1)) K) = 1 := by
  ext i j
  simp [lin, Matrix.one_apply]

omit [LinearOrder K] [IsStrictOrderedRing K] in
theorem Wf.lin {x : XF K n} (h : Wf x) : lin x.mat * lin x.inv = 1 ∧ lin x.inv * lin x.mat = 1 := by
  rw [← lin_mul h.inv, ← lin_mul h.mat, h.left, h.right, lin_one]
  exact ⟨rfl, rfl⟩

omit [LinearOrder K] [IsStrictOrderedRing K] in
theorem wf_undo {x : XF K n} (h : Wf x) (v : Fin n → K) :
    (x.applyInverse (x.apply v) = v ∧ x.apply (x.applyInverse v) = v) ∧
    (x.applyInverseVector (x.applyVector v) = v ∧ x.applyVector (x.applyInverseVector v) = v) ∧
    (x.applyInverseNormal (x.applyNormal v) = v ∧ x.applyNormal (x.applyInverseNormal v) = v) := by
  refine ⟨⟨?_, ?_⟩, ⟨?_, ?_⟩, ⟨?_, ?_⟩⟩
  · rw [XF.apply, XF.applyInverse, ← applyMat_mul h.inv h.mat, h.right, applyMat_one]
  · rw [XF.apply, XF.applyInverse, ← applyMat_mul h.mat h.inv, h.left, applyMat_one]
  · rw [(vector_eq _).1, (vector_eq _).2.1, Matrix.mulVec_mulVec, h.lin.2, Matrix.one_mulVec]
  · rw [(vector_eq _).1, (vector_eq _).2.1, Matrix.mulVec_mulVec, h.lin.1, Matrix.one_mulVec]
  · rw [(vector_eq _).2.2.1, (vector_eq _).2.2.2, Matrix.mulVec_mulVec, ← Matrix.transpose_mul, h.lin.2,
      Matrix.transpose_one, Matrix.one_mulVec]
  · rw [(vector_eq _).2.2.1, (vector_eq _).2.2.2, Matrix.mulVec_mulVec, ← Matrix.transpose_mul, h.lin.1,
      Matrix.transpose_one, Matrix.one_mulVec]

/-- **C41**: in every variable of every program (in-place division of a variable by itself excepted), the inverse
functions undo the forward functions and the other way round, for points, directions and normals. -/
theorem C41_history {sqrt : K → K} (hs : IsSqrt sqrt) {env : ℕ → XF K n} (h : Hist sqrt env) (i : ℕ) (v : Fin n → K) :
    ((env i).applyInverse ((env i).apply v) = v ∧ (env i).apply ((env i).applyInverse v) = v) ∧
    ((env i).applyInverseVector ((env i).applyVector v) = v ∧ (env i).applyVector ((env i).applyInverseVector v) = v) ∧
    ((env i).applyInverseNormal ((env i).applyNormal v) = v ∧ (env i).applyNormal ((env i).applyInverseNormal v) = v) :=
  wf_undo (hist_wf hs h i) v

/-- **C41**: `==` compares the forward matrices only, which decides equality of the transforms. -/
theorem C41_equality {sqrt : K → K} (hs : IsSqrt sqrt) {env : ℕ → XF K n} (h : Hist sqrt env) (i j : ℕ) :
    (env i).mat = (env j).mat ↔ env i = env j := by
  refine ⟨fun e => ?_, fun e => by rw [e]⟩
  have hi := hist_wf hs h i
  have hj := hist_wf hs h j
  have : (env i).inv = (env j).inv := by
    calc (env i).inv = (env i).inv * ((env j).mat * (env j).inv) := by rw [hj.left, Matrix.mul_one]
      _ = (env j).inv := by rw [← e, ← Matrix.mul_assoc, hi.right, Matrix.one_mul]
  cases hx : env i
  cases hy : env j
  rw [hx, hy] at this e
  simp_all

omit [LinearOrder K] [IsStrictOrderedRing K] in
/-- **C41** refuted for `xf /= xf`: the matrix becomes the identity but the inverse is left as it was, so the result is
consistent only if the transform was the identity. -/
theorem C41_self_divide_iff (env : ℕ → XF K n) (i : ℕ) (h : Wf (env i)) :
    (divAssign env i i i).mat = 1 ∧ (divAssign env i i i).inv = (env i).inv ∧
    (Wf (divAssign env i i i) ↔ (env i).mat = 1) := by
  have h1 : (divAssign env i i i).mat = 1 := by
    simp [divAssign, mulMat_eq, h.right]
  have h2 : (divAssign env i i i).inv = (env i).inv := by
    simp [divAssign, mulMat_eq, h.right]
  refine ⟨h1, h2, fun hw => ?_, fun e => ?_⟩
  · have h3 := hw.left
    rw [h1, h2, Matrix.one_mul] at h3
    have := h.left
    rw [h3, Matrix.mul_one] at this
    exact this
  · have h3 := h.left
    rw [e, Matrix.one_mul] at h3
    exact ⟨by rw [h1]; exact isAffine_one, by rw [h2]; exact h.inv, by rw [h1, h2, h3, Matrix.one_mul],
      by rw [h1, h2, h3, Matrix.one_mul]⟩

/-- Translate by 3, then divide by itself in place: forwards 7 ↦ 7, backwards 7 ↦ 4. -/
theorem C41_self_divide_refuted :
    ∃ env : ℕ → XF ℚ 1, (divAssign env 0 0 0).apply ![7] = ![7] ∧ (divAssign env 0 0 0).applyInverse ![7] = ![4] :=
  ⟨fun _ => translation ![3], by decide +kernel, by decide +kernel⟩

/-! ### C42 -/

/-- **C42**: `a * b` does `b` first and then `a`; its inverse undoes `a` first. -/
theorem C42_compose {sqrt : K → K} (hs : IsSqrt sqrt) {env : ℕ → XF K n} (h : Hist sqrt env) (i j : ℕ) (p : Fin n → K) :
    ((env i).mul (env j)).apply p = (env i).apply ((env j).apply p) ∧
    ((env i).mul (env j)).applyInverse p = (env j).applyInverse ((env i).applyInverse p) ∧
    ((env i).mul (env j)).applyVector p = (env i).applyVector ((env j).applyVector p) ∧
    ((env i).mul (env j)).applyNormal p = (env i).applyNormal ((env j).applyNormal p) ∧
    ((env i).div (env j)).apply p = (env j).applyInverse ((env i).apply p) ∧
    (env i).inverse.apply p = (env i).applyInverse p ∧ (env i).inverse.applyInverse p = (env i).apply p := by
  have ha := hist_wf hs h i
  have hb := hist_wf hs h j
  refine ⟨?_, ?_, ?_, ?_, ?_, rfl, rfl⟩
  · simp only [XF.apply, XF.mul, XF.applyXF, mulMat_eq]
    exact applyMat_mul ha.mat hb.mat p
  · simp only [XF.applyInverse, XF.mul, XF.applyXF, mulMat_eq]
    exact applyMat_mul hb.inv ha.inv p
  · rw [(vector_eq _).1, (vector_eq _).1, (vector_eq _).1]
    simp only [XF.mul, XF.applyXF, mulMat_eq]
    rw [lin_mul hb.mat, Matrix.mulVec_mulVec]
  · rw [(vector_eq _).2.2.1, (vector_eq _).2.2.1, (vector_eq _).2.2.1]
    simp only [XF.mul, XF.applyXF, mulMat_eq]
    rw [lin_mul ha.inv, Matrix.mulVec_mulVec, Matrix.transpose_mul]
  · simp only [XF.apply, XF.applyInverse, XF.div, XF.applyInverseXF, mulMat_eq]
    exact applyMat_mul hb.inv ha.mat p

/-- **C42**: in place, `a *= b` puts `b` after `a` (the order opposite to `a = a * b`), also when both are the same
object; no other object changes. -/
theorem C42_assign {sqrt : K → K} (hs : IsSqrt sqrt) {env : ℕ → XF K n} (h : Hist sqrt env) (i j : ℕ) (p : Fin n → K) :
    (mulAssign env i j i).apply p = (env j).apply ((env i).apply p) ∧
    (mulAssign env i j i).applyInverse p = (env i).applyInverse ((env j).applyInverse p) ∧
    (∀ k ≠ i, mulAssign env i j k = env k) ∧
    (i ≠ j → (divAssign env i j i).apply p = (env j).applyInverse ((env i).apply p) ∧
      (divAssign env i j i).applyInverse p = (env i).applyInverse ((env j).apply p)) ∧
    ∀ k ≠ i, divAssign env i j k = env k := by
  have ha := hist_wf hs h i
  have hb := hist_wf hs h j
  refine ⟨?_, ?_, fun k hk => ?_, fun hij => ⟨?_, ?_⟩, fun k hk => ?_⟩
  · rw [mulAssign_eq, Function.update_self]
    exact (C42_compose hs h j i p).1
  · rw [mulAssign_eq, Function.update_self]
    exact (C42_compose hs h j i p).2.1
  · rw [mulAssign_eq, Function.update_of_ne hk]
  · rw [divAssign_eq _ hij, Function.update_self]
    exact (C42_compose hs h i j p).2.2.2.2.1
  · rw [divAssign_eq _ hij, Function.update_self]
    simp only [XF.apply, XF.applyInverse, XF.div, XF.applyInverseXF, mulMat_eq]
    exact applyMat_mul ha.inv hb.mat p
  · simp [divAssign, Function.update_of_ne hk]

/-- **C42**: directions are transformed as differences of points, so translation does not matter; normals stay
orthogonal to tangents (indeed inner products are kept); points of a ray go to points of the transformed ray at the same
parameter. -/
theorem C42_directions {sqrt : K → K} (hs : IsSqrt sqrt) {env : ℕ → XF K n} (h : Hist sqrt env) (i : ℕ)
    (p v w : Fin n → K) (t : K) :
    (env i).applyVector v = (env i).apply (p + v) - (env i).apply p ∧
    (env i).applyInverseVector v = (env i).applyInverse (p + v) - (env i).applyInverse p ∧
    (env i).applyNormal w ⬝ᵥ (env i).applyVector v = w ⬝ᵥ v ∧
    (env i).applyInverseNormal w ⬝ᵥ (env i).applyInverseVector v = w ⬝ᵥ v ∧
    (env i).apply (p + t • v) = ((env i).applyRay (p, v)).1 + t • ((env i).applyRay (p, v)).2 ∧
    (env i).applyInverseRay ((env i).applyRay (p, v)) = (p, v) ∧
    (env i).directionMatrix.mulVec v = (env i).applyVector v := by
  have hw := hist_wf hs h i
  have aff : ∀ (M : Matrix (Fin (n + 1)) (Fin (n + 1)) K) (p : Fin n → K) (i : Fin n),
      applyMat M p i = (lin M).mulVec p i + M i.castSucc (Fin.last n) := fun M p i => applyMat_eq M p i
  refine ⟨?_, ?_, ?_, ?_, ?_, ?_, ?_⟩
  · rw [(vector_eq _).1]
    ext r
    simp only [XF.apply, Pi.sub_apply, aff, Matrix.mulVec_add, Pi.add_apply]
    ring
  · rw [(vector_eq _).2.1]
    ext r
    simp only [XF.applyInverse, Pi.sub_apply, aff, Matrix.mulVec_add, Pi.add_apply]
    ring
  · rw [(vector_eq _).2.2.1, (vector_eq _).1, Matrix.mulVec_transpose, ← Matrix.dotProduct_mulVec, Matrix.mulVec_mulVec,
      hw.lin.2, Matrix.one_mulVec]
  · rw [(vector_eq _).2.2.2, (vector_eq _).2.1, Matrix.mulVec_transpose, ← Matrix.dotProduct_mulVec,
      Matrix.mulVec_mulVec, hw.lin.1, Matrix.one_mulVec]
  · simp only [XF.applyRay]
    rw [(vector_eq _).1]
    ext r
    simp only [XF.apply, aff, Matrix.mulVec_add, Matrix.mulVec_smul, Pi.add_apply, Pi.smul_apply]
    ring
  · simp only [XF.applyRay, XF.applyInverseRay]
    rw [(wf_undo hw p).1.1, (wf_undo hw v).2.1.1]
  · rw [(vector_eq _).1]
    rfl

/-! ### Examples -/

example : (translation ![3, 4]).apply ![1, 1] = (![4, 5] : Fin 2 → ℚ) := by decide +kernel
example : ((translation ![3, 4]).mul (rotation2 0 1)).apply ![1, 0] = (![3, 5] : Fin 2 → ℚ) := by decide +kernel
example : (transformation 2 true (fun k => [2, 1, 1, (1 : ℚ)].getD k 0)).map (fun x => x.applyInverse ![3, 2]) =
    some ![1, 1] := by decide +kernel
example : (mulAssign (fun i => if i = 0 then translation ![1] else (translation ![5] : XF ℚ 1)) 0 1 0).apply ![0] =
    ![6] := by decide +kernel

end

end Geomc.Affine
