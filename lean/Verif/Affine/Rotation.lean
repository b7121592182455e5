import Mathlib.LinearAlgebra.Matrix.Determinant.Basic
import Mathlib.Analysis.SpecialFunctions.Trigonometric.Basic
import Verif.Affine.Props

/-!
# C43: rotation constructors; C75: changing the dimension
-/

namespace Geomc.Affine

open Geomc.Vec

/-- A proper rotation of the directions with the transpose as stored inverse. -/
structure IsRotation {K : Type} [Field K] {n : ℕ} (x : XF K n) : Prop where
  wf : Wf x
  orthogonal : x.directionMatrix.transpose * x.directionMatrix = 1
  det : x.directionMatrix.det = 1
  inv : x.inverse.directionMatrix = x.directionMatrix.transpose

section
variable {K : Type} [Field K]

theorem isRotation_of {n : ℕ} {x : XF K n} (hw : Wf x) (hi : lin x.inv = (lin x.mat).transpose)
    (hdet : (lin x.mat).det = 1) : IsRotation x := by
  refine ⟨hw, ?_, hdet, hi⟩
  show (lin x.mat).transpose * lin x.mat = 1
  rw [← hi]
  exact hw.lin.2

theorem rotmat_det (k : Fin 3 → K) (c s : K) (hcs : c * c + s * s = 1) (hk : k ⬝ᵥ k = 1) :
    (lin (n := 3) (rotmat k c s)).det = 1 := by
  rw [dot3] at hk
  rw [Matrix.det_fin_three]
  simp only [lin, Matrix.of_apply, rotmat]
  simp
  linear_combination hcs + (c * c * (1 - c) + s * s * c +
    s * s * (1 - c) * (k 0 * k 0 + k 1 * k 1 + k 2 * k 2 + 1)) * hk

theorem rotmatAbout_lin (k ctr : Fin 3 → K) (hk : k ⬝ᵥ k = 1) (c s : K) :
    lin (n := 3) (rotmatAbout k ctr c s) = lin (n := 3) (rotmat k c s) := by
  rw [dot3] at hk
  ext i j
  fin_cases i <;> fin_cases j <;> simp [lin, rotmatAbout, rotmat] <;> (try ring1)
  · linear_combination c * hk
  · linear_combination c * hk
  · linear_combination c * hk

theorem rotmatQuat_det (q : Fin 4 → K) (hq : mag2 q = 1) : (lin (n := 3) (rotmatQuat q)).det = 1 := by
  rw [mag2_eq, Quat.dot4] at hq
  rw [Matrix.det_fin_three]
  simp only [lin, Matrix.of_apply, rotmatQuat]
  simp
  have e : (q 0 * q 0 + q 1 * q 1 + q 2 * q 2 + q 3 * q 3) ^ 3 = 1 := by rw [hq, one_pow]
  rw [← e]
  ring

theorem rotmat_isRotation {c s : K} (hcs : c * c + s * s = 1) {k : Fin 3 → K} (hk : k ⬝ᵥ k = 1) :
    IsRotation (withTranspose (n := 3) (rotmat k c s)) :=
  isRotation_of (rotmat_wf hcs hk) rfl (rotmat_det k c s hcs hk)

theorem rotmat_inverse_apply (k : Fin 3 → K) (c s : K) (p : Fin 3 → K) :
    (withTranspose (n := 3) (rotmat k c s)).applyInverse p = rodrigues c (-s) k p := by
  show applyMat (n := 3) (Matrix.of fun r' c' => rotmat k c s c' r') p = _
  rw [rotmat_transpose, rotmat_apply]

/-- The fourteen facts about one rotation about an axis. -/
theorem rotation_facts {c s : K} (hcs : c * c + s * s = 1) {k : Fin 3 → K} (hk : k ⬝ᵥ k = 1) (p : Fin 3 → K) :
    IsRotation (withTranspose (n := 3) (rotmat k c s)) ∧
    (withTranspose (n := 3) (rotmat k c s)).apply p = rodrigues c s k p ∧
    (withTranspose (n := 3) (rotmat k c s)).applyInverse p = rodrigues c (-s) k p :=
  ⟨rotmat_isRotation hcs hk, rotmat_apply k c s p, rotmat_inverse_apply k c s p⟩

/-- **C43**, rotations about coordinate axes and in the plane. -/
theorem C43_coordinate {c s : K} (hcs : c * c + s * s = 1) (p : Fin 3 → K) (p₂ : Fin 2 → K) :
    (IsRotation (rotationX c s) ∧ (rotationX c s).apply p = ![p 0, c * p 1 - s * p 2, s * p 1 + c * p 2]) ∧
    (IsRotation (rotationY c s) ∧ (rotationY c s).apply p = ![c * p 0 + s * p 2, p 1, c * p 2 - s * p 0]) ∧
    (IsRotation (rotationZ c s) ∧ (rotationZ c s).apply p = ![c * p 0 - s * p 1, s * p 0 + c * p 1, p 2]) ∧
    (IsRotation (rotation2 c s) ∧ (rotation2 c s).apply p₂ = rotated c s p₂) := by
  refine ⟨⟨?_, ?_⟩, ⟨?_, ?_⟩, ⟨?_, ?_⟩, ?_, ?_⟩
  · rw [rotationX, (rotmatXYZ c s).1]
    exact rotmat_isRotation hcs (by simp [dot3])
  · show applyMat (n := 3) (rotmatX c s) p = _
    rw [applyMat3]
    ext i
    fin_cases i <;> simp [rotmatX] <;> ring
  · rw [rotationY, (rotmatXYZ c s).2.1]
    exact rotmat_isRotation hcs (by simp [dot3])
  · show applyMat (n := 3) (rotmatY c s) p = _
    rw [applyMat3]
    ext i
    fin_cases i <;> simp [rotmatY] <;> ring
  · rw [rotationZ, (rotmatXYZ c s).2.2]
    exact rotmat_isRotation hcs (by simp [dot3])
  · show applyMat (n := 3) (rotmatZ c s) p = _
    rw [applyMat3]
    ext i
    fin_cases i <;> simp [rotmatZ] <;> ring
  · apply isRotation_of (rotation2_wf hcs)
    · ext i j
      fin_cases i <;> fin_cases j <;> rfl
    · rw [Matrix.det_fin_two]
      simp [lin, rotation2]
      linear_combination hcs
  · show applyMat (n := 2) (rotation2 c s).mat p₂ = _
    rw [applyMat2]
    ext i
    fin_cases i <;> simp [rotation2, rotated] <;> ring

end

section
variable {K : Type} [Field K] [LinearOrder K] [IsStrictOrderedRing K]

/-- **C43**, rotation about an axis: undefined exactly for the zero axis; otherwise the proper rotation by the given
angle about the unit vector along the axis, which it fixes. -/
theorem C43_axis {sqrt : K → K} (hs : IsSqrt sqrt) (axis : Fin 3 → K) {c s : K} (hcs : c * c + s * s = 1) :
    (rotation sqrt axis c s = none ↔ axis = 0) ∧
    ∀ x, rotation sqrt axis c s = some x → IsRotation x ∧ ∃ k : Fin 3 → K, k ⬝ᵥ k = 1 ∧
      (∃ t : K, 0 < t ∧ axis = t • k) ∧ (∀ p, x.apply p = rodrigues c s k p) ∧
      (∀ p, x.applyInverse p = rodrigues c (-s) k p) ∧ x.apply axis = axis := by
  unfold rotation
  rw [Option.map_eq_none_iff]
  refine ⟨(C37_unit hs axis).1, fun x hx => ?_⟩
  obtain ⟨k, hk, rfl⟩ := Option.map_eq_some_iff.1 hx
  obtain ⟨h1, t, ht, -, hax⟩ := (C37_unit hs axis).2 k hk
  refine ⟨rotmat_isRotation hcs h1, k, h1, ⟨t, ht, hax⟩, fun p => rotmat_apply k c s p,
    fun p => rotmat_inverse_apply k c s p, ?_⟩
  show applyMat (n := 3) (rotmat k c s) axis = axis
  rw [rotmat_apply]
  have h2 := (rodrigues_spec hcs h1 k k).2.1
  conv_rhs => rw [hax, ← h2]
  rw [hax, rodrigues, rodrigues]
  simp only [Matrix.smul_vec3, dotProduct_smul, map_smul, smul_eq_mul]
  module

/-- **C43**, rotation about an axis through a centre, which it fixes. -/
theorem C43_center {sqrt : K → K} (hs : IsSqrt sqrt) (axis ctr : Fin 3 → K) {c s : K} (hcs : c * c + s * s = 1) :
    (rotationAbout sqrt axis ctr c s = none ↔ axis = 0) ∧
    ∀ x, rotationAbout sqrt axis ctr c s = some x → IsRotation x ∧ x.apply ctr = ctr ∧ ∃ k : Fin 3 → K, k ⬝ᵥ k = 1 ∧
      (∃ t : K, 0 < t ∧ axis = t • k) ∧ (∀ p, x.apply p = ctr + rodrigues c s k (p - ctr)) ∧
      (∀ p, x.applyInverse p = ctr + rodrigues c (-s) k (p - ctr)) := by
  unfold rotationAbout
  rw [Option.map_eq_none_iff]
  refine ⟨(C37_unit hs axis).1, fun x hx => ?_⟩
  obtain ⟨k, hk, rfl⟩ := Option.map_eq_some_iff.1 hx
  obtain ⟨h1, t, ht, -, hax⟩ := (C37_unit hs axis).2 k hk
  obtain ⟨e1, e2⟩ := rotmatBoth_mat k ctr c s
  have ha : ∀ p, (rotmatBoth k ctr c s).apply p = ctr + rodrigues c s k (p - ctr) := fun p => by
    rw [XF.apply, e1]
    exact rotmatAbout_apply k ctr h1 c s p
  refine ⟨isRotation_of (rotmatBoth_wf hcs h1 ctr) ?_ ?_, ?_, k, h1, ⟨t, ht, hax⟩, ha, fun p => ?_⟩
  · rw [e1, e2, rotmatAbout_lin _ _ h1, rotmatAbout_lin _ _ h1, ← rotmat_transpose]
    rfl
  · rw [e1, rotmatAbout_lin _ _ h1]
    exact rotmat_det k c s hcs h1
  · rw [ha, sub_self, rodrigues]
    simp
  · rw [XF.applyInverse, e2]
    exact rotmatAbout_apply k ctr h1 c (-s) p

/-- **C43**, rotation from a quaternion: that of the unit quaternion along it; every nonzero quaternion will do. -/
theorem C43_quat {sqrt : K → K} (hs : IsSqrt sqrt) (q : Fin 4 → K) :
    (rotationQuat sqrt q = none ↔ q = 0) ∧
    ∀ x, rotationQuat sqrt q = some x → IsRotation x ∧ ∃ u : Fin 4 → K, mag2 u = 1 ∧ (∃ t : K, 0 < t ∧ q = t • u) ∧
      (∀ p, x.apply p = Quat.rotate u p) ∧ ∀ p, x.applyInverse p = Quat.unrotate p u := by
  unfold rotationQuat
  rw [Option.map_eq_none_iff]
  refine ⟨(C37_unit hs q).1, fun x hx => ?_⟩
  obtain ⟨k, hk, rfl⟩ := Option.map_eq_some_iff.1 hx
  obtain ⟨h1, t, ht, -, hax⟩ := (C37_unit hs q).2 k hk
  rw [← mag2_eq] at h1
  refine ⟨isRotation_of (rotmatQuat_wf h1) rfl (rotmatQuat_det k h1), k, h1, ⟨t, ht, hax⟩,
    fun p => rotmatQuat_apply k p, fun p => ?_⟩
  show applyMat (n := 3) (Matrix.of fun r' c' => rotmatQuat k c' r') p = _
  rw [rotmatQuat_transpose, rotmatQuat_apply, Quat.unrotate_eq]

omit [LinearOrder K] [IsStrictOrderedRing K] in
theorem applyMat_lin {M : Matrix (Fin 4) (Fin 4) K} (h0 : ∀ i : Fin 3, M i.castSucc (Fin.last 3) = 0) (p : Fin 3 → K) :
    applyMat (n := 3) M p = (lin (n := 3) M).mulVec p := by
  ext i
  rw [applyMat_eq, h0, add_zero]
  rfl

omit [LinearOrder K] [IsStrictOrderedRing K] in
/-- A matrix that preserves inner and cross products has determinant one. -/
theorem det_of_cross {M : Matrix (Fin 3) (Fin 3) K} (hd : ∀ u v, M.mulVec u ⬝ᵥ M.mulVec v = u ⬝ᵥ v)
    (hc : ∀ u v, M.mulVec (crossProduct u v) = crossProduct (M.mulVec u) (M.mulVec v)) : M.det = 1 := by
  have hcol : ∀ j : Fin 3, M.mulVec (Pi.single j 1) = fun i => M i j := fun j => by
    ext i
    simp
  have h1 : M.det = crossProduct (fun i => M i 0) (fun i => M i 1) ⬝ᵥ fun i => M i 2 := by
    rw [Matrix.det_fin_three, dot3, cross_apply]
    simp
    ring
  rw [h1, ← hcol, ← hcol, ← hcol, ← hc, hd, dot3, cross_apply]
  simp

/-- **C43**, `direction_align` for unit directions: a proper rotation. It takes the first direction to the second
unless they are opposite. -/
theorem C43_direction_align {dir tgt : Fin 3 → K} (hd : dir ⬝ᵥ dir = 1) (ht : tgt ⬝ᵥ tgt = 1) :
    IsRotation (directionAlign dir tgt) ∧ (tgt ≠ -dir → (directionAlign dir tgt).apply dir = tgt) := by
  have hw := directionAlign_wf hd ht
  by_cases h : |dir ⬝ᵥ tgt| = 1
  · by_cases hneg : dir ⬝ᵥ tgt < 0
    · have e : rotmatAlign dir tgt = !![-1, 0, 0, 0; 0, 1, 0, 0; 0, 0, -1, 0; 0, 0, 0, 1] := by
        rw [rotmatAlign]
        simp only [dot_eq]
        rw [if_pos h, if_pos hneg]
      refine ⟨isRotation_of hw rfl ?_, fun hne => ?_⟩
      · show (lin (n := 3) (rotmatAlign dir tgt)).det = 1
        rw [e, Matrix.det_fin_three]
        simp [lin]
      · exact absurd ((opposite_iff hd ht).1 (by rw [abs_of_neg hneg] at h; linear_combination -h)) hne
    · have e : rotmatAlign dir tgt = 1 := by
        rw [rotmatAlign]
        simp only [dot_eq]
        rw [if_pos h, if_neg hneg, eye_eq]
      refine ⟨isRotation_of hw rfl ?_, fun _ => ?_⟩
      · show (lin (n := 3) (rotmatAlign dir tgt)).det = 1
        rw [e]
        exact (congrArg Matrix.det lin_one).trans Matrix.det_one
      · show applyMat (n := 3) (rotmatAlign dir tgt) dir = tgt
        rw [e, applyMat_one]
        have h1 : dir ⬝ᵥ tgt = 1 := by rw [abs_of_nonneg (not_lt.1 hneg)] at h; exact h
        have h2 : (dir - tgt) ⬝ᵥ (dir - tgt) = 0 := by
          rw [sub_dotProduct, dotProduct_sub, dotProduct_sub, hd, ht, dotProduct_comm tgt dir, h1]
          ring
        exact sub_eq_zero.1 ((self_dot_eq_zero _).1 h2)
  · have h' : tgt ≠ -dir := by
      rintro rfl
      apply h
      rw [dotProduct_neg, hd]
      simp
    have h0 : ∀ i : Fin 3, rotmatAlign dir tgt i.castSucc (Fin.last 3) = 0 := by
      intro i
      rw [rotmatAlign]
      simp only [dot_eq]
      rw [if_neg h]
      fin_cases i <;> rfl
    refine ⟨isRotation_of hw rfl (det_of_cross (fun u v => ?_) fun u v => ?_), fun _ => ?_⟩
    · show (lin (n := 3) (rotmatAlign dir tgt)).mulVec u ⬝ᵥ (lin (n := 3) (rotmatAlign dir tgt)).mulVec v = u ⬝ᵥ v
      rw [← applyMat_lin h0, ← applyMat_lin h0]
      exact rotmatAlign_dot hd ht u v
    · show (lin (n := 3) (rotmatAlign dir tgt)).mulVec (crossProduct u v) =
        crossProduct ((lin (n := 3) (rotmatAlign dir tgt)).mulVec u) ((lin (n := 3) (rotmatAlign dir tgt)).mulVec v)
      rw [← applyMat_lin h0, ← applyMat_lin h0, ← applyMat_lin h0]
      obtain ⟨u', v', e1, e2, -, e4, -⟩ := (C39_align hd ht u v).2 h'
      rw [rotmatAlign_apply _ _ h] at e1 e2 e4
      cases e1
      cases e2
      exact Option.some.inj e4
    · obtain ⟨u', v', -, -, -, -, e5⟩ := (C39_align hd ht dir dir).2 h'
      rw [rotmatAlign_apply _ _ h] at e5
      exact Option.some.inj e5

/-- **C43** refuted for opposite directions: the half turn is always the one about the y axis, so the direction is
reversed only if it is orthogonal to that axis. -/
theorem C43_direction_align_opposite_iff {dir : Fin 3 → K} (hd : dir ⬝ᵥ dir = 1) :
    (∀ p, (directionAlign dir (-dir)).apply p = ![-p 0, p 1, -p 2]) ∧
    ((directionAlign dir (-dir)).apply dir = -dir ↔ dir 1 = 0) := by
  have e : rotmatAlign dir (-dir) = !![-1, 0, 0, 0; 0, 1, 0, 0; 0, 0, -1, 0; 0, 0, 0, 1] := by
    rw [rotmatAlign]
    simp only [dot_eq, dotProduct_neg, hd]
    rw [if_pos (by simp), if_pos (by simp)]
  have ha : ∀ p, (directionAlign dir (-dir)).apply p = ![-p 0, p 1, -p 2] := by
    intro p
    show applyMat (n := 3) (rotmatAlign dir (-dir)) p = _
    rw [e, applyMat3]
    simp
  refine ⟨ha, ?_⟩
  rw [ha]
  constructor
  · intro h
    have := congrFun h 1
    simp at this
    linarith
  · intro h
    ext i
    fin_cases i <;> simp [h]

theorem C43_direction_align_refuted :
    (directionAlign ![0, 1, 0] ![0, -1, 0]).apply ![0, 1, 0] = (![0, 1, 0] : Fin 3 → ℚ) := by decide +kernel

end

/-- **C43** over the reals, with the library's cosine and sine: the rotations of one axis compose by adding the
angles. -/
theorem C43_add (axis : Fin 3 → ℝ) (θ φ : ℝ) (x y z : XF ℝ 3)
    (hx : rotation Real.sqrt axis (Real.cos θ) (Real.sin θ) = some x)
    (hy : rotation Real.sqrt axis (Real.cos φ) (Real.sin φ) = some y)
    (hz : rotation Real.sqrt axis (Real.cos (θ + φ)) (Real.sin (θ + φ)) = some z) (p : Fin 3 → ℝ) :
    x.apply (y.apply p) = z.apply p := by
  have hcs : ∀ t : ℝ, Real.cos t * Real.cos t + Real.sin t * Real.sin t = 1 := fun t => by
    have := Real.cos_sq_add_sin_sq t
    nlinarith
  unfold rotation at hx hy hz
  obtain ⟨k, hk, rfl⟩ := Option.map_eq_some_iff.1 hx
  rw [hk] at hy hz
  cases hy
  cases hz
  have h1 := ((C37_unit isSqrt_real axis).2 k hk).1
  show applyMat (n := 3) (rotmat k _ _) (applyMat (n := 3) (rotmat k _ _) p) = applyMat (n := 3) (rotmat k _ _) p
  rw [rotmat_apply, rotmat_apply, rotmat_apply, (rodrigues_spec (hcs φ) h1 p p).2.2.2, Real.cos_add, Real.sin_add]

example : (rotationZ (3/5) (4/5)).apply ![1, 0, 7] = (![3/5, 4/5, 7] : Fin 3 → ℚ) := by decide +kernel
example : (rotmatBoth ![0, 0, 1] ![1, 0, 0] 0 1).apply ![2, 0, 5] = (![1, 1, 5] : Fin 3 → ℚ) := by decide +kernel
example : (directionAlign ![1, 0, 0] ![0, 0, 1]).apply ![1, 0, 0] = (![0, 0, 1] : Fin 3 → ℚ) := by decide +kernel

/-! ### C75 -/

section
variable {K : Type} [Field K] {n m : ℕ}

theorem resized_entries (x : XF K n) (i : Fin m) :
    (∀ j : Fin m, (x.resized m).mat i.castSucc j.castSucc =
      if h : (i : ℕ) < n ∧ (j : ℕ) < n then x.mat ⟨i, by omega⟩ ⟨j, by omega⟩ else if i = j then 1 else 0) ∧
    ((x.resized m).mat i.castSucc (Fin.last m) = if h : (i : ℕ) < n then x.mat ⟨i, by omega⟩ (Fin.last n) else 0) ∧
    (∀ j : Fin m, (x.resized m).inv i.castSucc j.castSucc =
      if h : (i : ℕ) < n ∧ (j : ℕ) < n then x.inv ⟨i, by omega⟩ ⟨j, by omega⟩ else if i = j then 1 else 0) ∧
    (x.resized m).inv i.castSucc (Fin.last m) = 0 := by
  have hi := i.2
  refine ⟨fun j => ?_, ?_, fun j => ?_, ?_⟩
  · have hj := j.2
    by_cases h : (i : ℕ) < n ∧ (j : ℕ) < n
    · simp [XF.resized, h, hi, hj]
    · have h1 : ¬ ((i : ℕ) < min m n ∧ (j : ℕ) < min m n) := by omega
      have h2 : ¬ ((i : ℕ) < min m n ∧ (j : ℕ) = m) := by omega
      have h3 : ¬ ((i : ℕ) = m ∧ (j : ℕ) = m) := by omega
      simp only [XF.resized, Matrix.of_apply, Fin.val_castSucc]
      rw [dif_neg h1, dif_neg h2, if_neg h3, dif_neg h]
      simp [eye]
  · by_cases h : (i : ℕ) < n
    · simp [XF.resized, h, hi]
    · have h3 : ¬ (i : ℕ) = m := by omega
      simp [XF.resized, h, eye, h3, (Fin.castSucc_lt_last i).ne]
  · have hj := j.2
    by_cases h : (i : ℕ) < n ∧ (j : ℕ) < n
    · simp [XF.resized, h, hi, hj]
    · have h1 : ¬ ((i : ℕ) < min m n ∧ (j : ℕ) < min m n) := by omega
      simp only [XF.resized, Matrix.of_apply, Fin.val_castSucc]
      rw [dif_neg h1, dif_neg h]
      simp [eye]
  · simp [XF.resized, eye, (Fin.castSucc_lt_last i).ne]

/-- The first `n` of the `m` coordinates. -/
def cut (h : n ≤ m) (p : Fin m → K) : Fin n → K := fun i => p ⟨i, by omega⟩

theorem sum_cut (h : n ≤ m) (f : Fin n → K) (p : Fin m → K) :
    (∑ j : Fin m, (if hj : (j : ℕ) < n then f ⟨j, hj⟩ else 0) * p j) = ∑ j : Fin n, f j * cut h p j := by
  obtain ⟨k, rfl⟩ := Nat.exists_eq_add_of_le h
  rw [Fin.sum_univ_add]
  simp [cut]
  rfl

/-- **C75**: enlarging a transform: the first coordinates are transformed as before and the new ones kept, forwards.
Backwards, only the linear part is undone. -/
theorem C75_enlarge (h : n ≤ m) (x : XF K n) (p : Fin m → K) :
    (x.resized m).apply p = (fun i : Fin m => if hi : (i : ℕ) < n then x.apply (cut h p) ⟨i, hi⟩ else p i) ∧
    (x.resized m).applyInverse p =
      (fun i : Fin m => if hi : (i : ℕ) < n then x.applyInverseVector (cut h p) ⟨i, hi⟩ else p i) := by
  have key : ∀ (f : Fin n → Fin n → K) (i : Fin m),
      (∑ j : Fin m, (if h : (i : ℕ) < n ∧ (j : ℕ) < n then f ⟨i, h.1⟩ ⟨j, h.2⟩ else if i = j then 1 else 0) * p j) =
      if hi : (i : ℕ) < n then ∑ j : Fin n, f ⟨i, hi⟩ j * cut h p j else p i := by
    intro f i
    by_cases hi : (i : ℕ) < n
    · rw [dif_pos hi, ← sum_cut h]
      apply Finset.sum_congr rfl
      intro j _
      congr 1
      by_cases hj : (j : ℕ) < n
      · rw [dif_pos ⟨hi, hj⟩, dif_pos hj]
      · have : i ≠ j := fun e => hj (e ▸ hi)
        rw [dif_neg (fun h => hj h.2), dif_neg hj, if_neg this]
    · simp [hi]
  constructor
  · ext i
    rw [XF.apply, applyMat_eq]
    simp only [(resized_entries x i).1, (resized_entries x i).2.1]
    refine (congrArg (· + _) (key (fun a b => x.mat a.castSucc b.castSucc) i)).trans ?_
    by_cases hi : (i : ℕ) < n
    · rw [dif_pos hi, dif_pos hi, dif_pos hi, XF.apply, applyMat_eq]
      rfl
    · rw [dif_neg hi, dif_neg hi, dif_neg hi, add_zero]
  · ext i
    rw [XF.applyInverse, applyMat_eq]
    simp only [(resized_entries x i).2.2.1, (resized_entries x i).2.2.2, add_zero]
    refine (key (fun a b => x.inv a.castSucc b.castSucc) i).trans ?_
    by_cases hi : (i : ℕ) < n
    · rw [dif_pos hi, dif_pos hi, XF.applyInverseVector, applyBlock_eq]
    · rw [dif_neg hi, dif_neg hi]

/-- **C75** refuted: the translation of the inverse is not copied, so for a consistent transform the enlarged one (and
even `resized` to the same dimension) is consistent exactly if there is no translation. -/
theorem C75_inverse_iff (h : n ≤ m) {x : XF K n} (hx : Wf x) :
    (∀ p, (x.resized m).applyInverse ((x.resized m).apply p) = p) ↔ x.apply 0 = 0 := by
  have hv : ∀ q : Fin n → K, x.applyInverseVector (x.apply q) = q + x.applyInverseVector (x.apply 0) := by
    intro q
    have e : x.apply q = x.applyVector q + x.apply 0 := by
      ext i
      rw [XF.apply, XF.apply, Pi.add_apply, applyMat_eq, applyMat_eq, XF.applyVector, applyBlock_eq]
      simp
    rw [e, (vector_eq _).2.1, Matrix.mulVec_add, ← (vector_eq (x := x) _).2.1, (wf_undo hx q).2.1.1,
      (vector_eq _).2.1]
  have hz : x.applyInverseVector (x.apply 0) = 0 ↔ x.apply 0 = 0 := by
    constructor
    · intro e
      rw [← (wf_undo hx (x.apply 0)).2.1.2, e, (vector_eq _).1, Matrix.mulVec_zero]
    · intro e
      rw [e, (vector_eq _).2.1, Matrix.mulVec_zero]
  have hcut : ∀ p : Fin m → K, cut h ((x.resized m).apply p) = x.apply (cut h p) := by
    intro p
    rw [(C75_enlarge h x p).1]
    ext i
    simp [cut]
  rw [← hz]
  constructor
  · intro hp
    ext i
    have h1 := congrFun (hp 0) ⟨i, by omega⟩
    rw [(C75_enlarge h x _).2] at h1
    simp only [i.2, dif_pos] at h1
    rw [hcut, hv] at h1
    simpa [cut] using h1
  · intro e p
    rw [(C75_enlarge h x _).2]
    ext i
    by_cases hi : (i : ℕ) < n
    · rw [dif_pos hi, hcut, hv, e, add_zero]
      rfl
    · rw [dif_neg hi, (C75_enlarge h x p).1]
      simp [hi]

/-- **C75**: truncating a transform keeps the forward images of points whose further coordinates are zero. -/
theorem C75_truncate (h : m ≤ n) (x : XF K n) (p : Fin m → K) :
    (x.resized m).apply p = fun i : Fin m => x.apply (fun j => if hj : (j : ℕ) < m then p ⟨j, hj⟩ else 0) ⟨i, by omega⟩ := by
  ext i
  have hi := i.2
  rw [XF.apply, applyMat_eq, XF.apply, applyMat_eq]
  simp only [(resized_entries x i).1, (resized_entries x i).2.1]
  rw [dif_pos (show (i : ℕ) < n by omega)]
  congr 1
  obtain ⟨k, rfl⟩ := Nat.exists_eq_add_of_le h
  rw [Fin.sum_univ_add]
  simp
  apply Finset.sum_congr rfl
  intro j _
  have hj := j.2
  rw [dif_pos ⟨by omega, by omega⟩]
  rfl

/-- **C75** refuted for truncation: the inverse of the block is not the block of the inverse, translation or not. -/
theorem C75_truncate_refuted :
    ∃ x : XF ℚ 2, transformation 2 true (fun k => [2, 1, 1, 1].getD k 0) = some x ∧
      (x.resized 1).applyInverse ((x.resized 1).apply ![1]) = ![2] := by
  obtain ⟨x, e, -⟩ := C41_transformation (K := ℚ) 2 true (fun k => [2, 1, 1, 1].getD k 0)
    (by rw [Matrix.det_fin_two]; decide +kernel)
  refine ⟨x, e, ?_⟩
  have : (transformation 2 true (fun k => [2, 1, 1, (1 : ℚ)].getD k 0)).map
      (fun x => (x.resized 1).applyInverse ((x.resized 1).apply ![1])) = some ![2] := by decide +kernel
  rw [e] at this
  exact Option.some.inj this

theorem C75_inverse_refuted :
    ((translation ![3]).resized 2).apply ![1, 5] = (![4, 5] : Fin 2 → ℚ) ∧
    ((translation ![3]).resized 2).applyInverse ![4, 5] = (![4, 5] : Fin 2 → ℚ) := by decide +kernel

end

end Geomc.Affine
