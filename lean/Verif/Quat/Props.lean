import Mathlib.Algebra.Quaternion
import Verif.Quat.Model
import Verif.Vec.Props

/-!
# C40: quaternion algebra and rotations

The specification is Mathlib's quaternion algebra, and the Rodrigues rotation of `Verif.Vec.Props`.
-/

namespace Geomc.Quat

open Geomc.Vec

variable {K : Type} [Field K]

/-- The quaternion meant by the four components. -/
def toQ (q : Fin 4 → K) : Quaternion K := ⟨q 3, q 0, q 1, q 2⟩

@[simp] theorem toQ_re (q : Fin 4 → K) : (toQ q).re = q 3 := rfl
@[simp] theorem toQ_imI (q : Fin 4 → K) : (toQ q).imI = q 0 := rfl
@[simp] theorem toQ_imJ (q : Fin 4 → K) : (toQ q).imJ = q 1 := rfl
@[simp] theorem toQ_imK (q : Fin 4 → K) : (toQ q).imK = q 2 := rfl

theorem toQ_inj {p q : Fin 4 → K} (h : toQ p = toQ q) : p = q := by
  have h0 := congrArg QuaternionAlgebra.re h
  have h1 := congrArg QuaternionAlgebra.imI h
  have h2 := congrArg QuaternionAlgebra.imJ h
  have h3 := congrArg QuaternionAlgebra.imK h
  ext i
  fin_cases i <;> assumption

theorem dot4 (u v : Fin 4 → K) : u ⬝ᵥ v = u 0 * v 0 + u 1 * v 1 + u 2 * v 2 + u 3 * v 3 := by
  rw [dotProduct, Fin.sum_univ_four]

/-- **C40**: `*` is quaternion multiplication. -/
theorem C40_mul (p q : Fin 4 → K) : toQ (mult p q) = toQ p * toQ q := by
  apply Quaternion.ext <;> simp [mult] <;> ring

/-- **C40**: `conj` is conjugation and `identity()` is one. -/
theorem C40_conj (q : Fin 4 → K) : toQ (conj q) = star (toQ q) ∧ toQ (identity : Fin 4 → K) = 1 := by
  constructor
  · apply Quaternion.ext <;> simp [conj]
  · apply Quaternion.ext <;> rfl

/-- **C40**: the algebraic laws in terms of the API: associativity, unit, reversal of products by conjugation, and
the multiplicative norm. -/
theorem C40_laws (p q r : Fin 4 → K) :
    mult (mult p q) r = mult p (mult q r) ∧ mult identity q = q ∧ mult q identity = q ∧
    conj (mult p q) = mult (conj q) (conj p) ∧ mag2 (mult p q) = mag2 p * mag2 q ∧
    mult q (conj q) = mk 0 (mag2 q) ∧ mult (conj q) q = mk 0 (mag2 q) := by
  refine ⟨toQ_inj ?_, toQ_inj ?_, toQ_inj ?_, toQ_inj ?_, ?_, ?_, ?_⟩
  · simp only [C40_mul, mul_assoc]
  · rw [C40_mul, (C40_conj q).2, one_mul]
  · rw [C40_mul, (C40_conj q).2, mul_one]
  · simp only [C40_mul, (C40_conj _).1, star_mul]
  · simp only [mag2_eq, dot4, mult, Matrix.cons_val_zero, Matrix.cons_val_one, Matrix.cons_val]
    ring
  · rw [mag2_eq, dot4]
    ext i
    fin_cases i <;> simp [mult, conj, mk] <;> ring
  · rw [mag2_eq, dot4]
    ext i
    fin_cases i <;> simp [mult, conj, mk] <;> ring

/-- What `q * v` computes, for every quaternion. -/
theorem rotate_eq (q : Fin 4 → K) (v : Fin 3 → K) :
    rotate q v = (q 3 * q 3 - imag q ⬝ᵥ imag q) • v + (2 * q 3) • crossProduct (imag q) v +
      (2 * (imag q ⬝ᵥ v)) • imag q := by
  ext i
  fin_cases i <;> simp only [rotate, mult, conj, mk, imag, dot3, cross_apply, Pi.add_apply, Pi.smul_apply, smul_eq_mul, Matrix.cons_val_zero,
    Matrix.cons_val_one, Matrix.cons_val, Fin.zero_eta, Fin.mk_one, Fin.reduceFinMk] <;> ring

theorem unrotate_eq (q : Fin 4 → K) (v : Fin 3 → K) : unrotate v q = rotate (conj q) v := by
  have : conj (conj q) = q := by
    ext i
    fin_cases i <;> simp [conj]
  rw [unrotate, rotate, this]

/-- The real part of `q v q̄` vanishes, so taking the vector part loses nothing. -/
theorem rotate_full (q : Fin 4 → K) (v : Fin 3 → K) :
    mk (rotate q v) 0 = mult (mult q (mk v 0)) (conj q) := by
  ext i
  fin_cases i <;> simp [rotate, mult, conj, mk, imag]
  ring

/-- **C40**: composing quaternions composes the rotations; the identity does nothing. -/
theorem C40_compose (p q : Fin 4 → K) (v : Fin 3 → K) :
    rotate (mult p q) v = rotate p (rotate q v) ∧ rotate identity v = v := by
  constructor
  · have h : mk (rotate (mult p q) v) 0 = mk (rotate p (rotate q v)) 0 := by
      rw [rotate_full p, rotate_full q, rotate_full (mult p q)]
      apply toQ_inj
      simp only [C40_mul, (C40_conj _).1, star_mul, mul_assoc]
    ext i
    have := congrFun h (Fin.castSucc i)
    fin_cases i <;> simpa [mk] using this
  · rw [rotate_eq]
    ext i
    fin_cases i <;> simp only [identity, imag, dot3, cross_apply, Pi.add_apply, Pi.smul_apply, smul_eq_mul, Matrix.cons_val_zero,
    Matrix.cons_val_one, Matrix.cons_val, Fin.zero_eta, Fin.mk_one, Fin.reduceFinMk] <;> ring

/-- **C40**: `q * v` scales lengths by the squared norm and, for unit `q`, is a proper rotation: it keeps inner and cross
products. `v * q` is the inverse rotation. -/
theorem C40_rotation (q : Fin 4 → K) (v w : Fin 3 → K) :
    rotate q v ⬝ᵥ rotate q w = mag2 q ^ 2 * (v ⬝ᵥ w) ∧
    (mag2 q = 1 → rotate q v ⬝ᵥ rotate q w = v ⬝ᵥ w ∧
      crossProduct (rotate q v) (rotate q w) = rotate q (crossProduct v w) ∧
      unrotate (rotate q v) q = v ∧ rotate q (unrotate v q) = v) := by
  have h1 : rotate q v ⬝ᵥ rotate q w = mag2 q ^ 2 * (v ⬝ᵥ w) := by
    rw [mag2_eq, dot4]
    simp [rotate, mult, conj, mk, imag, dot3]
    ring
  refine ⟨h1, fun hq => ⟨by rw [h1, hq]; ring, ?_, ?_, ?_⟩⟩
  · have : crossProduct (rotate q v) (rotate q w) = mag2 q • rotate q (crossProduct v w) := by
      rw [mag2_eq, dot4]
      ext i
      fin_cases i <;> simp [rotate, mult, conj, mk, imag, cross_apply] <;> ring
    rw [this, hq, one_smul]
  · rw [unrotate_eq, ← (C40_compose _ _ _).1, (C40_laws q q q).2.2.2.2.2.2, hq]
    exact (C40_compose q q v).2
  · rw [unrotate_eq, ← (C40_compose _ _ _).1, (C40_laws q q q).2.2.2.2.2.1, hq]
    exact (C40_compose q q v).2

section Ordered
variable [LinearOrder K] [IsStrictOrderedRing K]

/-- **C40**: the axis–angle quaternion is a unit quaternion and rotates about the axis (right-handed) by twice the angle
whose cosine and sine are `ch`, `sh`; a zero axis gives the identity. -/
theorem C40_axis_angle {sqrt : K → K} (hs : IsSqrt sqrt) {ch sh : K} (h : ch * ch + sh * sh = 1) (axis : Fin 3 → K) :
    (axis = 0 → fromAxisAngle sqrt axis ch sh = some identity) ∧
    (axis ≠ 0 → ∃ q k, fromAxisAngle sqrt axis ch sh = some q ∧ k ⬝ᵥ k = 1 ∧
      axis = sqrt (axis ⬝ᵥ axis) • k ∧ mag2 q = 1 ∧ mult q (conj q) = identity ∧
      ∀ v, rotate q v = rodrigues (ch * ch - sh * sh) (2 * sh * ch) k v) := by
  constructor
  · rintro rfl
    rw [fromAxisAngle, if_pos (by simp)]
    rfl
  · intro hne
    have hz : ¬ (axis 0 = 0 ∧ axis 1 = 0 ∧ axis 2 = 0) := by
      rintro ⟨h0, h1, h2⟩
      refine hne ?_
      ext i
      fin_cases i <;> simpa
    obtain ⟨k, e, hk, hk'⟩ : ∃ k, unit sqrt axis = some k ∧ k ⬝ᵥ k = 1 ∧ axis = sqrt (axis ⬝ᵥ axis) • k := by
      have hp := self_dot_pos hne
      have hq := hs.pos _ hp
      have hsq := hs.sq _ hp.le
      refine ⟨fun i => axis i / sqrt (axis ⬝ᵥ axis), ?_, ?_, ?_⟩
      · rw [unit, mag2_eq]
        rw [if_neg hq.ne']
      · have : (fun i => axis i / sqrt (axis ⬝ᵥ axis)) = (sqrt (axis ⬝ᵥ axis))⁻¹ • axis := by
          ext i
          rw [Pi.smul_apply, smul_eq_mul]
          ring
        rw [this, smul_dotProduct, dotProduct_smul, smul_eq_mul, smul_eq_mul]
        generalize axis ⬝ᵥ axis = t at *
        field_simp
        rw [pow_two]
        exact hsq.symm
      · ext i
        rw [Pi.smul_apply, smul_eq_mul]
        field_simp
    have hm : mag2 (mk (fun i => k i * sh) ch) = 1 := by
      rw [mag2_eq, dot4]
      rw [dot3] at hk
      simp [mk]
      linear_combination h + sh * sh * hk
    refine ⟨mk (fun i => k i * sh) ch, k, ?_, hk, hk', hm, ?_, fun v => ?_⟩
    · rw [fromAxisAngle, if_neg hz, e]
      rfl
    · rw [(C40_laws identity (mk (fun i => k i * sh) ch) identity).2.2.2.2.2.1, hm]
      ext i
      fin_cases i <;> simp [mk, identity]
    · rw [rotate_eq]
      have hi : imag (mk (fun i => k i * sh) ch) = sh • k := by
        ext i
        fin_cases i <;> simp [imag, mk, mul_comm]
      have h3 : mk (fun i => k i * sh) ch 3 = ch := rfl
      rw [hi, h3, rodrigues]
      simp only [smul_dotProduct, dotProduct_smul, hk, map_smul, LinearMap.smul_apply, smul_smul, smul_eq_mul]
      rw [show ch * ch - sh * (sh * 1) = ch * ch - sh * sh by ring, show 2 * ch * sh = 2 * sh * ch by ring,
        show 2 * (sh * (k ⬝ᵥ v)) * sh = (1 - (ch * ch - sh * sh)) * (k ⬝ᵥ v) by linear_combination (k ⬝ᵥ v) * h]

/-- **C40** refuted for `rotation_direction_align`: for unit directions the result turns `v` by twice the angle, so it
reaches `a` only if they were already aligned. -/
theorem C40_direction_align_iff (v a : Fin 3 → K) (hv : v ⬝ᵥ v = 1) (ha : a ⬝ᵥ a = 1) :
    rotate (directionAlign v a) v = (2 * (v ⬝ᵥ a)) • a - v ∧ (rotate (directionAlign v a) v = a ↔ v = a) := by
  have h1 : rotate (directionAlign v a) v = (2 * (v ⬝ᵥ a)) • a - v := by
    rw [rotate_eq]
    have hi : imag (directionAlign v a) = crossProduct v a := by
      rw [directionAlign, cross_eq]
      ext i
      fin_cases i <;> simp [imag, mk]
    have h3 : directionAlign v a 3 = v ⬝ᵥ a := by
      rw [directionAlign, dot_eq]
      rfl
    rw [hi, h3]
    simp only [dot3] at *
    ext i
    fin_cases i <;> simp only [cross_apply, Pi.add_apply, Pi.sub_apply, Pi.smul_apply, smul_eq_mul,
      Matrix.cons_val_zero, Matrix.cons_val_one, Matrix.cons_val, Fin.zero_eta, Fin.mk_one, Fin.reduceFinMk] <;>
    generalize v 0 = x at * <;> generalize v 1 = y at * <;> generalize v 2 = z at * <;>
    generalize a 0 = p at * <;> generalize a 1 = q at * <;> generalize a 2 = r at *
    · linear_combination (-(x * (p * p + q * q + r * r)) + 2 * p * (x * p + y * q + z * r)) * hv - x * ha
    · linear_combination (-(y * (p * p + q * q + r * r)) + 2 * q * (x * p + y * q + z * r)) * hv - y * ha
    · linear_combination (-(z * (p * p + q * q + r * r)) + 2 * r * (x * p + y * q + z * r)) * hv - z * ha
  refine ⟨h1, ?_⟩
  rw [h1]
  constructor
  · intro h
    have hd := congrArg (fun w => v ⬝ᵥ w) h
    simp only [dotProduct_sub, dotProduct_smul, hv, smul_eq_mul] at hd
    have hc : (2 * (v ⬝ᵥ a) + 1) * (v ⬝ᵥ a - 1) = 0 := by linear_combination hd
    rcases mul_eq_zero.1 hc with hc | hc
    · have h2 := congrArg (fun w => a ⬝ᵥ w) h
      simp only [dotProduct_sub, dotProduct_smul, ha, smul_eq_mul] at h2
      rw [dotProduct_comm a v] at h2
      exfalso
      have : (v ⬝ᵥ a) = 1 := by linear_combination h2
      rw [this] at hc
      norm_num at hc
    · have : v ⬝ᵥ a = 1 := by linear_combination hc
      rw [this] at h
      have h' : v = (2 * 1 : K) • a - a := by
        calc v = (2 * 1 : K) • a - ((2 * 1 : K) • a - v) := by abel
          _ = (2 * 1 : K) • a - a := by rw [h]
      rw [h']
      module
  · rintro rfl
    rw [hv]
    module

theorem C40_direction_align_refuted :
    rotate (directionAlign (![1, 0, 0] : Fin 3 → ℚ) ![0, 1, 0]) ![1, 0, 0] = ![-1, 0, 0] := by decide +kernel

end Ordered

/-! ### Over the real numbers -/

/-- **C40**, `rotation_from_axis_angle`: the rotation by `θ` about the axis. -/
theorem C40_axis_angle_real (axis : Fin 3 → ℝ) (hne : axis ≠ 0) (θ : ℝ) :
    ∃ q k, fromAxisAngle Real.sqrt axis (Real.cos (θ * 0.5)) (Real.sin (θ * 0.5)) = some q ∧
      k ⬝ᵥ k = 1 ∧ (∃ t : ℝ, 0 < t ∧ axis = t • k) ∧ mag2 q = 1 ∧
      ∀ v, rotate q v = rodrigues (Real.cos θ) (Real.sin θ) k v := by
  have h : Real.cos (θ * 0.5) * Real.cos (θ * 0.5) + Real.sin (θ * 0.5) * Real.sin (θ * 0.5) = 1 := by
    have := Real.cos_sq_add_sin_sq (θ * 0.5)
    linear_combination this
  obtain ⟨q, k, e, hk, hk', hq, -, hr⟩ := (C40_axis_angle isSqrt_real h axis).2 hne
  refine ⟨q, k, e, hk, ⟨_, Real.sqrt_pos.2 (self_dot_pos hne), hk'⟩, hq, fun v => ?_⟩
  rw [hr]
  have h1 : Real.cos θ = Real.cos (θ * 0.5) * Real.cos (θ * 0.5) - Real.sin (θ * 0.5) * Real.sin (θ * 0.5) := by
    rw [show θ = 2 * (θ * 0.5) by ring, Real.cos_two_mul]
    rw [show 2 * (θ * 0.5) * 0.5 = θ * 0.5 by ring]
    linear_combination h
  have h2 : Real.sin θ = 2 * Real.sin (θ * 0.5) * Real.cos (θ * 0.5) := by
    rw [show θ = 2 * (θ * 0.5) by ring, Real.sin_two_mul]
    rw [show 2 * (θ * 0.5) * 0.5 = θ * 0.5 by ring]
  rw [h1, h2]

/-- The axis and angle of a unit quaternion with nonzero vector part give back the quaternion. -/
theorem axis_angle_back (q : Fin 4 → ℝ) (hq : mag2 q = 1) (hi : imag q ≠ 0) :
    ∃ k, unit Real.sqrt (imag q) = some k ∧ k ⬝ᵥ k = 1 ∧
      imag q = Real.sin (Real.arccos (q 3)) • k ∧ Real.cos (Real.arccos (q 3)) = q 3 ∧
      stdMin (stdMax (q 3) (-1)) 1 = q 3 ∧ 0 < Real.sin (Real.arccos (q 3)) := by
  have hi' : imag q ⬝ᵥ imag q = 1 - q 3 ^ 2 := by
    rw [mag2_eq, dot4] at hq
    rw [dot3]
    simp [imag]
    linear_combination hq
  have hp := self_dot_pos hi
  have hb : q 3 ^ 2 ≤ 1 := by rw [hi'] at hp; linarith
  have hb' := abs_le.1 ((sq_le_one_iff_abs_le_one (q 3)).1 hb)
  have hsin : Real.sin (Real.arccos (q 3)) = Real.sqrt (imag q ⬝ᵥ imag q) := by rw [Real.sin_arccos, hi']
  have hpos : 0 < Real.sqrt (imag q ⬝ᵥ imag q) := Real.sqrt_pos.2 hp
  have hsq := Real.mul_self_sqrt hp.le
  refine ⟨fun i => imag q i / Real.sqrt (imag q ⬝ᵥ imag q), ?_, ?_, ?_, Real.cos_arccos hb'.1 hb'.2, ?_, by
    rw [hsin]; exact hpos⟩
  · rw [unit, mag2_eq]
    rw [if_neg hpos.ne']
  · have : (fun i => imag q i / Real.sqrt (imag q ⬝ᵥ imag q)) = (Real.sqrt (imag q ⬝ᵥ imag q))⁻¹ • imag q := by
      ext i
      rw [Pi.smul_apply, smul_eq_mul]
      ring
    rw [this, smul_dotProduct, dotProduct_smul, smul_eq_mul, smul_eq_mul]
    generalize hS : Real.sqrt (imag q ⬝ᵥ imag q) = S at *
    rw [← hsq]
    field_simp
  · rw [hsin]
    ext i
    rw [Pi.smul_apply, smul_eq_mul]
    field_simp
  · rw [stdMin_eq, stdMax_eq, max_eq_left hb'.1, min_eq_left hb'.2]

/-- **C40**, `to_axis_angle_rotation`: for every unit quaternion the reported axis is a unit vector and
the rotation about it by the reported angle is the quaternion's rotation. -/
theorem C40_to_axis_angle (q : Fin 4 → ℝ) (hq : mag2 q = 1) :
    ∃ k θ, toAxisAngle q = some (k, θ) ∧ k ⬝ᵥ k = 1 ∧ 0 ≤ θ ∧ θ ≤ 2 * Real.pi ∧
      ∀ v, rodrigues (Real.cos θ) (Real.sin θ) k v = rotate q v := by
  by_cases hi : imag q = 0
  · have h0 : q 0 = 0 ∧ q 1 = 0 ∧ q 2 = 0 := ⟨congrFun hi 0, congrFun hi 1, congrFun hi 2⟩
    refine ⟨![1, 0, 0], 0, ?_, by simp [dot3], le_rfl, by positivity, fun v => ?_⟩
    · rw [toAxisAngle]
      rw [if_pos h0]
    · rw [rotate_eq, hi]
      rw [mag2_eq, dot4, h0.1, h0.2.1, h0.2.2] at hq
      simp only [rodrigues, Real.cos_zero, Real.sin_zero]
      simp only [zero_dotProduct, map_zero, LinearMap.zero_apply]
      rw [show q 3 * q 3 = 1 by linear_combination hq]
      module
  · obtain ⟨k, e, hk, h1, h2, h3, hpos⟩ := axis_angle_back q hq hi
    have h0 : ¬ (q 0 = 0 ∧ q 1 = 0 ∧ q 2 = 0) := by
      rintro ⟨a, b, c⟩
      exact hi (by rw [imag, a, b, c]; ext i; fin_cases i <;> rfl)
    refine ⟨k, 2 * Real.arccos (q 3), ?_, hk, by have := Real.arccos_nonneg (q 3); positivity, by
      have := Real.arccos_le_pi (q 3); linarith, fun v => ?_⟩
    · rw [toAxisAngle]
      rw [if_neg h0, e, h3]
      rfl
    · rw [rotate_eq, h1, Real.cos_two_mul, Real.sin_two_mul, h2, rodrigues]
      have hsc := Real.sin_sq_add_cos_sq (Real.arccos (q 3))
      rw [h2] at hsc
      simp only [smul_dotProduct, dotProduct_smul, hk, map_smul, LinearMap.smul_apply, smul_smul, smul_eq_mul]
      generalize Real.sin (Real.arccos (q 3)) = s at *
      rw [show q 3 * q 3 - s * (s * 1) = 2 * q 3 ^ 2 - 1 by linear_combination -hsc,
        show 2 * q 3 * s = 2 * s * q 3 by ring,
        show 2 * (s * (k ⬝ᵥ v)) * s = (1 - (2 * q 3 ^ 2 - 1)) * (k ⬝ᵥ v) by linear_combination 2 * (k ⬝ᵥ v) * hsc]

/-- **C40**, `to_angular_velocity`: its length is the angle and its direction the axis of the quaternion's rotation. -/
theorem C40_to_angular_velocity (q : Fin 4 → ℝ) (hq : mag2 q = 1) :
    ∃ ω, toAngularVelocity q = some ω ∧ ∃ k θ, k ⬝ᵥ k = 1 ∧ 0 ≤ θ ∧ ω = θ • k ∧
      ∀ v, rodrigues (Real.cos θ) (Real.sin θ) k v = rotate q v := by
  obtain ⟨k, θ, e, hk, h0, -, hr⟩ := C40_to_axis_angle q hq
  have hz : isZero (imag q) = true ↔ q 0 = 0 ∧ q 1 = 0 ∧ q 2 = 0 := by
    rw [isZero, List.all_eq_true]
    constructor
    · intro h
      have h' := fun i => of_decide_eq_true (h i (List.mem_finRange i))
      exact ⟨h' 0, h' 1, h' 2⟩
    · rintro ⟨a, b, c⟩ i -
      apply decide_eq_true
      fin_cases i <;> assumption
  rw [toAxisAngle] at e
  by_cases hc : q 0 = 0 ∧ q 1 = 0 ∧ q 2 = 0
  · rw [if_pos hc] at e
    obtain ⟨rfl, rfl⟩ := Prod.mk.inj (Option.some.inj e)
    refine ⟨0, ?_, _, 0, hk, le_rfl, by simp, hr⟩
    rw [toAngularVelocity]
    rw [if_pos (hz.2 hc)]
  · rw [if_neg hc] at e
    rw [Option.map_eq_some_iff] at e
    obtain ⟨k', e', e''⟩ := e
    obtain ⟨rfl, rfl⟩ := Prod.mk.inj e''
    refine ⟨_, ?_, k', _, hk, h0, rfl, hr⟩
    rw [toAngularVelocity]
    rw [if_neg (fun h => hc (hz.1 h)), e']
    rfl

/-! ### Concrete instances -/

example : mult (![1, 0, 0, 0] : Fin 4 → ℚ) ![0, 1, 0, 0] = ![0, 0, 1, 0] := by decide +kernel
example : rotate (![0, 0, 3 / 5, 4 / 5] : Fin 4 → ℚ) ![1, 0, 0] = ![7 / 25, 24 / 25, 0] := by decide +kernel
example : unrotate (![7 / 25, 24 / 25, 0] : Fin 3 → ℚ) ![0, 0, 3 / 5, 4 / 5] = ![1, 0, 0] := by decide +kernel

end Geomc.Quat
