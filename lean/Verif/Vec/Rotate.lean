import Mathlib.LinearAlgebra.Matrix.Determinant.Basic
import Verif.Vec.Props

/-!
# C39: rotations of vectors; C44: rays
-/

namespace Geomc.Vec

open Geomc.Duals (sumOfProducts diffOfProducts diffOfProducts_eq sumOfProducts_eq)

variable {K : Type} {n : ℕ} [Field K] [LinearOrder K] [IsStrictOrderedRing K]

/-! ### C39 -/

theorem sqrt_axis {sqrt : K → K} (hs : IsSqrt sqrt) {axis : Fin 3 → K} (h : axis ≠ 0) :
    ∃ l, sqrt (axis ⬝ᵥ axis) = l ∧ 0 < l ∧
      l * l = axis 0 * axis 0 + axis 1 * axis 1 + axis 2 * axis 2 ∧
      (l⁻¹ • axis) ⬝ᵥ (l⁻¹ • axis) = 1 := by
  have hp := self_dot_pos h
  refine ⟨_, rfl, hs.pos _ hp, by rw [hs.sq _ hp.le, dot3], ?_⟩
  rw [smul_dotProduct, dotProduct_smul, smul_eq_mul, smul_eq_mul]
  have := hs.pos _ hp
  field_simp
  rw [pow_two, hs.sq _ hp.le]

/-- What `Vec3.rotate(axis, angle)` computes: the rotation, except for the third component, which is off by
`c·w·u·(x-z)/|axis|²`. -/
theorem rotate_value {sqrt : K → K} (hs : IsSqrt sqrt) (c s : K) {axis : Fin 3 → K} (h : axis ≠ 0) (p : Fin 3 → K) :
    rotate sqrt c s axis p = some (rodrigues c s ((sqrt (axis ⬝ᵥ axis))⁻¹ • axis) p +
      ![0, 0, c * (axis 2 * axis 0 * (p 0 - p 2)) / (axis ⬝ᵥ axis)]) := by
  obtain ⟨l, e, hl, hll, -⟩ := sqrt_axis hs h
  have hm : axis 0 * axis 0 + axis 1 * axis 1 + axis 2 * axis 2 = axis ⬝ᵥ axis := (dot3 axis axis).symm
  unfold rotate
  simp only [hm, e, sumOfProducts_eq, diffOfProducts_eq]
  rw [if_neg (self_dot_pos h).ne', ← hm, ← hll]
  congr 1
  have hl0 := hl.ne'
  ext i
  fin_cases i <;>
    simp only [rodrigues, dot3, cross_apply, Pi.add_apply, Pi.smul_apply, smul_eq_mul, Matrix.cons_val_zero,
      Matrix.cons_val_one, Matrix.cons_val, Fin.zero_eta, Fin.mk_one, Fin.reduceFinMk] <;>
    field_simp
  · linear_combination (-(p 0) * c) * hll
  · linear_combination (-(p 1) * c) * hll
  · linear_combination (-(p 2) * c) * hll

/-- **C39**, rotation through the origin: it is the right-handed rotation about the axis exactly when the product of the
first and last axis component, the difference of the last and first coordinate, and the cosine is zero. -/
theorem C39_rotate_iff {sqrt : K → K} (hs : IsSqrt sqrt) (c s : K) {axis : Fin 3 → K} (h : axis ≠ 0) (p : Fin 3 → K) :
    (rotate sqrt c s axis p = some (rodrigues c s ((sqrt (axis ⬝ᵥ axis))⁻¹ • axis) p) ↔
      axis 0 * axis 2 * (p 0 - p 2) * c = 0) ∧
    (∃ r, rotate sqrt c s axis p = some r ∧ r 0 = rodrigues c s ((sqrt (axis ⬝ᵥ axis))⁻¹ • axis) p 0 ∧
      r 1 = rodrigues c s ((sqrt (axis ⬝ᵥ axis))⁻¹ • axis) p 1) := by
  rw [rotate_value hs c s h]
  refine ⟨?_, _, rfl, by simp, by simp⟩
  constructor
  · intro h1
    have := congrFun (Option.some.inj h1) 2
    simp only [Pi.add_apply, Matrix.cons_val, add_eq_left, div_eq_zero_iff, (self_dot_pos h).ne', or_false] at this
    linear_combination this
  · intro h1
    congr 1
    have : c * (axis 2 * axis 0 * (p 0 - p 2)) = 0 := by linear_combination h1
    rw [this, zero_div]
    ext i
    fin_cases i <;> simp

/-- **C39** on the axes for which the code is right: those orthogonal to the x- or the z-axis (in particular all three
coordinate axes). Length and inner products are kept, the axis is fixed, and the vector turns right-handedly. -/
theorem C39_rotate_partial {sqrt : K → K} (hs : IsSqrt sqrt) {c s : K} (hcs : c * c + s * s = 1) {axis : Fin 3 → K}
    (h : axis ≠ 0) (h02 : axis 0 = 0 ∨ axis 2 = 0) (p q : Fin 3 → K) :
    ∃ p' q', rotate sqrt c s axis p = some p' ∧ rotate sqrt c s axis q = some q' ∧ p' ⬝ᵥ q' = p ⬝ᵥ q ∧
      rotate sqrt c s axis axis = some axis ∧ p' = rodrigues c s ((sqrt (axis ⬝ᵥ axis))⁻¹ • axis) p := by
  have hz : ∀ x : Fin 3 → K, rotate sqrt c s axis x = some (rodrigues c s ((sqrt (axis ⬝ᵥ axis))⁻¹ • axis) x) := by
    intro x
    rw [(C39_rotate_iff hs c s h x).1]
    rcases h02 with h' | h' <;> simp [h']
  obtain ⟨l, e, hl, -, hk⟩ := sqrt_axis hs h
  rw [e] at hz ⊢
  obtain ⟨h1, h2, -, -⟩ := rodrigues_spec hcs hk p q
  refine ⟨_, _, hz p, hz q, h1, ?_, rfl⟩
  rw [hz]
  congr 1
  have lin : ∀ (t : K) (k x : Fin 3 → K), rodrigues c s k (t • x) = t • rodrigues c s k x := by
    intro t k x
    simp only [rodrigues, map_smul, dotProduct_smul, smul_eq_mul]
    module
  have e2 : axis = l • (l⁻¹ • axis) := by rw [smul_smul, mul_inv_cancel₀ hl.ne', one_smul]
  conv_lhs => arg 4; rw [e2]
  rw [lin, h2, ← e2]

/-- **C39** refuted for general axes: a turn by the zero angle about `(1,0,1)` does not leave points alone, and does not
preserve length. -/
theorem C39_rotate_refuted {sqrt : K → K} :
    rotate sqrt 1 0 ![1, 0, 1] ![1, 0, 0] = some (![1, 0, 1 / 2] : Fin 3 → K) := by
  unfold rotate
  simp only [sumOfProducts_eq, diffOfProducts_eq, Matrix.cons_val_zero, Matrix.cons_val_one, Matrix.cons_val]
  norm_num

/-- The undefined case. -/
theorem C39_rotate_zero_axis (sqrt : K → K) (c s : K) (p : Fin 3 → K) : rotate sqrt c s 0 p = none := by
  unfold rotate
  simp

/-- What `Vec3.rotate(axis, center, angle)` computes for a unit axis: off by `-2 (1-c) (v y + w z)` times the axis. -/
theorem rotateAbout_value (c s : K) {k : Fin 3 → K} (hk : k ⬝ᵥ k = 1) (center p : Fin 3 → K) :
    rotateAbout c s k center p = center + rodrigues c s k (p - center) -
      (2 * (1 - c) * (k 1 * p 1 + k 2 * p 2)) • k := by
  rw [dot3] at hk
  unfold rotateAbout
  simp only [sumOfProducts_eq, diffOfProducts_eq]
  ext i
  fin_cases i <;>
    simp only [rodrigues, dot3, cross_apply, Pi.add_apply, Pi.sub_apply, Pi.smul_apply, smul_eq_mul,
      Matrix.cons_val_zero, Matrix.cons_val_one, Matrix.cons_val, Fin.zero_eta, Fin.mk_one, Fin.reduceFinMk]
  · linear_combination (1 - c) * center 0 * hk
  · linear_combination (1 - c) * center 1 * hk
  · linear_combination (1 - c) * center 2 * hk

/-- **C39**, rotation about a centre, unit axis: right exactly when the angle is zero (`c = 1`) or the point satisfies
`v y + w z = 0`. -/
theorem C39_rotate_about_iff (c s : K) {k : Fin 3 → K} (hk : k ⬝ᵥ k = 1) (center p : Fin 3 → K) :
    rotateAbout c s k center p = center + rodrigues c s k (p - center) ↔
      c = 1 ∨ k 1 * p 1 + k 2 * p 2 = 0 := by
  rw [rotateAbout_value c s hk]
  have hk0 : k ≠ 0 := fun h => by rw [h] at hk; simp at hk
  rw [sub_eq_self, smul_eq_zero, mul_eq_zero, mul_eq_zero]
  constructor
  · rintro (((h | h) | h) | h)
    · exact absurd h two_ne_zero
    · exact Or.inl (by linear_combination -h)
    · exact Or.inr h
    · exact absurd h hk0
  · rintro (h | h)
    · exact Or.inl (Or.inl (Or.inr (by linear_combination -h)))
    · exact Or.inl (Or.inr h)

/-- **C39** refuted: a half turn about the z-axis through the origin moves the point `(0,0,1)` of the axis to
`(0,0,-3)`. -/
theorem C39_rotate_about_refuted :
    rotateAbout (-1) 0 ![0, 0, 1] ![0, 0, 0] ![0, 0, 1] = (![0, 0, -3] : Fin 3 → ℚ) := by
  decide +kernel

omit [LinearOrder K] [IsStrictOrderedRing K] in
/-- **C39** in two dimensions: `rotated` is the counterclockwise rotation; perpendiculars are the quarter turns. -/
theorem C39_rotated {c s : K} (hcs : c * c + s * s = 1) (u v : Fin 2 → K) :
    rotated c s u ⬝ᵥ rotated c s v = u ⬝ᵥ v ∧
    (∀ c' s', rotated c' s' (rotated c s u) = rotated (c' * c - s' * s) (s' * c + c' * s) u) ∧
    rotated c s u = c • u + s • leftPerp u ∧ leftPerp u = rotated 0 1 u ∧ rightPerp u = rotated 0 (-1) u ∧
    u ⬝ᵥ leftPerp u = 0 ∧ u ⬝ᵥ rightPerp u = 0 ∧ rotated c s ![1, 0] = ![c, s] := by
  have d2 : ∀ a b : Fin 2 → K, a ⬝ᵥ b = a 0 * b 0 + a 1 * b 1 := fun a b => by rw [dotProduct, Fin.sum_univ_two]
  refine ⟨?_, fun c' s' => ?_, ?_, ?_, ?_, ?_, ?_, ?_⟩
  · simp [d2, rotated]
    linear_combination (u 0 * v 0 + u 1 * v 1) * hcs
  · ext i
    fin_cases i <;> simp [rotated] <;> ring
  · ext i
    fin_cases i <;> simp [rotated, leftPerp] <;> ring
  · ext i
    fin_cases i <;> simp [rotated, leftPerp]
  · ext i
    fin_cases i <;> simp [rotated, rightPerp]
  · simp [d2, leftPerp]; ring
  · simp [d2, rightPerp]; ring
  · ext i
    fin_cases i <;> simp [rotated]

/-- What `align` applies: `c v + q × v + k (q·v) q` with `q = src × tgt`, `c = src · tgt`, `k = 1/(1+c)`. -/
def alignMap (q : Fin 3 → K) (c k : K) (v : Fin 3 → K) : Fin 3 → K := c • v + crossProduct q v + (k * (q ⬝ᵥ v)) • q

omit [IsStrictOrderedRing K] in
theorem align_eq (src tgt v : Fin 3 → K) (h : 1 + src ⬝ᵥ tgt ≠ 0) :
    align src tgt v = some (alignMap (crossProduct src tgt) (src ⬝ᵥ tgt) (1 / (1 + src ⬝ᵥ tgt)) v) := by
  unfold align
  simp only [cross_eq, dot_eq]
  rw [if_neg h]
  congr 1
  generalize crossProduct src tgt = q
  generalize 1 / (1 + src ⬝ᵥ tgt) = k
  ext i
  fin_cases i <;>
    simp only [alignMap, dot3, cross_apply, Pi.add_apply, Pi.smul_apply, smul_eq_mul,
      Matrix.cons_val_zero, Matrix.cons_val_one, Matrix.cons_val, Fin.zero_eta, Fin.mk_one, Fin.reduceFinMk] <;>
    ring

omit [LinearOrder K] [IsStrictOrderedRing K] in
theorem alignMap_dot {q : Fin 3 → K} {c k : K} (hk : k * (1 + c) = 1) (hq : q ⬝ᵥ q = 1 - c * c) (u v : Fin 3 → K) :
    alignMap q c k u ⬝ᵥ alignMap q c k v = u ⬝ᵥ v := by
  rw [dot3] at hq
  simp only [alignMap, dot3, cross_apply, Pi.add_apply, Pi.smul_apply, smul_eq_mul,
      Matrix.cons_val_zero, Matrix.cons_val_one, Matrix.cons_val]
  linear_combination ((u 0 * v 0 + u 1 * v 1 + u 2 * v 2) + k * k * (q 0 * u 0 + q 1 * u 1 + q 2 * u 2) *
    (q 0 * v 0 + q 1 * v 1 + q 2 * v 2)) * hq + (q 0 * u 0 + q 1 * u 1 + q 2 * u 2) *
    (q 0 * v 0 + q 1 * v 1 + q 2 * v 2) * (1 + k * (1 - c)) * hk

omit [LinearOrder K] [IsStrictOrderedRing K] in
theorem alignMap_cross {q : Fin 3 → K} {c k : K} (hk : k * (1 + c) = 1) (hq : q ⬝ᵥ q = 1 - c * c) (u v : Fin 3 → K) :
    crossProduct (alignMap q c k u) (alignMap q c k v) = alignMap q c k (crossProduct u v) := by
  rw [dot3] at hq
  have hw : ∀ i, crossProduct q (crossProduct u v) i = (q ⬝ᵥ v) * u i - (q ⬝ᵥ u) * v i := by
    intro i
    rw [cross_cross_eq_smul_sub_smul']
    simp [dotProduct_comm]
  ext i
  have key := hw i
  fin_cases i
  all_goals
    simp only [alignMap, dot3, cross_apply, Pi.add_apply, Pi.smul_apply, smul_eq_mul,
      Matrix.cons_val_zero, Matrix.cons_val_one, Matrix.cons_val, Fin.zero_eta, Fin.mk_one, Fin.reduceFinMk]
  · linear_combination (k * (q 1 * (u 0 * v 1 - u 1 * v 0) - q 2 * (u 2 * v 0 - u 0 * v 2)) +
      c * k * (u 1 * v 2 - u 2 * v 1)) * hq + ((1 - c) * (q 1 * (u 0 * v 1 - u 1 * v 0) - q 2 * (u 2 * v 0 - u 0 * v 2))
      + c * (1 - c) * (u 1 * v 2 - u 2 * v 1) - (q 0 * (u 1 * v 2 - u 2 * v 1) + q 1 * (u 2 * v 0 - u 0 * v 2) +
        q 2 * (u 0 * v 1 - u 1 * v 0)) * q 0) * hk
  · linear_combination (k * (q 2 * (u 1 * v 2 - u 2 * v 1) - q 0 * (u 0 * v 1 - u 1 * v 0)) +
      c * k * (u 2 * v 0 - u 0 * v 2)) * hq + ((1 - c) * (q 2 * (u 1 * v 2 - u 2 * v 1) - q 0 * (u 0 * v 1 - u 1 * v 0))
      + c * (1 - c) * (u 2 * v 0 - u 0 * v 2) - (q 0 * (u 1 * v 2 - u 2 * v 1) + q 1 * (u 2 * v 0 - u 0 * v 2) +
        q 2 * (u 0 * v 1 - u 1 * v 0)) * q 1) * hk
  · linear_combination (k * (q 0 * (u 2 * v 0 - u 0 * v 2) - q 1 * (u 1 * v 2 - u 2 * v 1)) +
      c * k * (u 0 * v 1 - u 1 * v 0)) * hq + ((1 - c) * (q 0 * (u 2 * v 0 - u 0 * v 2) - q 1 * (u 1 * v 2 - u 2 * v 1))
      + c * (1 - c) * (u 0 * v 1 - u 1 * v 0) - (q 0 * (u 1 * v 2 - u 2 * v 1) + q 1 * (u 2 * v 0 - u 0 * v 2) +
        q 2 * (u 0 * v 1 - u 1 * v 0)) * q 2) * hk

theorem opposite_iff {src tgt : Fin n → K} (hs : src ⬝ᵥ src = 1) (ht : tgt ⬝ᵥ tgt = 1) :
    1 + src ⬝ᵥ tgt = 0 ↔ tgt = -src := by
  constructor
  · intro h
    have : (src + tgt) ⬝ᵥ (src + tgt) = 0 := by
      simp only [add_dotProduct, dotProduct_add, hs, ht, dotProduct_comm tgt src]
      linear_combination 2 * h
    exact eq_neg_of_add_eq_zero_right ((self_dot_eq_zero _).1 this)
  · rintro rfl
    simp [hs]

/-- **C39**: for unit directions that are not opposite, `align` is a rotation (it preserves inner and cross products)
taking the first direction to the second. For opposite directions it divides by zero. -/
theorem C39_align {src tgt : Fin 3 → K} (hs : src ⬝ᵥ src = 1) (ht : tgt ⬝ᵥ tgt = 1) (u v : Fin 3 → K) :
    (align src tgt v = none ↔ tgt = -src) ∧
    (tgt ≠ -src → ∃ u' v', align src tgt u = some u' ∧ align src tgt v = some v' ∧ u' ⬝ᵥ v' = u ⬝ᵥ v ∧
      align src tgt (crossProduct u v) = some (crossProduct u' v') ∧ align src tgt src = some tgt) := by
  by_cases h : 1 + src ⬝ᵥ tgt = 0
  · have h' := (opposite_iff hs ht).1 h
    refine ⟨⟨fun _ => h', fun _ => ?_⟩, fun hn => absurd h' hn⟩
    unfold align
    simp only [dot_eq]
    rw [if_pos h]
  · have h' : tgt ≠ -src := fun h' => h ((opposite_iff hs ht).2 h')
    simp only [align_eq _ _ _ h]
    refine ⟨by simp [h'], fun _ => ⟨_, _, rfl, rfl, ?_⟩⟩
    have hk : 1 / (1 + src ⬝ᵥ tgt) * (1 + src ⬝ᵥ tgt) = 1 := one_div_mul_cancel h
    have hq : crossProduct src tgt ⬝ᵥ crossProduct src tgt = 1 - src ⬝ᵥ tgt * (src ⬝ᵥ tgt) := by
      rw [cross_dot_cross, hs, ht, dotProduct_comm tgt src, one_mul]
    refine ⟨alignMap_dot hk hq u v, by rw [alignMap_cross hk hq], ?_⟩
    congr 1
    have e1 : crossProduct (crossProduct src tgt) src = tgt - (src ⬝ᵥ tgt) • src := by
      rw [cross_cross_eq_smul_sub_smul, hs, one_smul, dotProduct_comm tgt src]
    have e2 : crossProduct src tgt ⬝ᵥ src = 0 := by rw [dotProduct_comm, dot_self_cross]
    rw [alignMap, e1, e2, mul_zero, zero_smul]
    abel

/-! ### C44 -/

omit [LinearOrder K] [IsStrictOrderedRing K] in
/-- **C44**: points along the ray. -/
theorem C44_at_multiple (o d : Fin n → K) (s : K) : rayAt o d s = o + s • d := by
  ext i
  simp [rayAt, mul_comm]

/-- **C44**: `at_distance` is the point at that distance, for every nonzero direction. -/
theorem C44_at_distance {sqrt : K → K} (hs : IsSqrt sqrt) (o d : Fin n → K) (t : K) (h : d ≠ 0) :
    ∃ q, rayAtDistance sqrt o d t = some q ∧ dist2 q o = t * t ∧ ∃ x : K, q = o + (t * x) • d ∧ 0 < x := by
  obtain ⟨h1, h2⟩ := C37_unit hs d
  obtain ⟨k, hk⟩ := Option.ne_none_iff_exists'.1 (fun h0 => h (h1.1 h0))
  obtain ⟨hkk, l, hl, -, hd⟩ := h2 k hk
  refine ⟨o + t • k, ?_, ?_, l⁻¹, ?_, inv_pos.2 hl⟩
  · unfold rayAtDistance
    rw [hk]
    simp only [Option.map_some]
    congr 1
    ext i
    simp [mul_comm]
  · rw [dist2_eq, add_sub_cancel_left, smul_dotProduct, dotProduct_smul, hkk]
    simp
  · conv_rhs => rw [hd]
    rw [smul_smul, mul_assoc, inv_mul_cancel₀ hl.ne', mul_one]

theorem rayProject_eq (o d p : Fin n → K) :
    rayProject o d p = o + ((p - o) ⬝ᵥ d / d ⬝ᵥ d) • d := by
  have : rayProject o d p = projectOn (p - o) d + o := rfl
  rw [this, projectOn_eq, add_comm]

/-- **C44**: `project` returns the point of the line closest to `p`. -/
theorem C44_project (o d p : Fin n → K) :
    (∃ s, rayProject o d p = rayAt o d s) ∧ (p - rayProject o d p) ⬝ᵥ d = 0 ∧
    ∀ s, dist2 p (rayProject o d p) ≤ dist2 p (rayAt o d s) := by
  have h0 : (p - rayProject o d p) ⬝ᵥ d = 0 := by
    have := (C37_project_on (p - o) d).2
    rw [rayProject_eq, ← projectOn_eq]
    rwa [show p - (o + projectOn (p - o) d) = p - o - projectOn (p - o) d by abel]
  refine ⟨⟨_, by rw [C44_at_multiple]; exact rayProject_eq o d p⟩, h0, fun s => ?_⟩
  rw [dist2_eq, dist2_eq, C44_at_multiple]
  generalize ht : (p - o) ⬝ᵥ d / d ⬝ᵥ d = t
  have e : p - (o + s • d) = (p - rayProject o d p) + (t - s) • d := by
    rw [rayProject_eq, ht]
    module
  rw [e]
  generalize p - rayProject o d p = w at h0 ⊢
  rw [add_dotProduct, dotProduct_add, dotProduct_add, smul_dotProduct, dotProduct_smul, smul_dotProduct, dotProduct_smul,
    h0, dotProduct_comm d w, h0]
  have := self_dot_nonneg d
  simp only [smul_eq_mul]
  nlinarith [mul_nonneg (mul_self_nonneg (t - s)) this]

/-- **C44** for `dist2`: it is the squared distance to the line exactly when the offset is orthogonal to the direction or
as long as it (it divides by the squared length of the offset instead of the direction's). -/
theorem C44_dist2_iff (o d p : Fin n → K) :
    rayDist2 o d p = dist2 p (rayProject o d p) ↔ d ⬝ᵥ (p - o) = 0 ∨ d ⬝ᵥ d = (p - o) ⬝ᵥ (p - o) := by
  have hv : dist2 p (rayProject o d p) = (p - o) ⬝ᵥ (p - o) - (d ⬝ᵥ (p - o)) ^ 2 / d ⬝ᵥ d := by
    rw [dist2_eq, rayProject_eq]
    have : p - (o + ((p - o) ⬝ᵥ d / d ⬝ᵥ d) • d) = (p - o) - ((p - o) ⬝ᵥ d / d ⬝ᵥ d) • d := by abel
    rw [this]
    generalize p - o = b
    rw [sub_dotProduct, dotProduct_sub, dotProduct_sub, smul_dotProduct, dotProduct_smul, smul_dotProduct,
      dotProduct_smul, dotProduct_comm b d]
    simp only [smul_eq_mul]
    by_cases hd : d ⬝ᵥ d = 0
    · rw [(self_dot_eq_zero d).1 hd]
      simp
    · field_simp
      ring
  have hc : rayDist2 o d p = if (p - o) ⬝ᵥ (p - o) = 0 then 0 else
      (p - o) ⬝ᵥ (p - o) - d ⬝ᵥ (p - o) * (d ⬝ᵥ (p - o)) / (p - o) ⬝ᵥ (p - o) := by
    unfold rayDist2
    simp only [mag2_eq, dot_eq]
    rfl
  rw [hv, hc]
  generalize p - o = b
  by_cases hb : b ⬝ᵥ b = 0
  · rw [if_pos hb, (self_dot_eq_zero b).1 hb]
    simp
  · rw [if_neg hb]
    by_cases hd : d ⬝ᵥ d = 0
    · rw [(self_dot_eq_zero d).1 hd]
      simp
    · rw [sub_right_inj, pow_two]
      by_cases he : d ⬝ᵥ b = 0
      · simp [he]
      · simp only [he, false_or]
        rw [div_eq_div_iff hb hd]
        exact mul_right_inj' (mul_ne_zero he he)

/-- **C44** refuted for `dist2`: the point `(2, 0)` on the ray from the origin along `(1, 0)`, and a point off the axis. -/
theorem C44_dist2_refuted :
    rayDist2 ![0, 0] ![1, 0] ![2, 0] = (3 : ℚ) ∧ dist2 ![2, 0] (rayProject ![0, 0] ![1, 0] ![2, 0]) = (0 : ℚ) := by
  decide +kernel

/-! ### Concrete instances -/

example : projectOn ![3, 4] ![2, 0] = (![3, 0] : Fin 2 → ℚ) := by decide +kernel
example : cross ![1, 2, 3] ![4, 5, 6] = (![-3, 6, -3] : Fin 3 → ℚ) := by decide +kernel
example : argmax (![1, -5, 5, 2] : Fin 4 → ℚ) = 1 ∧ argmin (![3, -1, 1] : Fin 3 → ℚ) = 1 := by decide +kernel
example : clamp (![-1, 5, 2] : Fin 3 → ℚ) ![0, 0, 0] ![3, 3, 3] = ![0, 3, 2] ∧
    minElem (![3, -1, 1] : Fin 3 → ℚ) = -1 := by decide +kernel
example : align ![1, 0, 0] ![0, 1, 0] ![1, 2, 3] = some (![-2, 1, 3] : Fin 3 → ℚ) := by decide +kernel
example : rotateAbout 0 1 ![1, 0, 0] ![1, 0, 0] ![2, 0, 0] = (![2, 0, 0] : Fin 3 → ℚ) := by decide +kernel
example : rayProject ![1, 0] ![0, 2] ![5, 3] = (![1, 3] : Fin 2 → ℚ) := by decide +kernel

end Geomc.Vec
