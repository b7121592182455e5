import Verif.Float.PlaneModel
import Verif.Float.Dist
import Verif.Float.Geom
import Verif.Shape.Plane

/-! # Property C128: planes in floating point -/

namespace Geomc.Flt

open Geomc.Vec (IsSqrt)
open Geomc.Shape (Plane len)

variable {K : Type} [Field K] [LinearOrder K] [IsStrictOrderedRing K] [FloorRing K] {n p : ℕ} {rnd sqrt : K → K}

/-! ## The normal -/

theorem near_trans {a b x y z : K} (ha : 0 ≤ a) (h1 : |z - y| ≤ a * |y|) (h2 : |y - x| ≤ b * |x|) : |z - x| ≤ ((1 + a) * (1 + b) - 1) * |x| := by
  have h3 := abs_sub_le z y x
  have h4 := abs_sub_abs_le_abs_sub y x
  have h5 := mul_le_mul_of_nonneg_left (show |y| ≤ (1 + b) * |x| by linarith) ha
  linarith

/-- How much the normal may differ from that of the exact plane, if the vector given to the constructor is within `c` of the exact one. -/
def tilt (e c : K) (n : ℕ) : K := (1 + c) * (1 + e) / ((1 - c) * (2 - (1 + e) ^ (n + 2)))

theorem tilt_ge {e c : K} (he : 0 ≤ e) (hn : (1 + e) ^ (n + 2) < 2) (hc : 0 ≤ c) (c1 : c < 1) : 1 ≤ tilt e c n := by
  have h1 : (1 : K) ≤ (1 + e) ^ (n + 2) := one_le_pow₀ (by linarith)
  rw [tilt, le_div_iff₀ (mul_pos (by linarith) (by linarith)), one_mul]
  have h2 : (1 - c) * (2 - (1 + e) ^ (n + 2)) ≤ 1 * 1 := mul_le_mul (by linarith) (by linarith) (by linarith) zero_le_one
  nlinarith

/-- A computed unit vector. -/
theorem unit_near (hp : 1 ≤ p) (h : IsRound p rnd) (hs : IsSqrt sqrt) (hn : (1 + eps K p) ^ (n + 2) < 2) {w w' : Fin n → K} (h0 : w ≠ 0) {c : K} (hc : 0 ≤ c)
    (c1 : c < 1) (hw : ∀ i, |w' i - w i| ≤ c * |w i|) :
    ∃ m, unit rnd sqrt w' = some m ∧ ∀ i, |m i - (len sqrt w)⁻¹ * w i| ≤ (tilt (eps K p) c n - 1) * |(len sqrt w)⁻¹ * w i| := by
  have e0 := eps_pos (K := K) p
  have l0 := Shape.len_pos hs h0
  have h1 : |len sqrt w' - len sqrt w| ≤ c * |len sqrt w| := by
    rw [abs_of_pos l0]
    exact (len_near hs).trans (len_le_of_abs hs hc hw)
  have l1 : 0 < len sqrt w' := by
    rw [abs_of_pos l0, abs_le] at h1
    nlinarith
  have hq : (1 : K) ≤ (1 + eps K p) ^ (n + 2) := one_le_pow₀ (by linarith)
  have h2 := (mag_near hp h hs w').1
  have hM : 0 < mag rnd sqrt w' := by
    have := (abs_le.1 h2).1
    nlinarith
  refine ⟨fun i => rnd (w' i / mag rnd sqrt w'), by rw [unit]; exact if_neg hM.ne', fun i => ?_⟩
  have h3 := near_inv (show (1 + eps K p) ^ (n + 2) - 1 < 1 by linarith) (by rwa [abs_of_pos l1])
  have h4 := near_inv c1 h1
  have h5 := near_trans (by
    rw [sub_nonneg, le_div_iff₀ (by linarith)]
    linarith) h3 h4
  have h6 := near_round hp h (near_mul h5 (hw i))
  have e1 : tilt (eps K p) c n - 1 = (1 + ((1 + ((1 + (1 / (1 - ((1 + eps K p) ^ (n + 2) - 1)) - 1)) * (1 + (1 / (1 - c) - 1)) - 1)) * (1 + c) - 1)) * (1 + eps K p) - 1 := by
    rw [tilt]
    have d1 : 1 - c ≠ 0 := by linarith
    have d2 : 2 - (1 + eps K p) ^ (n + 2) ≠ 0 := by linarith
    rw [show 1 - ((1 + eps K p) ^ (n + 2) - 1) = 2 - (1 + eps K p) ^ (n + 2) by ring]
    generalize (1 + eps K p) ^ (n + 2) = q at d2
    field_simp
    ring
  rw [e1]
  simp only [div_eq_mul_inv (w' i), mul_comm (w' i)]
  exact h6

theorem dot_tilt (hp : 1 ≤ p) (h : IsRound p rnd) (hs : IsSqrt sqrt) {m u : Fin n → K} {t : K} (t1 : 1 ≤ t) (hu : len sqrt u = 1)
    (hm : ∀ i, |m i - u i| ≤ (t - 1) * |u i|) (x : Fin n → K) : |dot rnd m x - u ⬝ᵥ x| ≤ (t * (1 + eps K p) ^ n - 1) * len sqrt x := by
  have e0 := eps_pos (K := K) p
  have hq : (1 : K) ≤ (1 + eps K p) ^ n := one_le_pow₀ (by linarith)
  have h1 : ∀ i, Near (t - 1) 1 (m i * x i) (u i * x i) |u i * x i| := fun i => by
    refine ⟨?_, le_rfl⟩
    rw [← sub_mul, abs_mul, abs_mul, ← mul_assoc, pow_one, add_sub_cancel]
    exact mul_le_mul_of_nonneg_right (hm i) (abs_nonneg _)
  have h2 := sum_near hq h1 (C104_dot hp h m x)
  rw [pow_one, add_sub_cancel] at h2
  refine h2.trans (mul_le_mul_of_nonneg_left ?_ (sub_nonneg.2 (one_le_mul_of_one_le_of_one_le t1 hq)))
  have := sum_abs_le_len hs u x
  rwa [hu, one_mul] at this

/-- A computed distance to a plane through a point. -/
theorem plane_near (hp : 1 ≤ p) (h : IsRound p rnd) (hs : IsSqrt sqrt) {m u : Fin n → K} {t : K} (t1 : 1 ≤ t) (hu : len sqrt u = 1)
    (hm : ∀ i, |m i - u i| ≤ (t - 1) * |u i|) (x pt : Fin n → K) :
    Near (t * (1 + eps K p) ^ (n + 1) - 1) 1 (planeDistance rnd m (-dot rnd pt m) x) (u ⬝ᵥ x + -(pt ⬝ᵥ u)) (len sqrt x + len sqrt pt) := by
  have e0 := eps_pos (K := K) p
  have h1 := dot_tilt hp h hs t1 hu hm x
  have h2 := dot_tilt hp h hs t1 hu hm pt
  rw [C104_dot_comm, dotProduct_comm u pt] at h2
  have s : ∀ y, |u ⬝ᵥ y| ≤ len sqrt y := fun y => by
    have := (Finset.abs_sum_le_sum_abs (fun i => u i * y i) Finset.univ).trans (sum_abs_le_len hs u y)
    rwa [hu, one_mul] at this
  have n1 : Near (t * (1 + eps K p) ^ n - 1) 1 (dot rnd m x) (u ⬝ᵥ x) (len sqrt x) := ⟨by rwa [pow_one, add_sub_cancel], s x⟩
  have n2 : Near (t * (1 + eps K p) ^ n - 1) 1 (dot rnd pt m) (pt ⬝ᵥ u) (len sqrt pt) := ⟨by rwa [pow_one, add_sub_cancel], by rw [dotProduct_comm]; exact s pt⟩
  have n3 := n1.add n2.neg
  refine ⟨?_, n3.2⟩
  have h3 := n3.rel (c := 1 + eps K p) (z := planeDistance rnd m (-dot rnd pt m) x) (by linarith) (by
    rw [add_sub_cancel_left]
    exact h.rel hp _)
  rw [pow_one, add_sub_cancel] at h3 ⊢
  rwa [mul_assoc, ← pow_succ] at h3

/-! ## Planes through a point -/

/-- **C128.** A plane through a point is made from every vector but zero, and the point is on it exactly: its distance is zero, it is in the
half-space, and it is its own projection. -/
theorem C128_point (hp : 1 ≤ p) (h : IsRound p rnd) (hs : IsSqrt sqrt) (v pt : Fin n → K) (hpt : ∀ i, IsFloat p (pt i)) :
    (planeThrough rnd sqrt v pt = none ↔ v = 0) ∧
    ∀ P, planeThrough rnd sqrt v pt = some P → planeDistance rnd P.normal P.d pt = 0 ∧ planeContains rnd P.normal P.d pt = true ∧ planeProject rnd P pt = pt := by
  have z : rnd 0 = 0 := h.fix (float_zero p)
  constructor
  · rw [planeThrough, Option.map_eq_none_iff]
    obtain ⟨a, b⟩ := C104_unit hp h (sqrt_spec hs) v
    refine ⟨fun hh => ?_, a⟩
    by_contra h0
    obtain ⟨r, e, _⟩ := b h0
    rw [hh] at e
    cases e
  · intro P hP
    rw [planeThrough, Option.map_eq_some_iff] at hP
    obtain ⟨m, _, rfl⟩ := hP
    have d0 : planeDistance rnd m (-dot rnd pt m) pt = 0 := by rw [planeDistance, C104_dot_comm rnd m, add_neg_cancel, z]
    refine ⟨d0, by rw [planeContains, d0]; exact decide_eq_true le_rfl, ?_⟩
    funext i
    rw [planeProject, add_neg_cancel, z, zero_mul, z, sub_zero, h.fix (hpt i)]

/-- **C128.** The computed distance to a plane through a point is right up to rounding, relative to the distances of the two points from the
origin. -/
theorem C128_distance (hp : 1 ≤ p) (h : IsRound p rnd) (hs : IsSqrt sqrt) (hn : (1 + eps K p) ^ (n + 2) < 2) {v : Fin n → K} (hv : v ≠ 0) (pt : Fin n → K) :
    ∃ P Q, planeThrough rnd sqrt v pt = some P ∧ Plane.through sqrt v pt = some Q ∧ ∀ x,
      |planeDistance rnd P.normal P.d x - Q.distance x| ≤ ((1 + eps K p) ^ (n + 2) / (2 - (1 + eps K p) ^ (n + 2)) - 1) * (len sqrt x + len sqrt pt) := by
  have e0 := eps_pos (K := K) p
  obtain ⟨m, e1, hm⟩ := unit_near hp h hs hn hv le_rfl zero_lt_one (w' := v) fun i => by simp
  obtain ⟨e2, hu⟩ := Shape.unit_eq hs hv
  refine ⟨_, _, by rw [planeThrough, e1]; rfl, by rw [Plane.through, e2]; rfl, fun x => ?_⟩
  have t1 : (1 : K) ≤ tilt (eps K p) 0 n := tilt_ge e0.le hn le_rfl zero_lt_one
  have h1 := (plane_near hp h hs t1 hu hm x pt).1
  rw [pow_one, add_sub_cancel] at h1
  have e3 : tilt (eps K p) 0 n * (1 + eps K p) ^ (n + 1) = (1 + eps K p) ^ (n + 2) / (2 - (1 + eps K p) ^ (n + 2)) := by
    rw [tilt]
    ring
  rw [e3] at h1
  simp only [Plane.distance, Vec.dot_eq]
  exact h1

/-- **C128.** So is each coordinate of the projection of a point to it. -/
theorem C128_project (hp : 1 ≤ p) (h : IsRound p rnd) (hs : IsSqrt sqrt) (hn : (1 + eps K p) ^ (n + 2) < 2) {v : Fin n → K} (hv : v ≠ 0) (pt : Fin n → K) :
    ∃ P Q, planeThrough rnd sqrt v pt = some P ∧ Plane.through sqrt v pt = some Q ∧ ∀ x i,
      |planeProject rnd P x i - Q.project x i| ≤
        (((1 + eps K p) ^ (n + 3) / (2 - (1 + eps K p) ^ (n + 2))) ^ 2 - 1) * (|x i| + (len sqrt x + len sqrt pt)) := by
  have e0 := eps_pos (K := K) p
  obtain ⟨m, e1, hm⟩ := unit_near hp h hs hn hv le_rfl zero_lt_one (w' := v) fun i => by simp
  obtain ⟨e2, hu⟩ := Shape.unit_eq hs hv
  refine ⟨_, _, by rw [planeThrough, e1]; rfl, by rw [Plane.through, e2]; rfl, fun x i => ?_⟩
  have t1 : (1 : K) ≤ tilt (eps K p) 0 n := tilt_ge e0.le hn le_rfl zero_lt_one
  have h1 := plane_near hp h hs t1 hu hm x pt
  rw [planeDistance, C104_dot_comm rnd m x, dotProduct_comm _ x] at h1
  have e3 : (1 + eps K p) ^ (n + 3) / (2 - (1 + eps K p) ^ (n + 2)) = tilt (eps K p) 0 n * (1 + eps K p) ^ (n + 1) * (1 + eps K p) := by
    rw [tilt]
    ring
  have q1 : (1 : K) ≤ (1 + eps K p) ^ (n + 1) := one_le_pow₀ (by linarith)
  set D := tilt (eps K p) 0 n * (1 + eps K p) ^ (n + 1) with hD
  have D1 : 1 ≤ D := one_le_mul_of_one_le_of_one_le t1 q1
  have tD : tilt (eps K p) 0 n ≤ D := le_mul_of_one_le_right (by linarith) q1
  set u := (len sqrt v)⁻¹ • v with hu'
  have h2 : Near (D - 1) 1 (m i) (u i) 1 := by
    have u1 : |u i| ≤ 1 := by
      have := Shape.len_coord hs u i
      rwa [hu] at this
    refine ⟨(hm i).trans ?_, u1⟩
    rw [pow_one, add_sub_cancel]
    exact mul_le_mul (by linarith) u1 (abs_nonneg _) (by linarith)
  have h3 := h1.mul (by linarith) h2
  rw [mul_one] at h3
  have h4 := h3.rel (c := 1 + eps K p) (z := rnd (rnd (dot rnd x m + -dot rnd pt m) * m i)) (by linarith) (by
    rw [add_sub_cancel_left]
    exact h.rel hp _)
  rw [add_sub_cancel] at h4
  have D2 : 1 ≤ D ^ 2 * (1 + eps K p) := one_le_mul_of_one_le_of_one_le (one_le_pow₀ D1) (by linarith)
  have n4 : Near (D ^ 2 * (1 + eps K p) - 1) 1 (rnd (rnd (dot rnd x m + -dot rnd pt m) * m i)) ((x ⬝ᵥ u + -(pt ⬝ᵥ u)) * u i) (len sqrt x + len sqrt pt) :=
    ⟨by rw [pow_one, add_sub_cancel]; exact h4, h3.2⟩
  have n5 := ((Near.refl (D ^ 2 * (1 + eps K p) - 1) (x i)).mono (by linarith) (show 0 ≤ 1 by omega)).sub n4
  have h6 := n5.rel (c := 1 + eps K p) (z := planeProject rnd ⟨m, -dot rnd pt m⟩ x i) (by linarith) (by
    rw [add_sub_cancel_left]
    exact h.rel hp _)
  rw [pow_one, add_sub_cancel, show D ^ 2 * (1 + eps K p) * (1 + eps K p) = (D * (1 + eps K p)) ^ 2 by ring] at h6
  rw [e3]
  simp only [Plane.project, Vec.dot_eq]
  exact h6

/-- **C128.** And each coordinate of the point of the plane nearest to the origin, relative to the distance of the given point. -/
theorem C128_origin (hp : 1 ≤ p) (h : IsRound p rnd) (hs : IsSqrt sqrt) (hn : (1 + eps K p) ^ (n + 2) < 2) {v : Fin n → K} (hv : v ≠ 0) (pt : Fin n → K) :
    ∃ P Q, planeThrough rnd sqrt v pt = some P ∧ Plane.through sqrt v pt = some Q ∧ ∀ i,
      |planeOrigin rnd P i - Q.origin i| ≤ ((1 + eps K p) ^ (n + 3) / (2 - (1 + eps K p) ^ (n + 2)) ^ 2 - 1) * len sqrt pt := by
  have e0 := eps_pos (K := K) p
  obtain ⟨m, e1, hm⟩ := unit_near hp h hs hn hv le_rfl zero_lt_one (w' := v) fun i => by simp
  obtain ⟨e2, hu⟩ := Shape.unit_eq hs hv
  refine ⟨_, _, by rw [planeThrough, e1]; rfl, by rw [Plane.through, e2]; rfl, fun i => ?_⟩
  have t1 : (1 : K) ≤ tilt (eps K p) 0 n := tilt_ge e0.le hn le_rfl zero_lt_one
  have h1 := dot_tilt hp h hs t1 hu hm pt
  rw [C104_dot_comm, dotProduct_comm] at h1
  have e3 : (1 + eps K p) ^ (n + 3) / (2 - (1 + eps K p) ^ (n + 2)) ^ 2 = tilt (eps K p) 0 n * (1 + eps K p) ^ n * tilt (eps K p) 0 n * (1 + eps K p) := by
    rw [tilt]
    generalize 2 - (1 + eps K p) ^ (n + 2) = q
    ring
  set u := (len sqrt v)⁻¹ • v with hu'
  have q1 : (1 : K) ≤ (1 + eps K p) ^ n := one_le_pow₀ (by linarith)
  set t := tilt (eps K p) 0 n
  set D := t * (1 + eps K p) ^ n with hD
  have D1 : 1 ≤ D := one_le_mul_of_one_le_of_one_le t1 q1
  have s1 : |pt ⬝ᵥ u| ≤ len sqrt pt := by
    have := (Finset.abs_sum_le_sum_abs (fun i => pt i * u i) Finset.univ).trans (sum_abs_le_len hs pt u)
    rwa [hu, mul_one] at this
  have u1 : |u i| ≤ 1 := by
    have := Shape.len_coord hs u i
    rwa [hu] at this
  have h2 : |dot rnd pt m * m i - (pt ⬝ᵥ u) * u i| ≤ (D * t - 1) * len sqrt pt := by
    have a1 : |m i - u i| ≤ t - 1 := (hm i).trans (mul_le_of_le_one_right (by linarith) u1)
    have a2 : |m i| ≤ t := by
      have := abs_sub_abs_le_abs_sub (m i) (u i)
      linarith
    rw [show dot rnd pt m * m i - (pt ⬝ᵥ u) * u i = (dot rnd pt m - pt ⬝ᵥ u) * m i + (pt ⬝ᵥ u) * (m i - u i) by ring]
    refine (abs_add_le _ _).trans ?_
    rw [abs_mul, abs_mul]
    have b1 := mul_le_mul h1 a2 (abs_nonneg _) (mul_nonneg (by linarith) (Shape.len_nonneg hs pt))
    have b2 := mul_le_mul s1 a1 (abs_nonneg _) (Shape.len_nonneg hs pt)
    linarith
  have n2 : Near (D * t - 1) 1 (dot rnd pt m * m i) ((pt ⬝ᵥ u) * u i) (len sqrt pt) := by
    refine ⟨by rwa [pow_one, add_sub_cancel], ?_⟩
    rw [abs_mul]
    exact (mul_le_mul s1 u1 (abs_nonneg _) (Shape.len_nonneg hs pt)).trans (mul_one _).le
  have h3 := n2.rel (c := 1 + eps K p) (z := rnd (dot rnd pt m * m i)) (by linarith) (by
    rw [add_sub_cancel_left]
    exact h.rel hp _)
  rw [pow_one, add_sub_cancel] at h3
  rw [e3]
  simp only [planeOrigin, Plane.origin, Vec.dot_eq, neg_neg]
  exact h3

/-! ## Planes through the corners of a simplex -/

/-- **C128.** The line through two points in the plane: it is made from every two different points, the first is on it exactly, and the second
is as near to it as rounding allows. -/
theorem C128_segment (hp : 1 ≤ p) (h : IsRound p rnd) (hs : IsSqrt sqrt) (hn : (1 + eps K p) ^ 4 < 2) (p0 p1 : Fin 2 → K) :
    (p0 = p1 → planeSegment rnd sqrt p0 p1 = none) ∧
    (p0 ≠ p1 → ∃ P, planeSegment rnd sqrt p0 p1 = some P ∧ planeDistance rnd P.normal P.d p0 = 0 ∧
      |planeDistance rnd P.normal P.d p1| ≤ (tilt (eps K p) (eps K p) 2 * (1 + eps K p) ^ 3 - 1) * (len sqrt p1 + len sqrt p0)) := by
  have e0 := eps_pos (K := K) p
  have e1 := eps_le (K := K) hp
  have z : rnd 0 = 0 := h.fix (float_zero p)
  constructor
  · rintro rfl
    have : LU.orthogonal2 (sub rnd p0 p0) = 0 := by
      rw [(LU.C36_orthogonal2 _).2]
      funext i
      rw [sub, sub_self, z]
      rfl
    rw [planeSegment, this, planeThrough, (C104_unit hp h (sqrt_spec hs) 0).1 rfl, Option.map_none]
  · intro hne
    have hw0 : LU.orthogonal2 (p1 - p0) ≠ 0 := fun hh => hne (sub_eq_zero.1 ((LU.C36_orthogonal2 _).2.1 hh)).symm
    have hw : ∀ i, |LU.orthogonal2 (sub rnd p1 p0) i - LU.orthogonal2 (p1 - p0) i| ≤ eps K p * |LU.orthogonal2 (p1 - p0) i| := by
      intro i
      unfold LU.orthogonal2 Vec.leftPerp
      fin_cases i
      · simp only [Fin.zero_eta, Matrix.cons_val_zero, abs_neg, neg_sub_neg]
        rw [abs_sub_comm]
        exact h.rel hp _
      · exact h.rel hp _
    obtain ⟨m, e2, hm⟩ := unit_near hp h hs hn hw0 e0.le (by linarith) hw
    refine ⟨⟨m, -dot rnd p0 m⟩, by rw [planeSegment, planeThrough, e2]; rfl, by rw [planeDistance, C104_dot_comm rnd m, add_neg_cancel, z], ?_⟩
    have t1 : (1 : K) ≤ tilt (eps K p) (eps K p) 2 := tilt_ge e0.le hn e0.le (by linarith)
    have h1 := (plane_near hp h hs t1 (Shape.unit_eq hs hw0).2 hm p1 p0).1
    rw [pow_one, add_sub_cancel] at h1
    rw [dotProduct_comm p0, ← sub_eq_add_neg, ← dotProduct_sub, smul_dotProduct, dotProduct_comm, (LU.C36_orthogonal2 _).1, smul_zero, sub_zero] at h1
    exact h1

/-- **C128.** The plane through the corners of a triangle, if its edges are floats: it is made from every triangle with an area, the first corner
is on it exactly, and the others are as near to it as rounding allows, however narrow the triangle is. -/
theorem C128_triangle (hp : 2 ≤ p) (h : IsRound p rnd) (hs : IsSqrt sqrt) (hn : (1 + eps K p) ^ 5 < 2) (p0 p1 p2 : Fin 3 → K)
    (h1 : ∀ i, IsFloat p (p1 i - p0 i)) (h2 : ∀ i, IsFloat p (p2 i - p0 i)) :
    (exactCross (p1 - p0) (p2 - p0) = 0 → planeTriangle rnd sqrt p0 p1 p2 = none) ∧
    (exactCross (p1 - p0) (p2 - p0) ≠ 0 → ∃ P, planeTriangle rnd sqrt p0 p1 p2 = some P ∧ planeDistance rnd P.normal P.d p0 = 0 ∧
      ∀ q, q = p1 ∨ q = p2 →
        |planeDistance rnd P.normal P.d q| ≤ (tilt (eps K p) (3 * eps K p) 3 * (1 + eps K p) ^ 4 - 1) * (len sqrt q + len sqrt p0)) := by
  have hp1 : 1 ≤ p := by omega
  have e0 := eps_pos (K := K) p
  have e1 : 3 * eps K p < 1 := by
    have : eps K p ≤ 2 ^ (-((2 : ℕ) : ℤ)) := eps_mono hp
    norm_num at this
    linarith
  have z : rnd 0 = 0 := h.fix (float_zero p)
  have s1 : sub rnd p1 p0 = p1 - p0 := funext fun i => h.fix (h1 i)
  have s2 : sub rnd p2 p0 = p2 - p0 := funext fun i => h.fix (h2 i)
  constructor
  · intro hc
    have : cross rnd (p1 - p0) (p2 - p0) = 0 := funext fun i => ((C104_cross_zero hp h (u := p1 - p0) (v := p2 - p0) h1 h2).1 i).2 (by rw [hc]; rfl)
    rw [planeTriangle, s1, s2, this, planeThrough, (C104_unit hp1 h (sqrt_spec hs) 0).1 rfl, Option.map_none]
  · intro hc
    obtain ⟨m, e2, hm⟩ := unit_near hp1 h hs hn hc (by linarith) e1 (C104_cross hp1 h h1 h2)
    refine ⟨⟨m, -dot rnd p0 m⟩, by rw [planeTriangle, s1, s2, planeThrough, e2]; rfl, by rw [planeDistance, C104_dot_comm rnd m, add_neg_cancel, z], ?_⟩
    have t1 : (1 : K) ≤ tilt (eps K p) (3 * eps K p) 3 := tilt_ge e0.le hn (by linarith) e1
    intro q hq
    have h3 := (plane_near hp1 h hs t1 (Shape.unit_eq hs hc).2 hm q p0).1
    rw [pow_one, add_sub_cancel] at h3
    have h4 : exactCross (p1 - p0) (p2 - p0) ⬝ᵥ (q - p0) = 0 := by
      simp only [exactCross, dotProduct, Fin.sum_univ_three, Matrix.cons_val_zero, Matrix.cons_val_one, Matrix.cons_val_two, Matrix.head_cons, Matrix.tail_cons, Pi.sub_apply, Matrix.cons_val]
      rcases hq with rfl | rfl <;> ring
    rw [dotProduct_comm p0, ← sub_eq_add_neg, ← dotProduct_sub, smul_dotProduct, h4, smul_zero, sub_zero] at h3
    exact h3

/-! ## What does not hold -/

/-- **C128** refuted: the projection of a point to a plane is not on the plane, and is moved by projecting it again; in `float` and in `double`. -/
theorem C128_project_refuted : ∀ p ∈ [24, 53], ∀ sqrt : ℚ → ℚ, sqrt 25 = 5 → ∃ P, planeThrough (nearest p) sqrt ![(3 : ℚ), 4] 0 = some P ∧
    planeDistance (nearest p) P.normal P.d (planeProject (nearest p) P ![-6, -6]) ≠ 0 := by
  intro p hp sqrt hq
  have hm : mag (nearest p) sqrt ![(3 : ℚ), 4] = 5 := by
    rw [mag, show mag2 (nearest p) ![(3 : ℚ), 4] = 25 by revert p; decide +kernel, hq]
    revert p
    decide +kernel
  refine ⟨_, by rw [planeThrough, unit, hm, if_neg (by norm_num)]; rfl, ?_⟩
  clear hm
  revert p
  decide +kernel

/-- **C128** refuted: two corners of a triangle may both be outside the half-space of the plane through its corners; in `float` and in
`double`. -/
theorem C128_triangle_refuted : ∀ p ∈ [24, 53], ∀ sqrt : ℚ → ℚ, sqrt 9 = 3 → ∃ p0 p1 p2 : Fin 3 → ℚ, (∀ i, IsFloat p (p0 i) ∧ IsFloat p (p1 i) ∧ IsFloat p (p2 i)) ∧
    ∃ P, planeTriangle (nearest p) sqrt p0 p1 p2 = some P ∧ planeContains (nearest p) P.normal P.d p1 = false ∧
    planeContains (nearest p) P.normal P.d p2 = false := by
  have key : ∀ p ∈ [24, 53], ∃ a ∈ [![(-7 : ℚ), 3, 0], ![7, -4, 0]], cross (nearest p) (sub (nearest p) (a + ![2, -1, 0]) a) (sub (nearest p) (a + ![2, 0, -1]) a) = ![1, 2, 2] ∧
    planeContains (nearest p) (fun i => nearest p (![1, 2, 2] i / 3)) (-dot (nearest p) a fun i => nearest p (![1, 2, 2] i / 3)) (a + ![2, -1, 0]) = false ∧
    planeContains (nearest p) (fun i => nearest p (![1, 2, 2] i / 3)) (-dot (nearest p) a fun i => nearest p (![1, 2, 2] i / 3)) (a + ![2, 0, -1]) = false := by
    decide +kernel
  have nums : ∀ p ∈ [24, 53], mag2 (nearest p) ![(1 : ℚ), 2, 2] = 9 ∧ nearest p 3 = (3 : ℚ) ∧ 4 ≤ p := by decide +kernel
  intro p hp sqrt hq
  obtain ⟨a, ha, hc, k1, k2⟩ := key p hp
  obtain ⟨m9, m3, hp1⟩ := nums p hp
  have hm : mag (nearest p) sqrt ![(1 : ℚ), 2, 2] = 3 := by rw [mag, m9, hq, m3]
  have hP : planeTriangle (nearest p) sqrt a (a + ![2, -1, 0]) (a + ![2, 0, -1]) =
      some ⟨fun i => nearest p (![1, 2, 2] i / 3), -dot (nearest p) a fun i => nearest p (![1, 2, 2] i / 3)⟩ := by
    rw [planeTriangle, hc, planeThrough, unit, hm, if_neg three_ne_zero, Option.map_some]
  have int : ∀ k : ℤ, |k| ≤ 16 → IsFloat p (k : ℚ) := fun k hk => float_int (by omega) (hk.trans (by
    exact_mod_cast Nat.pow_le_pow_right (show 0 < 2 by norm_num) hp1))
  refine ⟨a, a + ![2, -1, 0], a + ![2, 0, -1], ?_, _, hP, k1, k2⟩
  have ints : ∀ a ∈ [![(-7 : ℚ), 3, 0], ![7, -4, 0]], ∀ i : Fin 3, (∃ k ∈ Finset.Icc (-16 : ℤ) 16, a i = k) ∧ (∃ k ∈ Finset.Icc (-16 : ℤ) 16, (a + ![2, -1, 0] : Fin 3 → ℚ) i = k) ∧
    (∃ k ∈ Finset.Icc (-16 : ℤ) 16, (a + ![2, 0, -1] : Fin 3 → ℚ) i = k) := by decide +kernel
  have w : ∀ x : ℚ, (∃ k ∈ Finset.Icc (-16 : ℤ) 16, x = k) → IsFloat p x := by
    rintro x ⟨k, hk, rfl⟩
    exact int k (abs_le.2 (Finset.mem_Icc.1 hk))
  intro i
  obtain ⟨i1, i2, i3⟩ := ints a ha i
  exact ⟨w _ i1, w _ i2, w _ i3⟩

/-- Examples with three bits. -/
example : planeProject (nearest 3) ⟨![(5/8 : ℚ), 3/4], -1⟩ ![2, 3] = ![1/2, 1] := by decide +kernel

end Geomc.Flt
