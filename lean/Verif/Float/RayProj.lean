import Verif.Float.RayProjModel
import Verif.Float.Orthog
import Verif.Float.Plane

/-! # Property C138: points along a ray and projections to a direction, in floating point -/

namespace Geomc.Flt

open Geomc.Vec (IsSqrt)
open Geomc.Shape (len)

variable {K : Type} [Field K] [LinearOrder K] [IsStrictOrderedRing K] [FloorRing K] {N p : ℕ} {rnd sqrt : K → K}

/-- A projection is linear in the vector projected. -/
theorem projectOn_sub (x y a : Fin N → K) (ha : a ≠ 0) (i : Fin N) :
    Vec.projectOn x a i - Vec.projectOn y a i = Vec.projectOn (x - y) a i := by
  have hm : Vec.mag2 a ≠ 0 := by
    rw [Vec.mag2_eq]
    exact fun hh => ha ((Vec.self_dot_eq_zero a).1 hh)
  simp only [Vec.projectOn, if_pos hm, Vec.dot_eq, sub_dotProduct]
  ring

/-- The size of an exact projection. -/
theorem projectOn_size (hs : IsSqrt sqrt) (x : Fin N → K) {a : Fin N → K} (ha : a ≠ 0) (i : Fin N) :
    |Vec.projectOn x a i| ≤ len sqrt x / len sqrt a * |a i| := by
  have hA := Shape.len_pos hs ha
  have e' : Vec.projectOn x a i = a i * (x ⬝ᵥ a) / (len sqrt a * len sqrt a) := by
    rw [Vec.projectOn]
    rw [if_pos (by rw [Vec.mag2_eq, ← Shape.len_mul_self hs]; exact (mul_pos hA hA).ne')]
    rw [Vec.mag2_eq, Vec.dot_eq, ← Shape.len_mul_self hs]
  have e : |a i| * (len sqrt x * len sqrt a) / (len sqrt a * len sqrt a) = len sqrt x / len sqrt a * |a i| := by
    field_simp
  rw [e', ← e, abs_div, abs_of_pos (mul_pos hA hA), abs_mul]
  exact div_le_div_of_nonneg_right (mul_le_mul_of_nonneg_left
    ((Finset.abs_sum_le_sum_abs _ _).trans (sum_abs_le_len hs x a)) (abs_nonneg _)) (mul_pos hA hA).le

/-! ## The nearest point of a ray -/

/-- **C138.**  The computed nearest point of the line of a ray: in each coordinate it is within `N + 4` rounding errors, and
those of the squared length, of the exact one. -/
theorem C138_project (hp : 1 ≤ p) (h : IsRound p rnd) (hs : IsSqrt sqrt) (hN : (1 + eps K p) ^ N < 2) (o x : Fin N → K) {d : Fin N → K}
    (hd : d ≠ 0) (i : Fin N) :
    |rayNearest rnd o d x i - Vec.rayProject o d x i| ≤
      ((1 + eps K p) ^ (N + 4) * (1 / (2 - (1 + eps K p) ^ N)) - 1) * (len sqrt (x - o) / len sqrt d * |d i| + |o i|) := by
  have e0 := eps_pos (K := K) p
  have hA := Shape.len_pos hs hd
  have hq := q_ge hN
  set y := sub rnd x o with hy
  have hyx : ∀ i, |y i - (x - o) i| ≤ eps K p * |(x - o) i| := fun i => h.rel hp _
  have ly : len sqrt (y - (x - o)) ≤ eps K p * len sqrt (x - o) := len_le_of_abs hs e0.le hyx
  have ly' : len sqrt y ≤ (1 + eps K p) * len sqrt (x - o) := by
    have := Shape.len_add_le hs (y - (x - o)) (x - o)
    rw [sub_add_cancel] at this
    linarith
  have c0 : 0 ≤ (len sqrt d)⁻¹ * |d i| := mul_nonneg (inv_pos.2 hA).le (abs_nonneg _)
  have h1 := (proj_near hp h hs hN y hd i).1
  have h2 := projectOn_size hs (y - (x - o)) hd i
  rw [← projectOn_sub _ _ _ hd] at h2
  have h3 := projectOn_size hs (x - o) hd i
  change |rnd (projectOn rnd y d i + o i) - (Vec.projectOn (x - o) d i + o i)| ≤ _
  set L := len sqrt (x - o) / len sqrt d * |d i| with hL
  set A := projectOn rnd y d i
  set B := Vec.projectOn y d i
  set C := Vec.projectOn (x - o) d i
  have s1 : len sqrt y / len sqrt d * |d i| ≤ (1 + eps K p) * L := by
    have := mul_le_mul_of_nonneg_right ly' c0
    rw [hL, div_eq_mul_inv, div_eq_mul_inv]
    linarith
  have s2 : len sqrt (y - (x - o)) / len sqrt d * |d i| ≤ eps K p * L := by
    have := mul_le_mul_of_nonneg_right ly c0
    rw [hL, div_eq_mul_inv, div_eq_mul_inv]
    linarith
  obtain ⟨q, hq'⟩ : ∃ q, q = 1 / (2 - (1 + eps K p) ^ N) := ⟨_, rfl⟩
  rw [← hq'] at h1 hq ⊢
  have hP : (1 : K) ≤ (1 + eps K p) ^ (N + 2) := one_le_pow₀ (by linarith)
  rw [show (1 + eps K p) ^ (N + 4) * q = (1 + eps K p) ^ (N + 2) * q * (1 + eps K p) * (1 + eps K p) by ring]
  obtain ⟨Q, hQ⟩ : ∃ Q, Q = (1 + eps K p) ^ (N + 2) * q := ⟨_, rfl⟩
  rw [← hQ] at h1 ⊢
  have Q1 : 1 ≤ Q := by
    rw [hQ]
    exact one_le_mul_of_one_le_of_one_le hP hq
  have L0 : 0 ≤ L := (abs_nonneg _).trans h3
  have h4 : |A - C| ≤ (Q * (1 + eps K p) - 1) * L := by
    have t1 := abs_sub_le A B C
    have t2 := mul_le_mul_of_nonneg_left s1 (sub_nonneg.2 Q1)
    linarith
  have h5 := h.rel hp (A + o i)
  change _ ≤ eps K p * |A + o i| at h5
  obtain ⟨R, hR⟩ : ∃ R, R = Q * (1 + eps K p) := ⟨_, rfl⟩
  have R1 : 1 ≤ R := by
    rw [hR]
    exact one_le_mul_of_one_le_of_one_le Q1 (by linarith)
  rw [← hR] at h4 ⊢
  have h6 : |A + o i| ≤ R * L + |o i| := by
    have t1 := abs_sub_abs_le_abs_sub A C
    have t2 := abs_add_le A (o i)
    linarith
  have h7 := mul_le_mul_of_nonneg_left h6 e0.le
  have h8 := abs_sub_le (rnd (A + o i)) (A + o i) (C + o i)
  rw [add_sub_add_right_eq_sub] at h8
  have o0 := abs_nonneg (o i)
  have h9 := mul_nonneg (mul_nonneg (sub_nonneg.2 R1) o0) (show 0 ≤ 1 + eps K p by linarith)
  linarith

/-- **C138.**  The nearest point to the origin of the ray is the origin itself, and a ray without a direction has no other
point. -/
theorem C138_project_origin (hp : 1 ≤ p) (h : IsRound p rnd) (o d x : Fin N → K) (ho : ∀ i, IsFloat p (o i)) :
    rayNearest rnd o d o = o ∧ rayNearest rnd o 0 x = o := by
  have z : rnd 0 = 0 := h.fix (float_zero p)
  constructor
  · funext i
    have e : sub rnd o o = 0 := by
      funext j
      simp [sub, z]
    have hd : dot rnd (0 : Fin N → K) d = 0 := by
      have := C104_dot hp h 0 d
      simpa using this
    rw [rayNearest, e, projectOn]
    simp only [hd, mul_zero, z, zero_div]
    split_ifs with hm
    · rw [zero_add, h.fix (ho i)]
    · have : d = 0 := (C104_mag2_zero hp h d).2.1 (not_not.1 hm)
      rw [this, Pi.zero_apply, zero_add, h.fix (ho i)]
  · funext i
    rw [rayNearest, projectOn]
    have : mag2 rnd (0 : Fin N → K) = 0 := (C104_mag2_zero hp h 0).2.2 rfl
    rw [if_neg (not_not.2 this), Pi.zero_apply, zero_add, h.fix (ho i)]

/-! ## The fraction of an axis -/

/-- **C138.**  The computed fraction of an axis that a vector covers. -/
theorem C138_fraction (hp : 1 ≤ p) (h : IsRound p rnd) (hs : IsSqrt sqrt) (hN : (1 + eps K p) ^ N < 2) (x a : Fin N → K) :
    (a = 0 → fractionOn rnd x a = none ∧ Vec.fractionOn x a = none) ∧
    (a ≠ 0 → ∃ f g, fractionOn rnd x a = some f ∧ Vec.fractionOn x a = some g ∧
      |f - g| ≤ ((1 + eps K p) ^ (N + 1) * (1 / (2 - (1 + eps K p) ^ N)) - 1) * (len sqrt x / len sqrt a)) := by
  have e0 := eps_pos (K := K) p
  constructor
  · rintro rfl
    constructor
    · rw [fractionOn]
      exact if_pos ((C104_mag2_zero hp h 0).2.2 rfl)
    · rw [Vec.fractionOn, Vec.mag2_eq]
      exact if_pos (by simp)
  · intro ha
    have hA := Shape.len_pos hs ha
    have hm : mag2 rnd a ≠ 0 := fun hh => ha ((C104_mag2_zero hp h a).2.1 hh)
    have hm' : Vec.mag2 a = len sqrt a * len sqrt a := by
      rw [Vec.mag2_eq, ← Shape.len_mul_self hs]
    refine ⟨_, (x ⬝ᵥ a) / (len sqrt a * len sqrt a), if_neg hm, ?_, ?_⟩
    · rw [Vec.fractionOn, hm', Vec.dot_eq]
      exact if_neg (mul_pos hA hA).ne'
    have hD : Near (eps K p) N (dot rnd x a) (x ⬝ᵥ a) (len sqrt x * len sqrt a) := by
      refine ⟨(C104_dot hp h x a).trans (mul_le_mul_of_nonneg_left (sum_abs_le_len hs x a) (sub_nonneg.2 (one_le_pow₀ ?_))),
        (Finset.abs_sum_le_sum_abs _ _).trans (sum_abs_le_len hs x a)⟩
      have := two_zpow_pos (K := K) (-(p : ℤ))
      linarith
    have h2 := quot_round hp h hD (mul_pos hA hA) (q_ge hN) (mag2_inv hp h hs hN a)
    rwa [mul_div_mul_right _ _ hA.ne'] at h2

/-- **C138.**  A vector other than zero is exactly once its own axis. -/
theorem C138_fraction_self (hp : 1 ≤ p) (h : IsRound p rnd) {a : Fin N → K} (ha : a ≠ 0) : fractionOn rnd a a = some 1 := by
  have hm : mag2 rnd a ≠ 0 := fun hh => ha ((C104_mag2_zero hp h a).2.1 hh)
  have e : dot rnd a a = mag2 rnd a := rfl
  rw [fractionOn]
  simp only [hm, if_false, e, div_self hm]
  have := float_int (K := K) hp (k := 1) (by
    rw [abs_one]
    exact one_le_pow₀ (by norm_num))
  rw [Int.cast_one] at this
  rw [h.fix this]

/-! ## A vector with another length -/

/-- **C138.**  A computed vector of the length asked for: every coordinate is within two rounding errors, and those of the length, relative to
itself, of the exact one; zero stays zero. -/
theorem C138_with_length (hp : 1 ≤ p) (h : IsRound p rnd) (hs : IsSqrt sqrt) (hN : (1 + eps K p) ^ (N + 2) < 2) (u : Fin N → K) (s : K) (i : Fin N) :
    |withLength rnd sqrt u s i - Vec.withLength sqrt u s i| ≤
      ((1 + eps K p) ^ 2 * (1 / (2 - (1 + eps K p) ^ (N + 2))) - 1) * |Vec.withLength sqrt u s i| := by
  have e0 := eps_pos (K := K) p
  rcases eq_or_ne u 0 with rfl | hu
  · have e1 : withLength rnd sqrt (0 : Fin N → K) s i = 0 := by
      rw [withLength]
      simp only [(C104_mag2_zero hp h (0 : Fin N → K)).2.2 rfl, if_true]
    have e2 : Vec.withLength sqrt (0 : Fin N → K) s i = 0 := by
      rw [Vec.withLength, Vec.mag2_eq]
      simp
    rw [e1, e2]
    simp
  have hA := Shape.len_pos hs hu
  have hm : mag2 rnd u ≠ 0 := fun hh => hu ((C104_mag2_zero hp h u).2.1 hh)
  have e1 : withLength rnd sqrt u s i = rnd (rnd (s * u i) / mag rnd sqrt u) := by
    rw [withLength]
    simp only [hm, if_false]
    rfl
  have hm' : Vec.mag2 u = len sqrt u * len sqrt u := by
    rw [Vec.mag2_eq, ← Shape.len_mul_self hs]
  have e2 : Vec.withLength sqrt u s i = s * u i / len sqrt u := by
    rw [Vec.withLength]
    simp only [hm', (mul_pos hA hA).ne', if_false]
    congr 1
    rw [← hm']
    rfl
  rw [e1, e2]
  have h1 := ((Near.refl (eps K p) (s * u i)).round hp h le_rfl)
  have h2 := (mag_near hp h hs u).1
  have h3 := near_inv (show (1 + eps K p) ^ (N + 2) - 1 < 1 by linarith) (by rwa [abs_of_pos hA])
  rw [show 1 - ((1 + eps K p) ^ (N + 2) - 1) = 2 - (1 + eps K p) ^ (N + 2) by ring] at h3
  have h4 := quot_round hp h h1 hA (q_ge hN) h3
  rw [abs_div, abs_of_pos hA]
  exact h4

/-! ## A point at a distance -/

/-- **C138.**  The point at a distance along a ray, for a ray with a direction. -/
theorem C138_at_distance (hp : 1 ≤ p) (h : IsRound p rnd) (hs : IsSqrt sqrt) (hN : (1 + eps K p) ^ (N + 2) < 2) (o d : Fin N → K) (s : K) :
    (d = 0 → rayAtLength rnd sqrt o d s = none) ∧
    (d ≠ 0 → ∃ r, rayAtLength rnd sqrt o d s = some r ∧ ∀ i, |r i - (o i + d i / len sqrt d * s)| ≤
      ((1 + eps K p) ^ 3 * (1 / (2 - (1 + eps K p) ^ (N + 2))) - 1) * (|o i| + |d i / len sqrt d * s|)) := by
  have e0 := eps_pos (K := K) p
  constructor
  · intro hd
    rw [rayAtLength]
    have := (C104_unit hp h (fun x hx => ⟨(eq_or_lt_of_le hx).elim (fun e => by rw [← e, hs.zero]) fun e => (hs.pos x e).le, hs.sq x hx⟩) d).1 hd
    rw [this]
    rfl
  · intro hd
    have hA := Shape.len_pos hs hd
    obtain ⟨k, hk, hb⟩ := unit_near (c := 0) (w' := d) hp h hs hN hd le_rfl zero_lt_one (fun i => by simp)
    refine ⟨_, by rw [rayAtLength, hk]; rfl, fun i => ?_⟩
    have t := tilt_ge (c := 0) e0.le hN le_rfl (zero_lt_one (α := K))
    have hb' := hb i
    have et : tilt (eps K p) 0 N = (1 + eps K p) * (1 / (2 - (1 + eps K p) ^ (N + 2))) := by
      rw [tilt]
      ring
    rw [show (1 + eps K p) ^ 3 * (1 / (2 - (1 + eps K p) ^ (N + 2))) = tilt (eps K p) 0 N * (1 + eps K p) * (1 + eps K p) by
      rw [et]; ring]
    obtain ⟨T, hT⟩ : ∃ T, T = tilt (eps K p) 0 N := ⟨_, rfl⟩
    rw [← hT] at hb' t ⊢
    rw [inv_mul_eq_div] at hb'
    obtain ⟨w, hw⟩ : ∃ w, w = d i / len sqrt d := ⟨_, rfl⟩
    rw [← hw] at hb' ⊢
    have h1 : |k i * s - w * s| ≤ (T - 1) * |w * s| := by
      rw [← sub_mul, abs_mul, abs_mul, ← mul_assoc]
      exact mul_le_mul_of_nonneg_right hb' (abs_nonneg _)
    have h2 := h.rel hp (k i * s)
    change _ ≤ eps K p * |k i * s| at h2
    have h3 := h.rel hp (o i + rnd (k i * s))
    change _ ≤ eps K p * |o i + rnd (k i * s)| at h3
    change |rnd (o i + rnd (k i * s)) - (o i + w * s)| ≤ _
    obtain ⟨X, hX⟩ : ∃ X, X = w * s := ⟨_, rfl⟩
    rw [← hX] at h1 ⊢
    obtain ⟨Y, hY⟩ : ∃ Y, Y = k i * s := ⟨_, rfl⟩
    rw [← hY] at h1 h2 h3 ⊢
    obtain ⟨R, hR⟩ : ∃ R, R = T * (1 + eps K p) := ⟨_, rfl⟩
    have R1 : 1 ≤ R := by
      rw [hR]
      exact one_le_mul_of_one_le_of_one_le t (by linarith)
    have h4 : |Y| ≤ T * |X| := by
      have := abs_sub_abs_le_abs_sub Y X
      linarith
    have h5 : |rnd Y - X| ≤ (R - 1) * |X| := by
      have t1 := abs_sub_le (rnd Y) Y X
      have t2 := mul_le_mul_of_nonneg_left h4 e0.le
      rw [hR]
      linarith
    rw [← hR]
    have h6 : |o i + rnd Y| ≤ |o i| + R * |X| := by
      have t1 := abs_add_le (o i) (rnd Y)
      have t2 := abs_sub_abs_le_abs_sub (rnd Y) X
      linarith
    have h7 := mul_le_mul_of_nonneg_left h6 e0.le
    have h8 := abs_sub_le (rnd (o i + rnd Y)) (o i + rnd Y) (o i + X)
    rw [add_sub_add_left_eq_sub] at h8
    have h9 := mul_nonneg (mul_nonneg (sub_nonneg.2 R1) (abs_nonneg (o i))) (show 0 ≤ 1 + eps K p by linarith)
    linarith

omit [IsStrictOrderedRing K] [FloorRing K] in
/-- **C138.**  Without rounding the model is that of the exact arithmetic. -/
theorem C138_exact (o d x : Fin N → K) (s : K) :
    rayNearest id o d x = Vec.rayProject o d x ∧ fractionOn id x d = Vec.fractionOn x d ∧
    withLength id sqrt d s = Vec.withLength sqrt d s ∧ rayAtLength id sqrt o d s = Vec.rayAtDistance sqrt o d s :=
  ⟨rfl, rfl, rfl, rfl⟩

/-- **C138, refuted.**  A point on the line of a ray need not be its own nearest point: in one dimension, on the ray from 0 with
the direction 0.1, the point 5 is moved by one unit in the last place. -/
theorem C138_on_line_refuted : ¬∀ d x : ℚ, IsFloat 53 d → IsFloat 53 x → d ≠ 0 → rayNearest (nearest 53) ![0] ![d] ![x] = ![x] := by
  intro hh
  have h := hh (nearest 53 (1 / 10)) 5 ((C95_nearest (by norm_num)).mem _) ⟨5, 0, by norm_num, by norm_num⟩ (by decide +kernel)
  exact absurd (congrFun h 0) (by decide +kernel)

/-! ## Examples -/

/-- The point of the ray from (1, 1) along (3, 4) nearest to (1, 26), the point at distance 10, the fraction of (3, 4) that
(5, 0) covers and the vector of length 10: exact where the results are floats, rounded where they are not. -/
example : let sq : ℚ → ℚ := fun x => if x = 25 then 5 else x
    rayNearest (nearest 53 : ℚ → ℚ) ![1, 1] ![3, 4] ![1, 26] = ![13, 17] ∧
    rayAtLength (nearest 53) sq ![1, 1] ![3, 4] 10 = some ![7, 9] ∧
    fractionOn (nearest 53 : ℚ → ℚ) ![5, 0] ![3, 4] = some (nearest 53 (3 / 5 : ℚ)) ∧ nearest 53 (3 / 5 : ℚ) ≠ (3 / 5 : ℚ) ∧
    withLength (nearest 53) sq ![3, 4] 10 = ![6, 8] ∧ withLength (nearest 53) sq ![0, 0] 10 = ![0, 0] := by
  decide +kernel

/-- The hypothesis on the number of coordinates holds in double precision for up to thousands of them. -/
example : (1 + eps ℚ 53) ^ (1000 + 2) < 2 := by
  unfold eps
  decide +kernel

end Geomc.Flt
