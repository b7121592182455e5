import Verif.Float.Dist
import Verif.Shape.Cylinder

/-! # Property C126, cylinders: the error of the distance away from the axis -/

namespace Geomc.Flt

open Geomc.Vec (IsSqrt stdMax)
open Geomc.Shape (Tube len)

variable {K : Type} [Field K] [LinearOrder K] [IsStrictOrderedRing K] [FloorRing K] {n p : ℕ} {rnd sqrt : K → K}

theorem round_abs (hp : 1 ≤ p) (h : IsRound p rnd) {z z' d Z : K} (h1 : |z' - z| ≤ d) (h2 : |z| ≤ Z) : |rnd z' - z| ≤ d + eps K p * (Z + d) := by
  have h3 := h.rel hp z'
  change _ ≤ eps K p * |z'| at h3
  have h4 := abs_sub_abs_le_abs_sub z' z
  have h5 := mul_le_mul_of_nonneg_left (show |z'| ≤ Z + d by linarith) (eps_pos (K := K) p).le
  have h6 := abs_sub_le (rnd z') z' z
  linarith

/-- The product of a computed dot product and a computed quotient. -/
theorem prod_abs {N N' A B t q' : K} (t0 : 0 ≤ t) (t1 : t ≤ 1 / 8) (hA : 0 < A) (hB : 0 ≤ B) (hN : |N| ≤ A * B)
    (h1 : |N' - N| ≤ t * (A * B)) (hq : |q' - N / (A * A)| ≤ 3 * t * (B / A)) :
    |N' * q' - N * (N / (A * A))| ≤ (35 / 8) * t * (B * B) ∧ |N * (N / (A * A))| ≤ B * B := by
  have q1 : |N / (A * A)| ≤ B / A := by
    rw [abs_div, abs_of_pos (mul_pos hA hA), div_le_div_iff₀ (mul_pos hA hA) hA]
    nlinarith
  have m1 : |N'| ≤ (9 / 8) * (A * B) := by
    have := abs_sub_abs_le_abs_sub N' N
    have : 0 ≤ A * B := by positivity
    nlinarith
  have e1 : A * B * (B / A) = B * B := by
    field_simp
  have h2 : |N' * (q' - N / (A * A))| ≤ (9 / 8) * (A * B) * (3 * t * (B / A)) := by
    rw [abs_mul]
    exact mul_le_mul m1 hq (abs_nonneg _) (by positivity)
  have h3 : |(N' - N) * (N / (A * A))| ≤ t * (A * B) * (B / A) := by
    rw [abs_mul]
    exact mul_le_mul h1 q1 (abs_nonneg _) (by positivity)
  have h4 : |N * (N / (A * A))| ≤ A * B * (B / A) := by
    rw [abs_mul]
    exact mul_le_mul hN q1 (abs_nonneg _) (by positivity)
  rw [show (9 / 8) * (A * B) * (3 * t * (B / A)) = (27 / 8) * t * (A * B * (B / A)) by ring, e1] at h2
  rw [show t * (A * B) * (B / A) = t * (A * B * (B / A)) by ring, e1] at h3
  rw [e1] at h4
  have h5 := abs_add_le (N' * (q' - N / (A * A))) ((N' - N) * (N / (A * A)))
  rw [show N' * (q' - N / (A * A)) + (N' - N) * (N / (A * A)) = N' * q' - N * (N / (A * A)) by ring] at h5
  exact ⟨by linarith, h4⟩

theorem root_near (hs : IsSqrt sqrt) {Z z' H d : K} (z0 : 0 ≤ z') (hH : 0 < H) (hZ : H ^ 2 ≤ Z) (h : |z' - Z| ≤ d) : |sqrt z' - sqrt Z| ≤ d / H := by
  obtain ⟨g0, g⟩ := sqrt_spec hs z' z0
  obtain ⟨k0, k⟩ := sqrt_spec hs Z ((sq_nonneg H).trans hZ)
  have hk : H ≤ sqrt Z := abs_le_of_sq_le_sq' (by rwa [pow_two (sqrt Z), k]) k0 |>.2
  rw [le_div_iff₀ hH]
  refine le_trans (mul_le_mul_of_nonneg_left (show H ≤ sqrt z' + sqrt Z by linarith) (abs_nonneg _)) ?_
  rw [← abs_of_nonneg (show 0 ≤ sqrt z' + sqrt Z by linarith), ← abs_mul, show (sqrt z' - sqrt Z) * (sqrt z' + sqrt Z) = sqrt z' * sqrt z' - sqrt Z * sqrt Z by ring, g, k]
  exact h

/-- Lengths of the sides of a right triangle. -/
theorem hypot_near (hs : IsSqrt sqrt) (a b c d : K) : |sqrt (a * a + b * b) - sqrt (c * c + d * d)| ≤ |a - c| + |b - d| := by
  have key : ∀ a b c d : K, sqrt (c * c + d * d) ≤ sqrt (a * a + b * b) + (|a - c| + |b - d|) := by
    intro a b c d
    obtain ⟨m0, m⟩ := sqrt_spec hs (a * a + b * b) (by nlinarith)
    obtain ⟨k0, k⟩ := sqrt_spec hs (c * c + d * d) (by nlinarith)
    set M := sqrt (a * a + b * b)
    have s1 := abs_nonneg (a - c)
    have s2 := abs_nonneg (b - d)
    refine abs_le_of_sq_le_sq' ?_ (by linarith) |>.2
    rw [pow_two, k]
    have a1 : |a| ≤ M := abs_le_of_sq_le_sq (by nlinarith) m0
    have b1 : |b| ≤ M := abs_le_of_sq_le_sq (by nlinarith) m0
    have a2 : -(a * (a - c)) ≤ M * |a - c| := (neg_le_abs _).trans (by rw [abs_mul]; exact mul_le_mul_of_nonneg_right a1 s1)
    have b2 : -(b * (b - d)) ≤ M * |b - d| := (neg_le_abs _).trans (by rw [abs_mul]; exact mul_le_mul_of_nonneg_right b1 s2)
    have a3 := abs_mul_abs_self (a - c)
    have b3 := abs_mul_abs_self (b - d)
    have ab := mul_nonneg s1 s2
    nlinarith
  have h1 := key a b c d
  have h2 := key c d a b
  rw [abs_sub_comm c, abs_sub_comm d] at h2
  rw [abs_le]
  constructor <;> linarith

theorem hypot_le (hs : IsSqrt sqrt) (a b : K) : sqrt (a * a + b * b) ≤ |a| + |b| := by
  have := hypot_near hs a b 0 0
  simp only [mul_zero, add_zero, hs.zero, sub_zero] at this
  exact (le_abs_self _).trans this

theorem sqrt_rel (hs : IsSqrt sqrt) {m m' f : K} (m0 : 0 ≤ m) (m1 : 0 ≤ m') (h : |m' - m| ≤ f * m) : |sqrt m' - sqrt m| ≤ f * sqrt m := by
  obtain ⟨g0, g⟩ := sqrt_spec hs m' m1
  obtain ⟨k0, k⟩ := sqrt_spec hs m m0
  rcases k0.eq_or_lt with hk | hk
  · rw [← hk, mul_zero] at k
    rw [← k, mul_zero, sub_zero] at h
    have : m' = 0 := abs_nonpos_iff.1 h
    rw [this, ← k, hs.zero]
    simp
  · refine le_of_mul_le_mul_right ?_ hk
    rw [mul_assoc, k]
    refine le_trans (mul_le_mul_of_nonneg_left (show sqrt m ≤ sqrt m' + sqrt m by linarith) (abs_nonneg _)) ?_
    rw [← abs_of_nonneg (show 0 ≤ sqrt m' + sqrt m by linarith), ← abs_mul, show (sqrt m' - sqrt m) * (sqrt m' + sqrt m) = sqrt m' * sqrt m' - sqrt m * sqrt m by ring, g, k]
    exact h

/-- The end of the computation: the length of the sides found. -/
theorem cyl_end (hp : 1 ≤ p) (h : IsRound p rnd) (hs : IsSqrt sqrt) {t A D' r s : K} (ht : 6 * eps K p ≤ t) (t1 : t ≤ 1 / 8) (hD : |D' - A * A| ≤ t * (A * A)) :
    |rnd (sqrt (rnd (rnd (r * r) + rnd (rnd (s * s) * D')))) - sqrt (r * r + s * A * (s * A))| ≤ 2 * t * sqrt (r * r + s * A * (s * A)) := by
  have e0 := eps_pos (K := K) p
  set e := eps K p with he
  have D0 : 0 ≤ D' := by
    have := (abs_le.1 hD).1
    nlinarith [mul_self_nonneg A]
  have s0 := mul_self_nonneg s
  have r0 := mul_self_nonneg r
  have A0 := mul_self_nonneg A
  have hs1 : |rnd (s * s) - s * s| ≤ e * |s * s| := h.rel hp _
  have hD' : |D' - A * A| ≤ t * |A * A| := by rwa [abs_of_nonneg A0]
  have h1 := near_round hp h (near_mul hs1 hD')
  have h2 : |rnd (r * r) - r * r| ≤ e * |r * r| := h.rel hp _
  rw [← he] at h1
  have e1 : e ≤ 1 / 48 := by linarith
  have et : e * t ≤ t / 48 := by nlinarith
  have f1 : (1 + ((1 + e) * (1 + t) - 1)) * (1 + e) - 1 ≤ (7 / 5) * t := by nlinarith
  have n1 : 0 ≤ rnd (rnd (s * s) * D') := (h.nonneg_iff hp _).2 (mul_nonneg ((h.nonneg_iff hp _).2 s0) D0)
  have n2 : 0 ≤ rnd (r * r) := (h.nonneg_iff hp _).2 r0
  rw [abs_of_nonneg (mul_nonneg s0 A0)] at h1
  rw [abs_of_nonneg r0] at h2
  have h1' := h1.trans (mul_le_mul_of_nonneg_right f1 (mul_nonneg s0 A0))
  have h2' := h2.trans (mul_le_mul_of_nonneg_right (show e ≤ (7 / 5) * t by linarith) r0)
  have h3 : |rnd (r * r) + rnd (rnd (s * s) * D') - (r * r + s * A * (s * A))| ≤ (7 / 5) * t * (r * r + s * A * (s * A)) := by
    rw [show rnd (r * r) + rnd (rnd (s * s) * D') - (r * r + s * A * (s * A)) = (rnd (r * r) - r * r) + (rnd (rnd (s * s) * D') - s * s * (A * A)) by ring]
    refine (abs_add_le _ _).trans ((add_le_add h2' h1').trans (le_of_eq ?_))
    ring
  have S0 : 0 ≤ r * r + s * A * (s * A) := add_nonneg r0 (mul_self_nonneg _)
  have h4 := near_round hp h (c := (7 / 5) * t) (by rw [abs_of_nonneg S0]; exact h3)
  rw [abs_of_nonneg S0, ← he] at h4
  have f2 : (1 + 7 / 5 * t) * (1 + e) - 1 ≤ (8 / 5) * t := by nlinarith
  have h5 := sqrt_rel hs S0 ((h.nonneg_iff hp _).2 (add_nonneg n2 n1)) (h4.trans (mul_le_mul_of_nonneg_right f2 S0))
  have q0 := (sqrt_spec hs _ S0).1
  have h6 := near_round hp h (c := (8 / 5) * t) (by rw [abs_of_nonneg q0]; exact h5)
  rw [abs_of_nonneg q0, ← he] at h6
  refine h6.trans (mul_le_mul_of_nonneg_right ?_ q0)
  nlinarith

/-- The distance from the axis. -/
theorem cyl_radial (hp : 1 ≤ p) (h : IsRound p rnd) (hs : IsSqrt sqrt) {t B H X X' Y' R : K} (ht : 6 * eps K p ≤ t) (t1 : t ≤ 1 / 8) (hB : 0 ≤ B) (hH : 0 < H)
    (hX : |X' - X| ≤ (35 / 8) * t * (B * B)) (X0 : 0 ≤ X) (hY : |Y' - B * B| ≤ t * (B * B)) (hfar : H ^ 2 ≤ B * B - X) (h0 : 0 ≤ rnd (Y' - rnd X')) :
    |rnd (rnd (sqrt (rnd (Y' - rnd X'))) - R) - (sqrt (B * B - X) - R)| ≤ 9 * t * (B * B / H) + t * |R| ∧ sqrt (B * B - X) ≤ B * B / H ∧ B ≤ B * B / H := by
  have e0 := eps_pos (K := K) p
  set e := eps K p with he
  have BB := mul_self_nonneg B
  have e1 : e ≤ 1 / 48 := by linarith
  have t0 : 0 ≤ t := by linarith
  have XB : X ≤ B * B := by nlinarith [sq_nonneg H]
  have tBB := mul_nonneg t0 BB
  have te : ∀ y : K, 0 ≤ y → e * y ≤ t / 6 * y := fun y hy => mul_le_mul_of_nonneg_right (by linarith) hy
  have tt : ∀ y : K, 0 ≤ y → t * (t * y) ≤ 1 / 8 * (t * y) := fun y hy => mul_le_mul_of_nonneg_right t1 (mul_nonneg t0 hy)
  have ttB := tt _ BB
  have h1 := round_abs hp h hX (show |X| ≤ B * B by rwa [abs_of_nonneg X0])
  have h1' : |rnd X' - X| ≤ (19 / 4) * t * (B * B) := by
    have := te (B * B + 35 / 8 * t * (B * B)) (by linarith)
    linarith
  have h2 : |Y' - rnd X' - (B * B - X)| ≤ (23 / 4) * t * (B * B) := by
    rw [show Y' - rnd X' - (B * B - X) = (Y' - B * B) - (rnd X' - X) by ring]
    refine (abs_sub _ _).trans ?_
    linarith
  have h3 := round_abs hp h h2 (show |B * B - X| ≤ B * B by rw [abs_of_nonneg (by linarith)]; linarith)
  have h3' : |rnd (Y' - rnd X') - (B * B - X)| ≤ (13 / 2) * t * (B * B) := by
    have := te (B * B + 23 / 4 * t * (B * B)) (by linarith)
    linarith
  have h4 := root_near hs h0 hH hfar h3'
  rw [mul_div_assoc] at h4
  have HB : H ≤ B := abs_le_of_sq_le_sq' (by nlinarith) hB |>.2
  have BW : B ≤ B * B / H := by
    rw [le_div_iff₀ hH]
    exact mul_le_mul_of_nonneg_left HB hB
  obtain ⟨k0, k⟩ := sqrt_spec hs (B * B - X) (by linarith)
  have kB : sqrt (B * B - X) ≤ B := abs_le_of_sq_le_sq' (by rw [pow_two, k]; nlinarith) hB |>.2
  refine ⟨?_, kB.trans BW, BW⟩
  set W := B * B / H
  set k' := sqrt (B * B - X)
  have W0 : 0 ≤ W := hB.trans BW
  have tW := mul_nonneg t0 W0
  have ttW := tt _ W0
  have h5 := round_abs hp h h4 (show |k'| ≤ W by rw [abs_of_nonneg k0]; exact kB.trans BW)
  have h5' : |rnd (sqrt (rnd (Y' - rnd X'))) - R - (k' - R)| ≤ (27 / 4) * t * W + (1 / 4) * t * W := by
    rw [sub_sub_sub_cancel_right]
    have := te (W + 13 / 2 * t * W) (by linarith)
    linarith
  have h6 := round_abs hp h h5' (show |k' - R| ≤ W + |R| by
    refine (abs_sub _ _).trans ?_
    rw [abs_of_nonneg k0]
    linarith)
  have R0 := abs_nonneg R
  have tR := mul_nonneg t0 R0
  have := te (W + |R| + (27 / 4 * t * W + 1 / 4 * t * W)) (by linarith)
  refine h6.trans ?_
  linarith

/-- The distance along the axis, beyond its ends. -/
theorem cyl_axial (hp : 1 ≤ p) (h : IsRound p rnd) {t q s s' : K} (ht : 6 * eps K p ≤ t) (t1 : t ≤ 1 / 8) (hq : 0 ≤ q) (hs : |s' - s| ≤ 3 * t * q) (s0 : |s| ≤ q) :
    |max (max (-s') (rnd (s' - 1))) 0 - max (max (-s) (s - 1)) 0| ≤ 4 * t * q + t ∧ |max (max (-s) (s - 1)) 0| ≤ q := by
  have e0 := eps_pos (K := K) p
  have t0 : 0 ≤ t := by linarith
  have tq := mul_nonneg t0 hq
  have a1 := abs_le.1 s0
  constructor
  · have h1 := round_abs hp h (z' := s' - 1) (z := s - 1) (d := 3 * t * q) (by rw [sub_sub_sub_cancel_right]; exact hs) (show |s - 1| ≤ q + 1 by
      refine (abs_sub _ _).trans ?_
      rw [abs_one]
      linarith)
    have h2 : eps K p * (q + 1 + 3 * t * q) ≤ t / 6 * (q + 1 + 3 * t * q) := mul_le_mul_of_nonneg_right (by linarith) (by linarith)
    have h3 : t * (t * q) ≤ 1 / 8 * (t * q) := mul_le_mul_of_nonneg_right t1 tq
    have h4 : |rnd (s' - 1) - (s - 1)| ≤ 4 * t * q + t := by linarith
    refine (abs_max_sub_max_le_max _ _ _ _).trans (max_le ?_ (by rw [sub_self, abs_zero]; linarith))
    refine (abs_max_sub_max_le_max _ _ _ _).trans (max_le ?_ h4)
    rw [neg_sub_neg, abs_sub_comm]
    linarith
  · rw [abs_of_nonneg (le_max_right _ _)]
    exact max_le (max_le (by linarith) (by linarith)) hq

/-- The sign of the result does not matter: it is only negative if the rest is zero. -/
theorem cyl_sign (hs : IsSqrt sqrt) (s r A : K) :
    (if s < 0 ∧ r < 0 then (-1 : K) else 1) * sqrt (max r 0 * max r 0 + max s 0 * A * (max s 0 * A)) = sqrt (max r 0 * max r 0 + max s 0 * A * (max s 0 * A)) := by
  by_cases hh : s < 0 ∧ r < 0
  · rw [max_eq_right hh.1.le, max_eq_right hh.2.le, zero_mul, zero_mul, zero_add, zero_mul, hs.zero, mul_zero]
  · rw [if_neg hh, one_mul]

theorem cyl_sign' (h : IsRound p rnd) (hs : IsSqrt sqrt) (s r D : K) :
    (if s < 0 ∧ r < 0 then (-1 : K) else 1) * rnd (sqrt (rnd (rnd (max r 0 * max r 0) + rnd (rnd (max s 0 * max s 0) * D)))) =
      rnd (sqrt (rnd (rnd (max r 0 * max r 0) + rnd (rnd (max s 0 * max s 0) * D)))) := by
  have z : rnd 0 = 0 := h.fix (float_zero p)
  by_cases hh : s < 0 ∧ r < 0
  · rw [max_eq_right hh.1.le, max_eq_right hh.2.le, zero_mul, z, zero_mul, z, zero_add, z, hs.zero, z, mul_zero]
  · rw [if_neg hh, one_mul]

theorem stdMax_eq (x y : K) : stdMax x y = max x y := by
  unfold stdMax
  split_ifs with hh
  · exact (max_eq_right hh.le).symm
  · exact (max_eq_left (not_lt.1 hh)).symm

/-- **C126.** Away from its axis the signed distance to a cylinder is within about `21 (n + 6)` units in the last place of
`B² / H + A + |R|`, for the distance `B` to the base, the length `A` of the axis, the radius `R` and the distance `H` from the line
through the axis. -/
theorem C126_cylinder_error (hp : 1 ≤ p) (h : IsRound p rnd) (hs : IsSqrt sqrt) (hn : (1 + eps K p) ^ (n + 6) ≤ 9 / 8) (c : Tube K n) (hc : c.p0 ≠ c.p1)
    (x : Fin n → K) {H : K} (hH : 0 < H) (hline : ∀ t : K, H ≤ len sqrt (x - (c.p0 + t • (c.p1 - c.p0))))
    (hfar : 6 * ((1 + eps K p) ^ (n + 6) - 1) * len sqrt (x - c.p0) ^ 2 ≤ H ^ 2) :
    ∃ y z, cylSdf rnd sqrt c x = some y ∧ c.cylSdf sqrt x = some z ∧
      |y - z| ≤ 21 * ((1 + eps K p) ^ (n + 6) - 1) * (len sqrt (x - c.p0) ^ 2 / H + len sqrt (c.p1 - c.p0) + |c.radius|) := by
  have e0 := eps_pos (K := K) p
  have e1 := eps_le (K := K) hp
  have hd := C104_dist2 hp h c.p1 c.p0
  rw [show dist2 rnd c.p1 c.p0 = mag2 rnd (sub rnd c.p1 c.p0) from rfl] at hd
  have hA := Shape.len_pos hs (sub_ne_zero.2 (Ne.symm hc))
  have hB := Shape.len_nonneg hs (x - c.p0)
  have hsome := (C126_cylinder_partial hp h hs hn c x).2 hc fun t => hfar.trans (pow_le_pow_left₀ hH.le (hline t) 2)
  have hfoot := foot_far hs c hc x (y := H ^ 2) (pow_le_pow_left₀ hH.le (hline _) 2)
  have hD0 : mag2 rnd (sub rnd c.p1 c.p0) ≠ 0 := fun hh => hc (hd.2.2.1 hh).symm
  have hN : |(c.p1 - c.p0) ⬝ᵥ (x - c.p0)| ≤ len sqrt (c.p1 - c.p0) * len sqrt (x - c.p0) := (Finset.abs_sum_le_sum_abs _ _).trans (sum_abs_le_len hs _ _)
  have htk : ∀ k ≤ n + 6, (1 + eps K p) ^ k - 1 ≤ (1 + eps K p) ^ (n + 6) - 1 := fun k hk => sub_le_sub_right (pow_le_pow_right₀ (by linarith) hk) 1
  have ht6 : 6 * eps K p ≤ (1 + eps K p) ^ (n + 6) - 1 := six_eps
  have hN' := (dot_near hp h hs c.p1 c.p0 x c.p0).trans (mul_le_mul_of_nonneg_right (htk _ (by omega)) (by positivity))
  have hD' : |mag2 rnd (sub rnd c.p1 c.p0) - len sqrt (c.p1 - c.p0) * len sqrt (c.p1 - c.p0)| ≤
      ((1 + eps K p) ^ (n + 6) - 1) * (len sqrt (c.p1 - c.p0) * len sqrt (c.p1 - c.p0)) := by
    have h1 := (dot_near hp h hs c.p1 c.p0 c.p1 c.p0).trans (mul_le_mul_of_nonneg_right (htk _ (by omega)) (by positivity))
    rw [← Shape.len_mul_self hs] at h1
    exact h1
  have hB' : |mag2 rnd (sub rnd x c.p0) - len sqrt (x - c.p0) * len sqrt (x - c.p0)| ≤ ((1 + eps K p) ^ (n + 6) - 1) * (len sqrt (x - c.p0) * len sqrt (x - c.p0)) := by
    have h1 := (dot_near hp h hs x c.p0 x c.p0).trans (mul_le_mul_of_nonneg_right (htk _ (by omega)) (by positivity))
    rw [← Shape.len_mul_self hs] at h1
    exact h1
  have t1 : (1 + eps K p) ^ (n + 6) - 1 ≤ 1 / 8 := by linarith
  have hq := ratio_near e0.le ht6 t1 hA hB hN hN' hD'
  have hax : c.axis = c.p1 - c.p0 := rfl
  have hz : c.cylSdf sqrt x = some (sqrt (max (sqrt (len sqrt (x - c.p0) * len sqrt (x - c.p0) - (c.p1 - c.p0) ⬝ᵥ (x - c.p0) * ((c.p1 - c.p0) ⬝ᵥ (x - c.p0) / (len sqrt (c.p1 - c.p0) * len sqrt (c.p1 - c.p0)))) - c.radius) 0 *
      max (sqrt (len sqrt (x - c.p0) * len sqrt (x - c.p0) - (c.p1 - c.p0) ⬝ᵥ (x - c.p0) * ((c.p1 - c.p0) ⬝ᵥ (x - c.p0) / (len sqrt (c.p1 - c.p0) * len sqrt (c.p1 - c.p0)))) - c.radius) 0 +
      max (max (-((c.p1 - c.p0) ⬝ᵥ (x - c.p0) / (len sqrt (c.p1 - c.p0) * len sqrt (c.p1 - c.p0)))) ((c.p1 - c.p0) ⬝ᵥ (x - c.p0) / (len sqrt (c.p1 - c.p0) * len sqrt (c.p1 - c.p0)) - 1)) 0 * len sqrt (c.p1 - c.p0) *
      (max (max (-((c.p1 - c.p0) ⬝ᵥ (x - c.p0) / (len sqrt (c.p1 - c.p0) * len sqrt (c.p1 - c.p0)))) ((c.p1 - c.p0) ⬝ᵥ (x - c.p0) / (len sqrt (c.p1 - c.p0) * len sqrt (c.p1 - c.p0)) - 1)) 0 * len sqrt (c.p1 - c.p0)))) := by
    unfold Tube.cylSdf
    simp only [hax, Vec.dot_eq, Vec.mag2_eq, stdMax_eq, ← Shape.len_mul_self hs]
    rw [if_neg (mul_pos hA hA).ne', ← cyl_sign hs]
    congr 3
    ring
  simp only [cylSdf] at hsome ⊢
  rw [if_neg hD0] at hsome ⊢
  by_cases hneg : rnd (mag2 rnd (sub rnd x c.p0) - rnd (dot rnd (sub rnd c.p1 c.p0) (sub rnd x c.p0) * rnd (dot rnd (sub rnd c.p1 c.p0) (sub rnd x c.p0) / mag2 rnd (sub rnd c.p1 c.p0)))) < 0
  · rw [if_pos hneg] at hsome
    cases hsome
  rw [if_neg hneg]
  refine ⟨_, _, rfl, hz, ?_⟩
  simp only [stdMax_eq]
  rw [cyl_sign' h hs]
  clear hz hsome hline hax hd htk
  set B := len sqrt (x - c.p0)
  set A := len sqrt (c.p1 - c.p0)
  set t : K := (1 + eps K p) ^ (n + 6) - 1
  set N := (c.p1 - c.p0) ⬝ᵥ (x - c.p0)
  set N' := dot rnd (sub rnd c.p1 c.p0) (sub rnd x c.p0)
  set D' := mag2 rnd (sub rnd c.p1 c.p0)
  set B2' := mag2 rnd (sub rnd x c.p0)
  set R := c.radius
  have t0 : 0 ≤ t := by linarith
  have hr : |rnd (N' / D') - N / (A * A)| ≤ 3 * t * (B / A) := by
    have h1 := abs_sub_le (rnd (N' / D')) (N' / D') (N / (A * A))
    have h2 := h.rel hp (N' / D')
    change _ ≤ eps K p * |N' / D'| at h2
    linarith
  obtain ⟨hx, _⟩ := prod_abs t0 t1 hA hB hN hN' hr
  have q1 : |N / (A * A)| ≤ B / A := by
    rw [abs_div, abs_of_pos (mul_pos hA hA), div_le_div_iff₀ (mul_pos hA hA) hA]
    have := mul_le_mul_of_nonneg_right hN hA.le
    linarith
  have X0 : 0 ≤ N * (N / (A * A)) := by
    rw [← mul_div_assoc]
    exact div_nonneg (mul_self_nonneg _) (mul_self_nonneg _)
  obtain ⟨rad, kW, BW⟩ := cyl_radial hp h hs (R := R) ht6 t1 hB hH hx X0 hB' hfoot (not_lt.1 hneg)
  obtain ⟨ax, σ0⟩ := cyl_axial hp h ht6 t1 (div_nonneg hB hA.le) hr q1
  set r' := rnd (rnd (sqrt (rnd (B2' - rnd (N' * rnd (N' / D'))))) - R)
  set k := sqrt (B * B - N * (N / (A * A)))
  set σ' := max (max (-rnd (N' / D')) (rnd (rnd (N' / D') - 1))) 0
  set σ := max (max (-(N / (A * A))) (N / (A * A) - 1)) 0
  have k0 : 0 ≤ k := (sqrt_spec hs _ (le_trans (sq_nonneg H) hfoot)).1
  have hend := cyl_end hp h hs (r := max r' 0) (s := σ') ht6 t1 hD'
  have hcmp := hypot_near hs (max r' 0) (σ' * A) (max (k - R) 0) (σ * A)
  have c1 : |max r' 0 - max (k - R) 0| ≤ 9 * t * (B * B / H) + t * |R| :=
    (abs_max_sub_max_le_max _ _ _ _).trans (max_le rad (by
      rw [sub_self, abs_zero]
      exact (abs_nonneg _).trans rad))
  have AB : B / A * A = B := div_mul_cancel₀ B hA.ne'
  have c2 : |σ' * A - σ * A| ≤ 4 * t * B + t * A := by
    rw [← sub_mul, abs_mul, abs_of_pos hA]
    have := mul_le_mul_of_nonneg_right ax hA.le
    rw [show (4 * t * (B / A) + t) * A = 4 * t * (B / A * A) + t * A by ring, AB] at this
    exact this
  have c3 := hypot_le hs (max (k - R) 0) (σ * A)
  have c4 : |max (k - R) 0| ≤ B * B / H + |R| := by
    rw [abs_of_nonneg (le_max_right _ _)]
    have := neg_le_abs R
    exact max_le (by linarith) (by linarith [abs_nonneg R])
  have c5 : |σ * A| ≤ B := by
    rw [abs_mul, abs_of_pos hA]
    have := mul_le_mul_of_nonneg_right σ0 hA.le
    rwa [AB] at this
  rw [pow_two]
  set W := B * B / H
  have W0 : 0 ≤ W := hB.trans BW
  set M' := sqrt (max r' 0 * max r' 0 + σ' * A * (σ' * A))
  set M := sqrt (max (k - R) 0 * max (k - R) 0 + σ * A * (σ * A))
  have R0 := abs_nonneg R
  have tB := mul_le_mul_of_nonneg_left BW t0
  have d1 : |M' - M| ≤ 13 * (t * W) + t * A + t * |R| := by linarith
  have d2 : M' ≤ 2 * W + |R| + (13 * (t * W) + t * A + t * |R|) := by
    have := (abs_le.1 d1).2
    linarith
  have tt : ∀ y : K, 0 ≤ y → t * y ≤ 1 / 8 * y := fun y hy => mul_le_mul_of_nonneg_right t1 hy
  have d3 : M' ≤ (29 / 8) * W + (1 / 8) * A + (9 / 8) * |R| := by
    have := tt _ W0
    have := tt _ hA.le
    have := tt _ R0
    linarith
  have d4 := mul_le_mul_of_nonneg_left d3 (show 0 ≤ 2 * t by linarith)
  have d5 := abs_sub_le (rnd (sqrt (rnd (rnd (max r' 0 * max r' 0) + rnd (rnd (σ' * σ') * D'))))) M' M
  have tW := mul_nonneg t0 W0
  have tA := mul_nonneg t0 hA.le
  have tR := mul_nonneg t0 R0
  linarith

/-- With eleven bits: beyond the corner of a cylinder, beside it, and inside it. -/
example : let sq : ℚ → ℚ := fun x => if x = 100 then 10 else if x = 16 then 4 else if x = 1 then 1 else if x = 13 then 3693 / 1024 else 0
    cylSdf (nearest 11) sq ⟨![0, 0], ![4, 0], 7⟩ ![6, 10] = some (1847 / 512) ∧ cylSdf (nearest 11) sq ⟨![0, 0], ![4, 0], 3⟩ ![1, 4] = some 1 ∧
    cylSdf (nearest 11) sq ⟨![0, 0], ![4, 0], 3⟩ ![1, 1] = some 0 := by
  decide +kernel

end Geomc.Flt
