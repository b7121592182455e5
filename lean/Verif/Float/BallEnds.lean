import Verif.Float.Ball
import Verif.Float.Lerp

/-! # Property C123: where the ends of the interval are -/

namespace Geomc.Flt

open Geomc.Shape (Ball)

variable {K : Type} [Field K] [LinearOrder K] [IsStrictOrderedRing K] [FloorRing K] {n : ℕ} {p : ℕ} {rnd sqrt : K → K}

theorem mag2_near (hp : 1 ≤ p) (h : IsRound p rnd) (d : Fin n → K) : Near (eps K p) n (mag2 rnd d) (∑ i, d i ^ 2) (∑ i, d i ^ 2) := by
  have e0 := eps_pos (K := K) p
  have e1 := eps_le (K := K) hp
  obtain ⟨a1, a2⟩ := C104_mag2 hp h d
  rw [show (2 : K) ^ (-(p : ℤ)) = eps K p from rfl] at *
  have hA : 0 ≤ ∑ i, d i ^ 2 := Finset.sum_nonneg fun i _ => sq_nonneg _
  have := near_abs (c := (1 + eps K p) ^ n - 1) ((mul_le_mul_of_nonneg_right (pow_sym e0.le (by linarith) n) hA).trans a1) (by linarith) hA
  rw [abs_of_nonneg hA] at this
  exact ⟨this, (abs_of_nonneg hA).le⟩

theorem dist2_near (hp : 1 ≤ p) (h : IsRound p rnd) (u v : Fin n → K) :
    Near (eps K p) (n + 2) (mag2 rnd (sub rnd u v)) (∑ i, (u i - v i) ^ 2) (∑ i, (u i - v i) ^ 2) := by
  have e0 := eps_pos (K := K) p
  have e1 := eps_le (K := K) hp
  obtain ⟨a1, a2, -⟩ := C104_dist2 hp h u v
  rw [show (2 : K) ^ (-(p : ℤ)) = eps K p from rfl] at *
  have hA : 0 ≤ ∑ i, (u i - v i) ^ 2 := Finset.sum_nonneg fun i _ => sq_nonneg _
  have := near_abs (c := (1 + eps K p) ^ (n + 2) - 1) ((mul_le_mul_of_nonneg_right (pow_sym e0.le (by linarith) (n + 2)) hA).trans a1) (by linarith) hA
  rw [abs_of_nonneg hA] at this
  exact ⟨this, (abs_of_nonneg hA).le⟩

theorem dot_sub_near (hp : 1 ≤ p) (h : IsRound p rnd) (d u v : Fin n → K) :
    Near (eps K p) (n + 1) (dot rnd d (sub rnd u v)) (∑ i, d i * (u i - v i)) (∑ i, |d i * (u i - v i)|) := by
  have e0 := eps_pos (K := K) p
  have b1 := C104_dot hp h d (sub rnd u v)
  have hx : ∀ i, |sub rnd u v i - (u i - v i)| ≤ eps K p * |u i - v i| := fun i => h.rel hp _
  rw [show (2 : K) ^ (-(p : ℤ)) = eps K p from rfl] at b1
  set x' := sub rnd u v
  set e := eps K p
  set S := ∑ i, |d i * (u i - v i)|
  refine ⟨?_, Finset.abs_sum_le_sum_abs _ _⟩
  have h1 : ∑ i, |d i * x' i| ≤ (1 + e) * S := by
    rw [Finset.mul_sum]
    refine Finset.sum_le_sum fun i _ => ?_
    rw [abs_mul, abs_mul]
    have h2 := abs_sub_abs_le_abs_sub (x' i) (u i - v i)
    have h3 := mul_le_mul_of_nonneg_left (show |x' i| ≤ (1 + e) * |u i - v i| by linarith [hx i]) (abs_nonneg (d i))
    linarith
  have h2 : |∑ i, d i * x' i - ∑ i, d i * (u i - v i)| ≤ e * S := by
    rw [← Finset.sum_sub_distrib, Finset.mul_sum]
    refine (Finset.abs_sum_le_sum_abs _ _).trans (Finset.sum_le_sum fun i _ => ?_)
    rw [← mul_sub, abs_mul, abs_mul, mul_left_comm]
    exact mul_le_mul_of_nonneg_left (hx i) (abs_nonneg _)
  have h3 := abs_sub_le (dot rnd d x') (∑ i, d i * x' i) (∑ i, d i * (u i - v i))
  have h4 := mul_le_mul_of_nonneg_left h1 (show 0 ≤ (1 + e) ^ n - 1 by linarith [one_le_pow₀ (n := n) (show 1 ≤ 1 + e by linarith)])
  rw [pow_succ]
  nlinarith

/-- A root, in terms of the number it is rounded to. -/
theorem end_near (hp : 5 ≤ p) {t x : K} (ht : |t - x| ≤ 6 * eps K p * |x|) : Near (eps K p) 8 x t |t| := by
  have e0 := eps_pos (K := K) p
  have e1 : eps K p ≤ 1 / 32 := by
    rw [eps, show (1 / 32 : K) = 2 ^ (-5 : ℤ) by norm_num]
    exact zle (by omega)
  refine ⟨?_, le_rfl⟩
  have h1 := abs_sub_abs_le_abs_sub x t
  rw [abs_sub_comm x t] at h1 ⊢
  have h2 := one_add_mul_le_pow (show (-2 : K) ≤ eps K p by linarith) 8
  push_cast at h2
  have h3 : |x| ≤ 4 / 3 * |t| := by nlinarith [abs_nonneg x]
  have h4 := mul_le_mul_of_nonneg_right (show 8 * eps K p ≤ (1 + eps K p) ^ 8 - 1 by linarith) (abs_nonneg t)
  nlinarith [abs_nonneg t]

/-- **C123.** The points of the ray at the ends of the reported interval are on the sphere, up to rounding: however close the ray is
to a tangent, their squared distance from the centre differs from the squared radius by at most `(1 + ε)^(n + 16) - 1` of twice
the squared distances of the point and of the centre from the origin of the ray, and the squared radius. -/
theorem C123_surface (hp : 5 ≤ p) (h : IsRound p rnd) (hq : ∀ x, 0 ≤ x → 0 ≤ sqrt x ∧ sqrt x * sqrt x = x) {neg : Bool} {s : Ball K n} {o d : Fin n → K}
    {t0 t1 : K} (ht : ballIntersectRay rnd sqrt neg s o d = some (t0, t1)) (t : K) (htt : t = t0 ∨ t = t1) :
    |∑ i, (o i + t * d i - s.center i) ^ 2 - s.r ^ 2| ≤
      ((1 + eps K p) ^ (n + 16) - 1) * (2 * ∑ i, (t * d i) ^ 2 + 2 * ∑ i, (s.center i - o i) ^ 2 + s.r ^ 2) := by
  have e0 := (eps_pos (K := K) p).le
  have hp1 : 1 ≤ p := by omega
  obtain ⟨-, x0, x1, hx, n0, n1⟩ := C123_ends hp h hq ht
  obtain ⟨x, hx0, hn⟩ : ∃ x, mag2 rnd d * x ^ 2 - 2 * dot rnd d (sub rnd s.center o) * x + rnd (mag2 rnd (sub rnd s.center o) - rnd (s.r * s.r)) = 0 ∧
      Near (eps K p) 8 x t |t| := by
    rcases htt with rfl | rfl
    · exact ⟨x0, (hx x0).2 (.inl rfl), end_near hp n0⟩
    · exact ⟨x1, (hx x1).2 (.inr rfl), end_near hp n1⟩
  have ha := mag2_near hp1 h d
  have hb := dot_sub_near hp1 h d s.center o
  have hr : Near (eps K p) (n + 2) (rnd (s.r * s.r)) (s.r ^ 2) (s.r ^ 2) := by
    have := ((Near.refl (eps K p) (s.r * s.r)).round hp1 h le_rfl).mono e0 (show 0 + 1 ≤ n + 2 by omega)
    rw [abs_mul_self] at this
    rw [show s.r ^ 2 = s.r * s.r by ring]
    exact this
  have hc := (((dist2_near hp1 h s.center o).sub hr).round hp1 h le_rfl).mono e0 (show n + 2 + 1 ≤ n + 16 by omega)
  have t1 := (ha.mul e0 (hn.mul e0 hn)).mono e0 (show n + (8 + 8) ≤ n + 16 by omega)
  have t2 := (hb.mul e0 hn).mono e0 (show n + 1 + 8 ≤ n + 16 by omega)
  have tot := ((t1.sub (t2.add t2)).add hc).1
  have hzero : mag2 rnd d * (x * x) - (dot rnd d (sub rnd s.center o) * x + dot rnd d (sub rnd s.center o) * x) +
      rnd (mag2 rnd (sub rnd s.center o) - rnd (s.r * s.r)) = 0 := by
    linear_combination hx0
  rw [hzero, zero_sub, abs_neg] at tot
  have hS : 2 * ((∑ i, |d i * (s.center i - o i)|) * |t|) ≤ ∑ i, (t * d i) ^ 2 + ∑ i, (s.center i - o i) ^ 2 := by
    rw [Finset.sum_mul, Finset.mul_sum, ← Finset.sum_add_distrib]
    refine Finset.sum_le_sum fun i _ => ?_
    rw [← sq_abs (t * d i), ← sq_abs (s.center i - o i), abs_mul, abs_mul]
    nlinarith [sq_nonneg (|t| * |d i| - |s.center i - o i|)]
  have hA : (∑ i, d i ^ 2) * (|t| * |t|) = ∑ i, (t * d i) ^ 2 := by
    rw [abs_mul_abs_self, Finset.sum_mul]
    exact Finset.sum_congr rfl fun i _ => by ring
  rw [line_sq]
  have hval : (∑ i, (s.center i - o i) ^ 2) - 2 * t * (∑ i, d i * (s.center i - o i)) + t ^ 2 * ∑ i, d i ^ 2 - s.r ^ 2 =
      (∑ i, d i ^ 2) * (t * t) - ((∑ i, d i * (s.center i - o i)) * t + (∑ i, d i * (s.center i - o i)) * t) + (∑ i, (s.center i - o i) ^ 2 - s.r ^ 2) := by
    ring
  rw [hval]
  refine tot.trans (mul_le_mul_of_nonneg_left ?_ (sub_nonneg.2 (one_le_pow₀ (by linarith))))
  rw [hA]
  linarith

/-- **C123.** So their distance from the surface is at most that over the radius. -/
theorem C123_distance (hp : 5 ≤ p) (h : IsRound p rnd) (hq : ∀ x, 0 ≤ x → 0 ≤ sqrt x ∧ sqrt x * sqrt x = x) {neg : Bool} {s : Ball K n} {o d : Fin n → K} (hr : 0 < s.r)
    {t0 t1 : K} (ht : ballIntersectRay rnd sqrt neg s o d = some (t0, t1)) (t : K) (htt : t = t0 ∨ t = t1) :
    |sqrt (∑ i, (o i + t * d i - s.center i) ^ 2) - s.r| ≤
      ((1 + eps K p) ^ (n + 16) - 1) * (2 * ∑ i, (t * d i) ^ 2 + 2 * ∑ i, (s.center i - o i) ^ 2 + s.r ^ 2) / s.r := by
  have h1 := C123_surface hp h hq ht t htt
  obtain ⟨D0, DD⟩ := hq (∑ i, (o i + t * d i - s.center i) ^ 2) (Finset.sum_nonneg fun i _ => sq_nonneg _)
  rw [le_div_iff₀ hr]
  refine le_trans ?_ h1
  generalize sqrt (∑ i, (o i + t * d i - s.center i) ^ 2) = D at *
  rw [← DD, show D * D - s.r ^ 2 = (D - s.r) * (D + s.r) by ring, abs_mul, abs_of_nonneg (show 0 ≤ D + s.r by linarith)]
  exact mul_le_mul_of_nonneg_left (by linarith) (abs_nonneg _)

/-- **C123.** Away from tangency they are near the ends of the exact interval: if the ray meets the sphere from `u0` to `u1`, each
reported end is off by no more than the error above over the chord, on one side or the other. -/
theorem C123_chord (hp : 5 ≤ p) (h : IsRound p rnd) (hq : ∀ x, 0 ≤ x → 0 ≤ sqrt x ∧ sqrt x * sqrt x = x) {neg : Bool} {s : Ball K n} {o d : Fin n → K} (hd : d ≠ 0)
    {t0 t1 : K} (ht : ballIntersectRay rnd sqrt neg s o d = some (t0, t1)) (t : K) (htt : t = t0 ∨ t = t1) {u0 u1 : K} (hu : u0 < u1)
    (h0 : ∑ i, (o i + u0 * d i - s.center i) ^ 2 = s.r ^ 2) (h1 : ∑ i, (o i + u1 * d i - s.center i) ^ 2 = s.r ^ 2) :
    min |t - u0| |t - u1| ≤ 2 * ((1 + eps K p) ^ (n + 16) - 1) * (2 * ∑ i, (t * d i) ^ 2 + 2 * ∑ i, (s.center i - o i) ^ 2 + s.r ^ 2) /
      ((∑ i, d i ^ 2) * (u1 - u0)) := by
  have hs := C123_surface hp h hq ht t htt
  have hA : 0 < ∑ i, d i ^ 2 := lt_of_le_of_ne (Finset.sum_nonneg fun i _ => sq_nonneg _) fun hc => hd ((sum_sq_zero d).1 hc.symm)
  rw [line_sq] at h0 h1 hs
  set A := ∑ i, d i ^ 2
  set B := ∑ i, d i * (s.center i - o i)
  set X := ∑ i, (s.center i - o i) ^ 2
  set E := ((1 + eps K p) ^ (n + 16) - 1) * (2 * ∑ i, (t * d i) ^ 2 + 2 * X + s.r ^ 2)
  have hB : 2 * B = A * (u0 + u1) := by
    have : (u1 - u0) * (A * (u0 + u1) - 2 * B) = 0 := by linear_combination h1 - h0
    rcases mul_eq_zero.1 this with h | h
    · linarith
    · linarith
  have hf : X - 2 * t * B + t ^ 2 * A - s.r ^ 2 = A * ((t - u0) * (t - u1)) := by
    linear_combination h0 - (t - u0) * hB
  rw [hf, abs_mul, abs_mul, abs_of_pos hA] at hs
  rw [le_div_iff₀ (mul_pos hA (by linarith)), show 2 * ((1 + eps K p) ^ (n + 16) - 1) * (2 * ∑ i, (t * d i) ^ 2 + 2 * X + s.r ^ 2) = 2 * E by simp only [E]; ring]
  have hsum : u1 - u0 ≤ |t - u0| + |t - u1| := by
    have := abs_sub (t - u0) (t - u1)
    rw [show t - u0 - (t - u1) = u1 - u0 by ring, abs_of_pos (by linarith)] at this
    exact this
  have hm : min |t - u0| |t - u1| * (u1 - u0) ≤ 2 * (|t - u0| * |t - u1|) := by
    have p0 := abs_nonneg (t - u0)
    have p1 := abs_nonneg (t - u1)
    rcases le_total |t - u0| |t - u1| with hle | hle
    · rw [min_eq_left hle]
      nlinarith
    · rw [min_eq_right hle]
      nlinarith
  have := mul_le_mul_of_nonneg_left hm hA.le
  linarith

omit [FloorRing K] in
/-- The sum of the roots. -/
theorem root_sum {a b c x0 x1 : K} (ha : a ≠ 0) (hx : ∀ x, a * x ^ 2 - 2 * b * x + c = 0 ↔ x = x0 ∨ x = x1) : a * (x0 + x1) = 2 * b := by
  have mir : ∀ x, (x = x0 ∨ x = x1) → (2 * b / a - x = x0 ∨ 2 * b / a - x = x1) := fun x h => by
    rw [← hx] at h ⊢
    field_simp
    linear_combination a * h
  have key : ∀ y z : K, 2 * b / a - y = z → a * (y + z) = 2 * b := fun y z h => by
    rw [← h]
    field_simp
    ring
  rcases mir x0 (.inl rfl) with h0 | h0
  · rcases mir x1 (.inr rfl) with h1 | h1
    · rw [add_comm]
      exact key _ _ h1
    · have e0 := key _ _ h0
      have e1 := key _ _ h1
      linear_combination e0 / 2 + e1 / 2
  · exact key _ _ h0

/-- How far an end can be from that of the exact chord from `u0` to `u1`. -/
def endError (p : ℕ) (s : Ball K n) (o d : Fin n → K) (u0 u1 t : K) : K :=
  2 * ((1 + eps K p) ^ (n + 16) - 1) * (2 * ∑ i, (t * d i) ^ 2 + 2 * ∑ i, (s.center i - o i) ^ 2 + s.r ^ 2) / ((∑ i, d i ^ 2) * (u1 - u0))

/-- **C123.** The lower end of the interval is near where the ray enters the sphere and the upper near where it leaves, each up to the
error of `C123_chord`, unless the chord is shorter than the errors of the two and of their sum. -/
theorem C123_interval (hp : 5 ≤ p) (h : IsRound p rnd) (hq : ∀ x, 0 ≤ x → 0 ≤ sqrt x ∧ sqrt x * sqrt x = x) {neg : Bool} {s : Ball K n} {o d : Fin n → K} (hd : d ≠ 0)
    {t0 t1 : K} (ht : ballIntersectRay rnd sqrt neg s o d = some (t0, t1)) {u0 u1 : K} (hu : u0 < u1)
    (h0 : ∑ i, (o i + u0 * d i - s.center i) ^ 2 = s.r ^ 2) (h1 : ∑ i, (o i + u1 * d i - s.center i) ^ 2 = s.r ^ 2) :
    (|t0 - u0| ≤ endError p s o d u0 u1 t0 ∧ |t1 - u1| ≤ endError p s o d u0 u1 t1) ∨
    u1 - u0 ≤ endError p s o d u0 u1 t0 + endError p s o d u0 u1 t1 +
      ((1 + eps K p) ^ (n + 8) - 1) * (|t0| + |t1| + 2 * (∑ i, |d i * (s.center i - o i)|) / ∑ i, d i ^ 2) := by
  have e0 := (eps_pos (K := K) p).le
  have hp1 : 1 ≤ p := by omega
  have m0 : min |t0 - u0| |t0 - u1| ≤ endError p s o d u0 u1 t0 := C123_chord hp h hq hd ht t0 (.inl rfl) hu h0 h1
  have m1 : min |t1 - u0| |t1 - u1| ≤ endError p s o d u0 u1 t1 := C123_chord hp h hq hd ht t1 (.inr rfl) hu h0 h1
  obtain ⟨hle, x0, x1, hx, n0, n1⟩ := C123_ends hp h hq ht
  have hA : 0 < ∑ i, d i ^ 2 := lt_of_le_of_ne (Finset.sum_nonneg fun i _ => sq_nonneg _) fun hc => hd ((sum_sq_zero d).1 hc.symm)
  have ha0 : mag2 rnd d ≠ 0 := fun hc => hd ((C104_mag2_zero hp1 h d).2.1 hc)
  have hsum := root_sum ha0 hx
  have ha := mag2_near hp1 h d
  have s0 := ha.mul e0 (end_near hp n0)
  have s1 := ha.mul e0 (end_near hp n1)
  have hb := (dot_sub_near hp1 h d s.center o).mono e0 (show n + 1 ≤ n + 8 by omega)
  have tot := ((s0.add s1).sub (hb.add hb)).1
  rw [show mag2 rnd d * x0 + mag2 rnd d * x1 - (dot rnd d (sub rnd s.center o) + dot rnd d (sub rnd s.center o)) = 0 by linear_combination hsum, zero_sub, abs_neg] at tot
  rw [line_sq] at h0 h1
  generalize endError p s o d u0 u1 t0 = η0 at *
  generalize endError p s o d u0 u1 t1 = η1 at *
  set A := ∑ i, d i ^ 2
  set B := ∑ i, d i * (s.center i - o i)
  set S := ∑ i, |d i * (s.center i - o i)|
  set g := (1 + eps K p) ^ (n + 8) - 1
  have hB : 2 * B = A * (u0 + u1) := by
    have : (u1 - u0) * (A * (u0 + u1) - 2 * B) = 0 := by linear_combination h1 - h0
    rcases mul_eq_zero.1 this with h | h
    · linarith
    · linarith
  have hδ : |t0 + t1 - (u0 + u1)| ≤ g * (|t0| + |t1| + 2 * S / A) := by
    have e1 : A * t0 + A * t1 - (B + B) = A * (t0 + t1 - (u0 + u1)) := by linear_combination -hB
    rw [e1, abs_mul, abs_of_pos hA] at tot
    have e2 : g * (A * |t0| + A * |t1| + (S + S)) = A * (g * (|t0| + |t1| + 2 * S / A)) := by
      field_simp
      ring
    rw [e2] at tot
    exact le_of_mul_le_mul_left tot hA
  obtain ⟨d1, d2⟩ := abs_le.1 hδ
  rcases min_le_iff.1 m0 with k0 | k0 <;> rcases min_le_iff.1 m1 with k1 | k1
  · right
    linarith [(abs_le.1 k0).2, (abs_le.1 k1).2]
  · exact .inl ⟨k0, k1⟩
  · right
    have := (abs_nonneg _).trans hδ
    linarith [(abs_le.1 k0).1, (abs_le.1 k1).2]
  · right
    linarith [(abs_le.1 k0).1, (abs_le.1 k1).1]

/-- The ray from the origin towards the sphere of radius one about (3, 4), in `float`: the ends 16/5 and 24/5 are rounded, and the points
there are near the sphere. -/
example : (ballIntersectRay (K := ℚ) (nearest 24) (fun x => if x = 25 / 4 then 5 / 2 else 0) false ⟨![3, 4], 1⟩ ![0, 0] ![3 / 4, 1]).map
      (fun t => ((t.1 - 16 / 5) * 2 ^ 24, (t.2 - 24 / 5) * 2 ^ 24, ((t.1 * (3 / 4) - 3) ^ 2 + (t.1 - 4) ^ 2 - 1) * 2 ^ 24)) =
    some (4 / 5, 16 / 5, -33554431 / 16777216) := by decide +kernel

end Geomc.Flt
