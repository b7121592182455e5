import Verif.Float.DistModel
import Verif.Float.Lerp
import Verif.Float.Ball
import Verif.Shape.Capsule

/-! # Property C126: distances to shapes in floating point -/

namespace Geomc.Flt

open Geomc.Vec (IsSqrt)
open Geomc.Shape (Ball Tube len clamp1)

variable {K : Type} [Field K] [LinearOrder K] [IsStrictOrderedRing K] [FloorRing K] {n p : ℕ} {rnd sqrt : K → K}

/-! ## Lengths -/

theorem sqrt_spec (hs : IsSqrt sqrt) (x : K) (hx : 0 ≤ x) : 0 ≤ sqrt x ∧ sqrt x * sqrt x = x := by
  refine ⟨?_, hs.sq x hx⟩
  rcases hx.eq_or_lt with h | h
  · rw [← h, hs.zero]
  · exact (hs.pos x h).le

theorem len_sq (hs : IsSqrt sqrt) (u : Fin n → K) : len sqrt u ^ 2 = ∑ i, u i ^ 2 := by
  rw [pow_two, Shape.len_mul_self hs]
  exact Finset.sum_congr rfl fun i _ => (pow_two _).symm

/-- A computed length. -/
theorem mag_near (hp : 1 ≤ p) (h : IsRound p rnd) (hs : IsSqrt sqrt) (u : Fin n → K) :
    Near (eps K p) (n + 2) (mag rnd sqrt u) (len sqrt u) (len sqrt u) := by
  have e0 := eps_pos (K := K) p
  have e1 := eps_le (K := K) hp
  have l0 := Shape.len_nonneg hs u
  refine ⟨?_, (abs_of_nonneg l0).le⟩
  obtain ⟨m0, a, b, _⟩ := C104_mag hp h (sqrt_spec hs) u
  rw [← len_sq hs] at a b
  change (1 - eps K p) ^ (n + 2) * _ ≤ _ at a
  change _ ≤ (1 + eps K p) ^ (n + 2) * _ at b
  have h1 : (1 : K) ≤ (1 + eps K p) ^ (n + 2) := one_le_pow₀ (by linarith)
  have h2 : (0 : K) ≤ (1 - eps K p) ^ (n + 2) := pow_nonneg (by linarith) _
  have h3 : (1 - eps K p) ^ (n + 2) ≤ 1 := pow_le_one₀ (by linarith) (by linarith)
  have up : mag rnd sqrt u ≤ (1 + eps K p) ^ (n + 2) * len sqrt u := by
    refine abs_le_of_sq_le_sq' ?_ (by positivity) |>.2
    rw [mul_pow]
    refine b.trans (mul_le_mul_of_nonneg_right ?_ (sq_nonneg _))
    nlinarith
  have lo : (1 - eps K p) ^ (n + 2) * len sqrt u ≤ mag rnd sqrt u := by
    refine abs_le_of_sq_le_sq' ?_ m0 |>.2
    rw [mul_pow]
    refine le_trans (mul_le_mul_of_nonneg_right ?_ (sq_nonneg _)) a
    nlinarith
  have hsym := mul_le_mul_of_nonneg_right (pow_sym e0.le (show eps K p ≤ 1 by linarith) (n + 2)) l0
  rw [abs_le]
  constructor <;> linarith

/-- A vector whose components are near those of another is near it in length. -/
theorem len_le_of_abs (hs : IsSqrt sqrt) {u v : Fin n → K} {c : K} (hc : 0 ≤ c) (h : ∀ i, |u i| ≤ c * |v i|) : len sqrt u ≤ c * len sqrt v := by
  refine abs_le_of_sq_le_sq' ?_ (mul_nonneg hc (Shape.len_nonneg hs v)) |>.2
  rw [mul_pow, len_sq hs, len_sq hs, Finset.mul_sum]
  refine Finset.sum_le_sum fun i _ => ?_
  rw [← sq_abs (u i), ← sq_abs (v i), ← mul_pow]
  exact pow_le_pow_left₀ (abs_nonneg _) (h i) 2

theorem len_abs (hs : IsSqrt sqrt) (u : Fin n → K) : len sqrt (fun i => |u i|) = len sqrt u := by
  refine le_antisymm ?_ ?_
  · have := len_le_of_abs hs (u := fun i => |u i|) (v := u) zero_le_one fun i => by rw [abs_abs, one_mul]
    rwa [one_mul] at this
  · have := len_le_of_abs hs (u := u) (v := fun i => |u i|) zero_le_one fun i => by rw [abs_abs, one_mul]
    rwa [one_mul] at this

theorem len_near (hs : IsSqrt sqrt) {u v : Fin n → K} : |len sqrt u - len sqrt v| ≤ len sqrt (u - v) := by
  rw [abs_le]
  have h1 := Shape.len_add_le hs (u - v) v
  have h2 := Shape.len_add_le hs (v - u) u
  rw [sub_add_cancel] at h1 h2
  rw [Shape.len_sub_comm hs] at h2
  constructor <;> linarith

/-- A computed distance. -/
theorem dist_near (hp : 1 ≤ p) (h : IsRound p rnd) (hs : IsSqrt sqrt) (u v : Fin n → K) :
    Near (eps K p) (n + 3) (mag rnd sqrt (sub rnd u v)) (len sqrt (u - v)) (len sqrt (u - v)) := by
  have e0 := eps_pos (K := K) p
  have l0 := Shape.len_nonneg hs (u - v)
  have h1 : Near (eps K p) 1 (len sqrt (sub rnd u v)) (len sqrt (u - v)) (len sqrt (u - v)) := by
    refine ⟨(len_near hs).trans ?_, (abs_of_nonneg l0).le⟩
    rw [pow_one, add_sub_cancel_left]
    exact len_le_of_abs hs e0.le fun i => h.rel hp _
  have h2 := (mag_near hp h hs (sub rnd u v)).1
  have h3 := h1.pow e0.le (l := n + 2) (z := mag rnd sqrt (sub rnd u v)) (by
    rwa [abs_of_nonneg (Shape.len_nonneg hs _)])
  rwa [show 1 + (n + 2) = n + 3 by omega] at h3

/-! ## Spheres -/

/-- **C126.** The signed distance to a sphere is within `n + 4` roundings of the exact one, in terms of the distance to the centre and the
radius. -/
theorem C126_sphere (hp : 1 ≤ p) (h : IsRound p rnd) (hs : IsSqrt sqrt) (s : Ball K n) (x : Fin n → K) :
    |ballSdf rnd sqrt s x - s.sdf sqrt x| ≤ ((1 + eps K p) ^ (n + 4) - 1) * (len sqrt (x - s.center) + |s.r|) :=
  (((dist_near hp h hs x s.center).sub ((Near.refl (eps K p) s.r).mono (eps_pos p).le (by omega))).round hp h le_rfl).1

/-- **C126.** It is negative exactly if the computed distance to the centre is less than the radius, zero if they are the same. -/
theorem C126_sphere_sign (hp : 1 ≤ p) (h : IsRound p rnd) (s : Ball K n) (x : Fin n → K) :
    (ballSdf rnd sqrt s x < 0 ↔ mag rnd sqrt (sub rnd x s.center) < s.r) ∧ (ballSdf rnd sqrt s x = 0 ↔ mag rnd sqrt (sub rnd x s.center) = s.r) := by
  rw [ballSdf, ← not_le, h.nonneg_iff hp, not_le, sub_neg, h.zero_iff hp, sub_eq_zero]
  exact ⟨Iff.rfl, Iff.rfl⟩

theorem add_round (hp : 1 ≤ p) (h : IsRound p rnd) {w z r Q : K} (hQ : 1 ≤ Q) (hz : |z| ≤ r) (hw : |w - z| ≤ (Q - 1) * |z|) (c : K) :
    |rnd (w + c) - (z + c)| ≤ ((1 + eps K p) * Q - 1) * (r + |c|) := by
  have e0 := eps_pos (K := K) p
  have h1 := h.rel hp (w + c)
  have h2 := abs_sub_le (rnd (w + c)) (w + c) (z + c)
  rw [show w + c - (z + c) = w - z by ring] at h2
  have h3 := abs_add_le w c
  have h4 := abs_sub_abs_le_abs_sub w z
  have h5 : |w| ≤ Q * |z| := by linarith
  have h6 : eps K p * |w + c| ≤ eps K p * (Q * |z| + |c|) := mul_le_mul_of_nonneg_left (by linarith) e0.le
  have h7 : eps K p ≤ (1 + eps K p) * Q - 1 := by nlinarith
  have h8 := mul_le_mul_of_nonneg_left hz (e0.le.trans h7)
  have h9 := mul_le_mul_of_nonneg_right h7 (abs_nonneg c)
  have h10 : ((1 + eps K p) * Q - 1) * |z| = (Q - 1) * |z| + eps K p * (Q * |z|) := by ring
  change _ ≤ eps K p * |w + c| at h1
  rw [mul_add] at h6 ⊢
  linarith

/-- **C126.** The projection to a sphere is right up to rounding in each coordinate: relative to the radius and to the centre. -/
theorem C126_sphere_project (hp : 1 ≤ p) (h : IsRound p rnd) (hs : IsSqrt sqrt) (hn : (1 + eps K p) ^ (n + 3) < 2) (s : Ball K n) (x : Fin n → K) :
    (x = s.center → ballProject rnd sqrt s x = none) ∧
    (x ≠ s.center → ∃ y z, ballProject rnd sqrt s x = some y ∧ s.project sqrt x = some z ∧
      ∀ i, |y i - z i| ≤ ((1 + eps K p) ^ 4 / (2 - (1 + eps K p) ^ (n + 3)) - 1) * (|s.r| + |s.center i|)) := by
  have e0 := eps_pos (K := K) p
  obtain ⟨_, _, _, hz⟩ := C104_mag hp h (sqrt_spec hs) (sub rnd x s.center)
  have hsub : sub rnd x s.center = 0 ↔ x = s.center := by
    constructor
    · intro hh
      funext i
      have := congrFun hh i
      rw [sub, Pi.zero_apply, h.zero_iff hp, sub_eq_zero] at this
      exact this
    · rintro rfl
      funext i
      rw [sub, sub_self, h.fix (float_zero p)]
      rfl
  constructor
  · intro hx
    rw [ballProject, unit]
    simp only [if_pos (hz.2 (hsub.2 hx)), Option.map_none]
  · intro hx
    have hne : mag rnd sqrt (sub rnd x s.center) ≠ 0 := fun hh => hx (hsub.1 (hz.1 hh))
    have hx' : x - s.center ≠ 0 := sub_ne_zero.2 hx
    have l0 := Shape.len_pos hs hx'
    have hun : Vec.unit sqrt (x - s.center) = some fun i => (x - s.center) i / len sqrt (x - s.center) := by
      rw [Vec.unit, if_neg]
      · rfl
      · exact l0.ne'
    refine ⟨fun i => rnd (rnd (rnd (sub rnd x s.center i / mag rnd sqrt (sub rnd x s.center)) * s.r) + s.center i), _,
      by rw [ballProject, unit]; simp only [if_neg hne, Option.map_some], by rw [Shape.Ball.project, hun, Option.map_some], fun i => ?_⟩
    simp only [Pi.sub_apply]
    set L := len sqrt (x - s.center) with hL
    have hmag := (dist_near hp h hs x s.center).1
    rw [← hL] at hmag
    set m := mag rnd sqrt (sub rnd x s.center)
    set d : K := (1 + eps K p) ^ (n + 3) - 1 with hd
    have hinv := near_inv (y := L) (y' := m) (d := d) (by linarith) (by rwa [abs_of_pos l0])
    have hdiff := h.rel hp (x i - s.center i)
    have h1 := near_mul hdiff hinv
    have h2 := near_round hp h h1
    have h3 := near_round hp h (near_mul h2 (show |s.r - s.r| ≤ 0 * |s.r| by simp))
    have hB : |(x i - s.center i) * L⁻¹ * s.r| ≤ |s.r| := by
      rw [abs_mul, abs_mul, abs_inv, abs_of_pos l0]
      have : |x i - s.center i| ≤ L := Shape.len_coord hs (x - s.center) i
      have h4 : |x i - s.center i| * L⁻¹ ≤ 1 := by
        rw [← div_eq_mul_inv, div_le_one l0]
        exact this
      nlinarith [abs_nonneg s.r]
    have d2 : 0 < 1 - d := by linarith
    set q : K := 1 / (1 - d) with hq
    have q1 : 1 ≤ q := by
      rw [hq, le_div_iff₀ d2]
      have : (1 : K) ≤ (1 + eps K p) ^ (n + 3) := one_le_pow₀ (by linarith)
      linarith
    have e4 : (1 + eps K p) ^ 4 / (2 - (1 + eps K p) ^ (n + 3)) = (1 + eps K p) ^ 4 * q := by
      rw [hq, mul_one_div]
      congr 1
      rw [hd]
      ring
    rw [e4, div_eq_mul_inv, div_eq_mul_inv]
    set z := (x i - s.center i) * L⁻¹ * s.r with hz'
    have hsub' : (sub rnd x s.center i) = rnd (x i - s.center i) := rfl
    rw [hsub']
    set w := rnd (rnd (rnd (x i - s.center i) * m⁻¹) * s.r) with hw
    -- collected: `w` is near `z`
    have h5 : |w - z| ≤ ((1 + eps K p) ^ 3 * q - 1) * |z| := by
      refine h3.trans (le_of_eq ?_)
      congr 1
      ring
    have p3 : (1 : K) ≤ (1 + eps K p) ^ 3 := one_le_pow₀ (by linarith)
    have h6 := add_round hp h (one_le_mul_of_one_le_of_one_le p3 q1) hB h5 (s.center i)
    rwa [show (1 + eps K p) * ((1 + eps K p) ^ 3 * q) = (1 + eps K p) ^ 4 * q by ring] at h6

/-! ## Capsules -/

theorem sum_abs_le_len (hs : IsSqrt sqrt) (u v : Fin n → K) : ∑ i, |u i * v i| ≤ len sqrt u * len sqrt v := by
  have := Shape.dot_le_len hs (fun i => |u i|) fun i => |v i|
  rw [len_abs hs, len_abs hs] at this
  refine le_trans (le_of_eq (Finset.sum_congr rfl fun i _ => abs_mul _ _)) this

theorem sum_near {e c : K} {k : ℕ} (hc : 1 ≤ c) {f' f X : Fin n → K} {z : K} (h : ∀ i, Near e k (f' i) (f i) (X i)) (hz : |z - ∑ i, f' i| ≤ (c - 1) * ∑ i, |f' i|) :
    |z - ∑ i, f i| ≤ ((1 + e) ^ k * c - 1) * ∑ i, X i := by
  have h1 := abs_sub_le z (∑ i, f' i) (∑ i, f i)
  have h2 : |∑ i, f' i - ∑ i, f i| ≤ ((1 + e) ^ k - 1) * ∑ i, X i := by
    rw [← Finset.sum_sub_distrib, Finset.mul_sum]
    exact (Finset.abs_sum_le_sum_abs _ _).trans (Finset.sum_le_sum fun i _ => (h i).1)
  have h3 : ∑ i, |f' i| ≤ (1 + e) ^ k * ∑ i, X i := by
    rw [Finset.mul_sum]
    exact Finset.sum_le_sum fun i _ => (h i).size
  have h4 := mul_le_mul_of_nonneg_left h3 (sub_nonneg.2 hc)
  linarith

/-- The computed dot product of two differences. -/
theorem dot_near (hp : 1 ≤ p) (h : IsRound p rnd) (hs : IsSqrt sqrt) (u v w z : Fin n → K) :
    |dot rnd (sub rnd u v) (sub rnd w z) - (u - v) ⬝ᵥ (w - z)| ≤ ((1 + eps K p) ^ (n + 2) - 1) * (len sqrt (u - v) * len sqrt (w - z)) := by
  have e0 := eps_pos (K := K) p
  have h1 : ∀ i, Near (eps K p) 2 (sub rnd u v i * sub rnd w z i) ((u - v) i * (w - z) i) |(u - v) i * (w - z) i| := fun i => by
    rw [abs_mul]
    exact (((Near.refl (eps K p) ((u - v) i)).round hp h le_rfl).mul e0.le ((Near.refl (eps K p) ((w - z) i)).round hp h le_rfl))
  have h2 := sum_near (c := (1 + eps K p) ^ n) (one_le_pow₀ (by linarith)) h1 (C104_dot hp h (sub rnd u v) (sub rnd w z))
  change _ ≤ ((1 + eps K p) ^ 2 * (1 + eps K p) ^ n - 1) * _ at h2
  rw [← pow_add, add_comm 2 n] at h2
  exact h2.trans (mul_le_mul_of_nonneg_left (sum_abs_le_len hs _ _) (sub_nonneg.2 (one_le_pow₀ (by linarith))))

/-- A computed quotient. -/
theorem ratio_near {N N' A B D' e t : K} (e0 : 0 ≤ e) (he : 6 * e ≤ t) (t1 : t ≤ 1 / 8) (hA : 0 < A) (hB : 0 ≤ B) (hN : |N| ≤ A * B)
    (h1 : |N' - N| ≤ t * (A * B)) (h2 : |D' - A * A| ≤ t * (A * A)) :
    |N' / D' - N / (A * A)| + e * |N' / D'| ≤ 3 * t * (B / A) := by
  have hD : 0 < A * A := mul_pos hA hA
  have d1 : (7 / 8) * (A * A) ≤ D' := by
    have := (abs_le.1 h2).1
    nlinarith
  have d0 : 0 < D' := by linarith
  have m1 : |N'| ≤ (9 / 8) * (A * B) := by
    have := abs_sub_abs_le_abs_sub N' N
    have : 0 ≤ A * B := by positivity
    nlinarith
  have i1 : N' / D' - N / (A * A) = ((N' - N) - N * (D' - A * A) / (A * A)) / D' := by
    field_simp
    ring
  have ht : 0 ≤ t := by linarith
  have i2 : |(N' - N) - N * (D' - A * A) / (A * A)| ≤ 2 * t * (A * B) := by
    have j1 : |N * (D' - A * A) / (A * A)| ≤ t * (A * B) := by
      rw [abs_div, abs_of_pos hD, div_le_iff₀ hD, abs_mul]
      have := mul_le_mul hN h2 (abs_nonneg _) (by positivity)
      linarith
    have := abs_sub (N' - N) (N * (D' - A * A) / (A * A))
    linarith
  have i3 : |N' / D' - N / (A * A)| ≤ 2 * t * (A * B) / D' := by
    rw [i1, abs_div, abs_of_pos d0]
    exact div_le_div_of_nonneg_right i2 d0.le
  have i4 : e * |N' / D'| ≤ e * ((9 / 8) * (A * B)) / D' := by
    rw [abs_div, abs_of_pos d0, ← mul_div_assoc]
    exact div_le_div_of_nonneg_right (mul_le_mul_of_nonneg_left m1 e0) d0.le
  have i5 : 3 * t * (B / A) = 3 * t * (A * B) / (A * A) := by
    field_simp
  refine (add_le_add i3 i4).trans ?_
  rw [← add_div, i5, div_le_div_iff₀ d0 hD]
  have j0 : 0 ≤ A * B := by positivity
  have j1 : 2 * t * (A * B) + e * (9 / 8 * (A * B)) ≤ (21 / 8) * t * (A * B) := by nlinarith
  have j2 := mul_le_mul_of_nonneg_right j1 hD.le
  have j3 := mul_le_mul_of_nonneg_left d1 (show 0 ≤ 3 * t * (A * B) by positivity)
  linarith

theorem six_eps : 6 * eps K p ≤ (1 + eps K p) ^ (n + 6) - 1 := by
  have e0 := eps_pos (K := K) p
  have h1 : 1 + ((6 : ℕ) : K) * eps K p ≤ (1 + eps K p) ^ 6 := one_add_mul_le_pow (by linarith) 6
  have h2 : (1 + eps K p) ^ 6 ≤ (1 + eps K p) ^ (n + 6) := pow_le_pow_right₀ (by linarith) (by omega)
  push_cast at h1
  linarith

theorem clamp_near (x y : K) : |clamp1 x 0 1 - clamp1 y 0 1| ≤ |x - y| := by
  rw [Shape.clamp1_eq, Shape.clamp1_eq]
  refine (abs_max_sub_max_le_max _ _ _ _).trans (max_le (by rw [sub_self, abs_zero]; exact abs_nonneg _) ?_)
  exact (abs_min_sub_min_le_max _ _ _ _).trans (max_le (by rw [sub_self, abs_zero]; exact abs_nonneg _) le_rfl)

/-- **C126.** The signed distance to a capsule has an absolute error of at most about `4 (n + 6)` units in the last place of the distance to the
base, the length of the axis and the radius together. -/
theorem C126_capsule (hp : 1 ≤ p) (h : IsRound p rnd) (hs : IsSqrt sqrt) (hn : (1 + eps K p) ^ (n + 6) ≤ 9 / 8) (c : Tube K n) (x : Fin n → K) :
    (c.p0 = c.p1 → capSdf rnd sqrt c x = none) ∧
    (c.p0 ≠ c.p1 → ∃ s' s, capSdf rnd sqrt c x = some s' ∧ c.capSdf sqrt x = some s ∧
      |s' - s| ≤ 4 * ((1 + eps K p) ^ (n + 6) - 1) * (len sqrt (x - c.p0) + len sqrt (c.p1 - c.p0) + |c.radius|)) := by
  have e0 := eps_pos (K := K) p
  have e1 := eps_le (K := K) hp
  have hd := C104_dist2 hp h c.p1 c.p0
  rw [show dist2 rnd c.p1 c.p0 = mag2 rnd (sub rnd c.p1 c.p0) from rfl] at hd
  constructor
  · intro hc
    simp only [capSdf]
    rw [if_pos (hd.2.2.2 hc.symm)]
  · intro hc
    have hA := Shape.len_pos hs (sub_ne_zero.2 (Ne.symm hc))
    have hB := Shape.len_nonneg hs (x - c.p0)
    refine ⟨_, _, by simp only [capSdf]; rw [if_neg fun hh => hc (hd.2.2.1 hh).symm], Shape.capSdf_eq c hc x, ?_⟩
    set B := len sqrt (x - c.p0) with hBd
    set A := len sqrt (c.p1 - c.p0) with hAd
    set t : K := (1 + eps K p) ^ (n + 6) - 1 with ht
    have ht6 : 6 * eps K p ≤ t := six_eps
    have htk : ∀ k ≤ n + 6, (1 + eps K p) ^ k - 1 ≤ t := fun k hk => sub_le_sub_right (pow_le_pow_right₀ (by linarith) hk) 1
    -- the parameter along the axis
    set q' := dot rnd (sub rnd x c.p0) (sub rnd c.p1 c.p0) / mag2 rnd (sub rnd c.p1 c.p0) with hq'
    set f' := clamp1 (rnd q') 0 1 with hf'
    have hN : |(x - c.p0) ⬝ᵥ (c.p1 - c.p0)| ≤ A * B := by
      rw [mul_comm A B]
      exact (Finset.abs_sum_le_sum_abs _ _).trans (sum_abs_le_len hs _ _)
    have hN' := (dot_near hp h hs x c.p0 c.p1 c.p0).trans (mul_le_mul_of_nonneg_right (htk _ (by omega)) (by positivity))
    rw [← hBd, ← hAd, mul_comm B A] at hN'
    have hD' : |mag2 rnd (sub rnd c.p1 c.p0) - A * A| ≤ t * (A * A) := by
      have h1 := (dot_near hp h hs c.p1 c.p0 c.p1 c.p0).trans (mul_le_mul_of_nonneg_right (htk _ (by omega)) (by positivity))
      rw [← Shape.len_mul_self hs, ← hAd] at h1
      exact h1
    have hq := ratio_near e0.le ht6 (by linarith) hA hB hN hN' hD'
    rw [← hq'] at hq
    have hff : |f' - c.frac x| ≤ 3 * t * (B / A) := by
      rw [hf', Shape.Tube.frac]
      refine (clamp_near _ _).trans ?_
      have h1 := abs_sub_le (rnd q') q' (Vec.dot (x - c.p0) c.axis / Vec.mag2 c.axis)
      have h2 := h.rel hp q'
      change _ ≤ eps K p * |q'| at h2
      rw [show Vec.dot (x - c.p0) c.axis / Vec.mag2 c.axis = (x - c.p0) ⬝ᵥ (c.p1 - c.p0) / (A * A) by
        rw [Vec.mag2_eq, Vec.dot_eq, hAd, Shape.len_mul_self hs]; rfl] at h1 ⊢
      linarith
    have hf1 : |f'| ≤ 1 := by
      rw [hf', Shape.clamp1_eq, abs_of_nonneg (le_max_left _ _)]
      exact max_le zero_le_one (min_le_left _ _)
    -- the vector from the axis
    set v' : Fin n → K := fun i => rnd (sub rnd x c.p0 i - rnd (f' * sub rnd c.p1 c.p0 i)) with hv'
    set w : Fin n → K := (x - c.p0) - f' • (c.p1 - c.p0) with hw
    have hvi : ∀ i, Near (eps K p) 3 (v' i) (w i) (|(x - c.p0) i| + |(c.p1 - c.p0) i|) := fun i => by
      have h1 := ((Near.refl (eps K p) ((x - c.p0) i)).round hp h le_rfl).mono e0.le (show 0 + 1 ≤ 2 by omega)
      have h2 : Near (eps K p) 2 (rnd (f' * sub rnd c.p1 c.p0 i)) (f' * (c.p1 - c.p0) i) (|f'| * |(c.p1 - c.p0) i|) :=
        ((Near.refl (eps K p) f').mul e0.le ((Near.refl (eps K p) ((c.p1 - c.p0) i)).round hp h le_rfl)).round hp h le_rfl
      have h3 := h2.weaken e0.le (Z := |(c.p1 - c.p0) i|) (mul_le_of_le_one_left (abs_nonneg _) hf1)
      exact (h1.sub h3).round hp h le_rfl
    have hAB : len sqrt (fun i => |(x - c.p0) i| + |(c.p1 - c.p0) i|) ≤ B + A := by
      have := Shape.len_add_le hs (fun i => |(x - c.p0) i|) (fun i => |(c.p1 - c.p0) i|)
      rwa [len_abs hs, len_abs hs] at this
    have k3 : (0 : K) ≤ (1 + eps K p) ^ 3 - 1 := sub_nonneg.2 (one_le_pow₀ (by linarith))
    have hvw : Near (eps K p) 3 (len sqrt v') (len sqrt w) (B + A) := by
      constructor
      · refine (len_near hs).trans ((len_le_of_abs hs (v := fun i => |(x - c.p0) i| + |(c.p1 - c.p0) i|) k3 fun i => ?_).trans
          (mul_le_mul_of_nonneg_left hAB k3))
        rw [abs_of_nonneg (show 0 ≤ |(x - c.p0) i| + |(c.p1 - c.p0) i| by positivity)]
        exact (hvi i).1
      · rw [abs_of_nonneg (Shape.len_nonneg hs w)]
        refine le_trans ?_ hAB
        have := len_le_of_abs hs (u := w) (v := fun i => |(x - c.p0) i| + |(c.p1 - c.p0) i|) zero_le_one fun i => by
          rw [one_mul, abs_of_nonneg (show 0 ≤ |(x - c.p0) i| + |(c.p1 - c.p0) i| by positivity)]
          exact (hvi i).2
        rwa [one_mul] at this
    have hm := hvw.pow e0.le (l := n + 2) (z := mag rnd sqrt v') (by
      have := (mag_near hp h hs v').1
      rwa [abs_of_nonneg (Shape.len_nonneg hs _)])
    have hr := ((hm.sub ((Near.refl (eps K p) c.radius).mono e0.le (show 0 ≤ 3 + (n + 2) by omega))).round hp h le_rfl).1
    rw [show 3 + (n + 2) + 1 = n + 6 by omega, ← ht] at hr
    -- the effect of the parameter
    have hwd : |len sqrt w - c.dseg sqrt x| ≤ 3 * t * B := by
      have h1 : x - c.foot x = (x - c.p0) - c.frac x • (c.p1 - c.p0) := by
        rw [Shape.Tube.foot]
        abel
      rw [Shape.Tube.dseg, h1]
      refine (len_near hs).trans ?_
      rw [hw, show (x - c.p0) - f' • (c.p1 - c.p0) - ((x - c.p0) - c.frac x • (c.p1 - c.p0)) = (c.frac x - f') • (c.p1 - c.p0) by
        rw [sub_smul]; abel, Shape.len_smul hs, abs_sub_comm, ← hAd]
      have := mul_le_mul_of_nonneg_right hff hA.le
      rwa [mul_assoc (3 * t), div_mul_cancel₀ _ hA.ne'] at this
    have hfin := abs_sub_le (rnd (mag rnd sqrt v' - c.radius)) (len sqrt w - c.radius) (c.dseg sqrt x - c.radius)
    rw [show len sqrt w - c.radius - (c.dseg sqrt x - c.radius) = len sqrt w - c.dseg sqrt x by ring] at hfin
    have t0 : 0 ≤ t := by linarith
    have hA' := mul_nonneg t0 hA.le
    have hR' := mul_nonneg t0 (abs_nonneg c.radius)
    linarith

/-! ## Cylinders -/

theorem dot_single (h : IsRound p rnd) (x y : K) : dot rnd (Pi.single (0 : Fin (n + 1)) x) (Pi.single 0 y) = rnd (x * y) := by
  have h1 : ∀ (l : List (Fin n)) {z : K}, IsFloat p z →
      (l.map Fin.succ).foldl (fun sum i => multiplyAdd rnd ((Pi.single (0 : Fin (n + 1)) x : Fin (n + 1) → K) i) ((Pi.single 0 y : Fin (n + 1) → K) i) sum) z = z := by
    intro l
    induction l with
    | nil => exact fun _ => rfl
    | cons i l ih =>
      intro z hz
      rw [List.map_cons, List.foldl_cons]
      simp only [Pi.single_apply, Fin.succ_ne_zero, if_false] at ih ⊢
      rw [multiplyAdd, zero_mul, zero_add, h.fix hz]
      exact ih hz
  rw [dot, List.finRange_succ, List.foldl_cons]
  simp only [Pi.single_eq_same, multiplyAdd, add_zero]
  exact h1 _ (h.mem _)

theorem sub_single (h : IsRound p rnd) {x : K} (hx : IsFloat p x) : sub rnd (Pi.single (0 : Fin (n + 1)) x) 0 = Pi.single 0 x := by
  funext i
  rw [sub, Pi.zero_apply, sub_zero, Pi.single_apply]
  split_ifs
  · exact h.fix hx
  · exact h.fix (float_zero p)

/-- The numbers of the counterexample. -/
theorem cyl_nums (hp : 11 ≤ p) (h : IsRound p rnd) : ∃ a b : K, IsFloat p a ∧ IsFloat p b ∧ 0 < b ∧ b < a ∧
    0 < rnd (a * a) ∧ rnd (b * b) < rnd (rnd (a * b) * rnd (rnd (a * b) / rnd (a * a))) ∧ 0 ≤ rnd (a * b) ∧ rnd (b * b) ≤ 1 ∧
    0 ≤ rnd (rnd (rnd (a * b) * rnd (a * b)) / rnd (a * a)) ∧ rnd (rnd (rnd (a * b) * rnd (a * b)) / rnd (a * a)) < rnd (a * a) := by
  have hp1 : 1 ≤ p := by omega
  obtain ⟨m, rfl⟩ : ∃ m, p = m + 4 := ⟨p - 4, by omega⟩
  set u : K := 2 ^ (-((m + 4 : ℕ) : ℤ)) with hu
  set R : ℤ := 2 ^ m with hR
  have hR1 : 128 ≤ R := by
    have : (2 : ℤ) ^ 7 ≤ 2 ^ m := pow_le_pow_right₀ (by norm_num) (by omega)
    linarith
  have hP : (2 : ℤ) ^ (m + 4) = 16 * R := by
    rw [pow_add, ← hR]
    ring
  have hRu : (16 * (R : K)) * u = 1 := by
    have h1 : (16 * (R : K)) = 2 ^ ((m + 4 : ℕ) : ℤ) := by
      rw [zpow_natCast]
      exact_mod_cast hP.symm
    rw [h1, hu, ← zadd, add_neg_cancel, zpow_zero]
  have u0 : 0 < u := two_zpow_pos _
  have u1 : u ≤ 1 / 2048 := by
    have : (128 : K) ≤ R := by exact_mod_cast hR1
    nlinarith
  have e1 : (2 : K) ^ (0 + 1 - ((m + 4 : ℕ) : ℤ)) = 2 * u := by
    rw [show (0 + 1 - ((m + 4 : ℕ) : ℤ)) = 1 + -((m + 4 : ℕ) : ℤ) by ring, zadd, zpow_one]
  have e2 : (2 : K) ^ (1 + 1 - ((m + 4 : ℕ) : ℤ)) = 4 * u := by
    rw [show (1 + 1 - ((m + 4 : ℕ) : ℤ)) = 2 + -((m + 4 : ℕ) : ℤ) by ring, zadd, show (2 : K) ^ (2 : ℤ) = 4 by norm_num]
  have f1 : ∀ k : ℤ, |k| ≤ 16 * R → IsFloat (m + 4) ((k : K) * (2 * u)) := fun k hk => by
    rw [← e1]
    exact mem_le hp1 k _ (by rwa [hP])
  have f0 : ∀ k : ℤ, |k| ≤ 16 * R → IsFloat (m + 4) ((k : K) * u) := fun k hk => mem_le hp1 k _ (by rwa [hP])
  have f2 : ∀ k : ℤ, |k| ≤ 16 * R → IsFloat (m + 4) ((k : K) * (4 * u)) := fun k hk => by
    rw [← e2]
    exact mem_le hp1 k _ (by rwa [hP])
  have fa : IsFloat (m + 4) (3 / 2 - 4 * u) := by
    have := f1 (12 * R - 2) (by rw [abs_of_nonneg (by omega)]; omega)
    push_cast at this
    rwa [show (12 * (R : K) - 2) * (2 * u) = 3 / 2 - 4 * u by linear_combination (3 / 2) * hRu] at this
  have fb : IsFloat (m + 4) (1 - 2 * u) := by
    have := f1 (8 * R - 1) (by rw [abs_of_nonneg (by omega)]; omega)
    push_cast at this
    rwa [show (8 * (R : K) - 1) * (2 * u) = 1 - 2 * u by linear_combination hRu] at this
  have fA : IsFloat (m + 4) (9 / 4 - 12 * u) := by
    have := f2 (9 * R - 3) (by rw [abs_of_nonneg (by omega)]; omega)
    push_cast at this
    rwa [show (9 * (R : K) - 3) * (4 * u) = 9 / 4 - 12 * u by linear_combination (9 / 4) * hRu] at this
  have fB : IsFloat (m + 4) (1 - 4 * u) := by
    have := f1 (8 * R - 2) (by rw [abs_of_nonneg (by omega)]; omega)
    push_cast at this
    rwa [show (8 * (R : K) - 2) * (2 * u) = 1 - 4 * u by linear_combination hRu] at this
  have fG : IsFloat (m + 4) (1 - 3 * u) := by
    have := f0 (16 * R - 3) (by rw [abs_of_nonneg (by omega)]; omega)
    push_cast at this
    rwa [show (16 * (R : K) - 3) * u = 1 - 3 * u by linear_combination hRu] at this
  have f94 : IsFloat (m + 4) (9 / 4 : K) := by
    have := f2 (9 * R) (by rw [abs_of_nonneg (by omega)]; omega)
    push_cast at this
    rwa [show (9 * (R : K)) * (4 * u) = 9 / 4 by linear_combination (9 / 4) * hRu] at this
  have one : IsFloat (m + 4) (1 : K) := by simpa using float_pow (K := K) hp1 0
  have two : IsFloat (m + 4) (2 : K) := by simpa using float_pow (K := K) hp1 1
  have uu : u * u ≤ u / 2048 := by nlinarith
  have uu0 : 0 < u * u := mul_pos u0 u0
  -- the product
  have hD : rnd ((3 / 2 - 4 * u) * (1 - 2 * u)) = 3 / 2 - 6 * u := by
    have h1 := h.eq_of_near hp1 (x := (3 / 2 - 4 * u) * (1 - 2 * u)) (E := 0) (12 * R - 3) (by rw [zpow_zero]; nlinarith) (by
      rw [e1]
      exact f1 _ (by rw [abs_of_nonneg (by omega)]; omega)) (by
      rw [e1, zero_sub, ← hu]
      push_cast
      rw [show (3 / 2 - 4 * u) * (1 - 2 * u) - (12 * (R : K) - 3) * (2 * u) = -u + 8 * (u * u) by linear_combination (-(3 / 2)) * hRu, abs_lt]
      constructor <;> linarith)
    rw [h1, e1]
    push_cast
    linear_combination (3 / 2) * hRu
  refine ⟨3 / 2 - 4 * u, 1 - 2 * u, fa, fb, by linarith, by linarith, ?_⟩
  rw [hD]
  set a2 := rnd ((3 / 2 - 4 * u) * (3 / 2 - 4 * u)) with ha2
  have a2l : 2 ≤ a2 := h.ge_of_ge two (by nlinarith)
  have a2u : a2 ≤ 9 / 4 - 12 * u + 32 * (u * u) := by
    have h1 := h.near ((3 / 2 - 4 * u) * (3 / 2 - 4 * u)) _ fA
    rw [← ha2, show 9 / 4 - 12 * u - (3 / 2 - 4 * u) * (3 / 2 - 4 * u) = -(16 * (u * u)) by ring, abs_neg, abs_of_nonneg (show 0 ≤ 16 * (u * u) by linarith)] at h1
    have := (abs_le.1 h1).2
    linarith
  have b2u : rnd ((1 - 2 * u) * (1 - 2 * u)) ≤ 1 - 4 * u + 8 * (u * u) := by
    have h1 := h.near ((1 - 2 * u) * (1 - 2 * u)) _ fB
    rw [show 1 - 4 * u - (1 - 2 * u) * (1 - 2 * u) = -(4 * (u * u)) by ring, abs_neg, abs_of_nonneg (show 0 ≤ 4 * (u * u) by linarith)] at h1
    have := (abs_le.1 h1).2
    linarith
  have a0 : 0 < a2 := by linarith
  set D : K := 3 / 2 - 6 * u with hDd
  have D0 : 0 < D := by linarith
  have DD : D * D = 9 / 4 - 18 * u + 36 * (u * u) := by
    rw [hDd]
    ring
  refine ⟨a0, ?_, D0.le, by linarith, ?_, ?_⟩
  · have q1 : D / a2 ≤ 1 := by
      rw [div_le_one a0]
      linarith
    have q0 : 0 ≤ D / a2 := by positivity
    have hs := round_err hp1 (h.near (D / a2)) (E := -1) (by
      rw [abs_of_nonneg q0, show (-1 : ℤ) + 1 = 0 by ring, zpow_zero]
      exact q1)
    have e3 : (2 : K) ^ (-1 - ((m + 4 : ℕ) : ℤ)) = u / 2 := by
      rw [sub_eq_add_neg, zadd, show (2 : K) ^ (-1 : ℤ) = 1 / 2 by norm_num]
      ring
    rw [e3] at hs
    set s := rnd (D / a2) with hsd
    have s1 : D / a2 - u / 2 ≤ s := by linarith [(abs_le.1 hs).1]
    have dq : 1 - (274 / 100) * u ≤ D * (D / a2) := by
      rw [← mul_div_assoc, le_div_iff₀ a0, DD]
      have c1 : 0 ≤ 1 - (274 / 100) * u := by linarith
      have c2 := mul_le_mul_of_nonneg_left a2u c1
      have c3 : 0 < u * (u * u) := mul_pos u0 uu0
      have c4 : (1 - 274 / 100 * u) * (9 / 4 - 12 * u + 32 * (u * u)) =
          9 / 4 - (18165 / 1000) * u + (6488 / 100) * (u * u) - (8768 / 100) * (u * (u * u)) := by ring
      linarith
    have ds : 1 - (349 / 100) * u ≤ D * s := by
      have c1 := mul_le_mul_of_nonneg_left s1 D0.le
      have c2 : D * (u / 2) ≤ 3 / 2 * (u / 2) := mul_le_mul_of_nonneg_right (by linarith) (by linarith)
      rw [mul_sub] at c1
      linarith
    refine lt_of_le_of_lt b2u ?_
    rcases le_total (1 - 3 * u) (D * s) with hc | hc
    · have := h.ge_of_ge fG hc
      linarith
    · have h1 := h.near (D * s) _ fG
      rw [abs_of_nonneg (show 0 ≤ 1 - 3 * u - D * s by linarith)] at h1
      have := (abs_le.1 h1).1
      linarith
  · exact (h.nonneg_iff hp1 _).2 (div_nonneg ((h.nonneg_iff hp1 _).2 (by positivity)) a0.le)
  · have h1 : rnd (D * D) ≤ 9 / 4 := h.le_of_le f94 (by linarith)
    have f98 : IsFloat (m + 4) (9 / 8 : K) := by
      have := f1 (9 * R) (by rw [abs_of_nonneg (by omega)]; omega)
      push_cast at this
      rwa [show (9 * (R : K)) * (2 * u) = 9 / 8 by linear_combination (9 / 8) * hRu] at this
    refine lt_of_le_of_lt (h.le_of_le (y := 9 / 8) f98 ?_) (by linarith)
    rw [div_le_iff₀ a0]
    linarith

/-- **C126** refuted for cylinders: in every format of eleven bits or more and in every dimension there are a cylinder and a point on its axis,
strictly between its caps and reported to be contained in it, whose signed distance is not a number: the root of a negative number is taken. -/
theorem C126_cylinder_refuted (hp : 11 ≤ p) (h : IsRound p rnd) (n : ℕ) : ∃ (c : Tube K (n + 1)) (t : K), 0 < t ∧ t < 1 ∧ c.radius = 1 ∧
    (∀ i, IsFloat p (c.p0 i) ∧ IsFloat p (c.p1 i) ∧ IsFloat p ((c.p0 + t • (c.p1 - c.p0)) i)) ∧
    cylContains rnd c (c.p0 + t • (c.p1 - c.p0)) = some true ∧ cylSdf rnd sqrt c (c.p0 + t • (c.p1 - c.p0)) = none := by
  have hp1 : 1 ≤ p := by omega
  obtain ⟨a, b, fa, fb, b0, ba, a2, bx, d0, b21, x0, xa⟩ := cyl_nums (K := K) hp h
  have a0 : 0 < a := b0.trans ba
  have one : IsFloat p (1 : K) := by simpa using float_pow (K := K) hp1 0
  have fs : ∀ {x : K}, IsFloat p x → ∀ i, IsFloat p ((Pi.single (0 : Fin (n + 1)) x : Fin (n + 1) → K) i) := fun {x} hx i => by
    rw [Pi.single_apply]
    split_ifs
    · exact hx
    · exact float_zero p
  have e : (0 : Fin (n + 1) → K) + (b / a) • (Pi.single 0 a - 0) = Pi.single 0 b := by
    rw [zero_add, sub_zero, ← Pi.single_smul, smul_eq_mul, div_mul_cancel₀ _ a0.ne']
  refine ⟨⟨0, Pi.single 0 a, 1⟩, b / a, div_pos b0 a0, (div_lt_one a0).2 ba, rfl, ?_, ?_, ?_⟩
  · intro i
    simp only [e]
    exact ⟨float_zero p, fs fa i, fs fb i⟩
  · simp only [e, cylContains, sub_single h fa, sub_single h fb, C104_mag2_dot, dot_single h]
    rw [if_neg a2.ne']
    simp only [mul_one, h.fix one, Option.some.injEq, Bool.and_eq_true, decide_eq_true_eq]
    exact ⟨h.le_of_le one (by linarith), xa, d0⟩
  · simp only [e, cylSdf, sub_single h fa, sub_single h fb, C104_mag2_dot, dot_single h]
    rw [if_neg a2.ne', if_pos]
    rw [← not_le, h.nonneg_iff hp1, not_le]
    linarith

theorem foot_far (hs : IsSqrt sqrt) (c : Tube K n) (hc : c.p0 ≠ c.p1) (x : Fin n → K) {y : K}
    (h : y ≤ len sqrt (x - (c.p0 + ((c.p1 - c.p0) ⬝ᵥ (x - c.p0) / (len sqrt (c.p1 - c.p0) * len sqrt (c.p1 - c.p0))) • (c.p1 - c.p0))) ^ 2) :
    y ≤ len sqrt (x - c.p0) * len sqrt (x - c.p0) - (c.p1 - c.p0) ⬝ᵥ (x - c.p0) * ((c.p1 - c.p0) ⬝ᵥ (x - c.p0) / (len sqrt (c.p1 - c.p0) * len sqrt (c.p1 - c.p0))) := by
  have hA := Shape.len_pos hs (sub_ne_zero.2 (Ne.symm hc))
  refine h.trans (le_of_eq ?_)
  rw [← sub_sub]
  generalize x - c.p0 = b at *
  generalize c.p1 - c.p0 = a at *
  rw [pow_two, Shape.len_mul_self hs (b - _), Shape.len_mul_self hs b, sub_dotProduct, dotProduct_sub, dotProduct_sub, smul_dotProduct,
    smul_dotProduct, dotProduct_smul, dotProduct_smul, dotProduct_comm b a, ← Shape.len_mul_self hs a]
  simp only [smul_eq_mul]
  field_simp
  ring

theorem prod_near {N N' A B e t q' : K} (e0 : 0 ≤ e) (he : 6 * e ≤ t) (t1 : t ≤ 1 / 8) (hA : 0 < A) (hB : 0 ≤ B) (hN : |N| ≤ A * B)
    (h1 : |N' - N| ≤ t * (A * B)) (hq : |q' - N / (A * A)| ≤ 3 * t * (B / A)) :
    N' * q' + e * |N' * q'| ≤ N * (N / (A * A)) + 5 * t * (B * B) := by
  have t0 : 0 ≤ t := by linarith
  have q1 : |N / (A * A)| ≤ B / A := by
    rw [abs_div, abs_of_pos (mul_pos hA hA), div_le_div_iff₀ (mul_pos hA hA) hA]
    nlinarith
  have m1 : |N'| ≤ (9 / 8) * (A * B) := by
    have := abs_sub_abs_le_abs_sub N' N
    have : 0 ≤ A * B := by positivity
    nlinarith
  have e1 : A * B * (B / A) = B * B := by
    field_simp
  have h2 : |N' * (q' - N / (A * A))| ≤ (9 / 8) * (A * B) * (3 * t * (B / A)) := by
    rw [abs_mul]
    exact mul_le_mul m1 hq (abs_nonneg _) (by positivity)
  have h3 : |(N' - N) * (N / (A * A))| ≤ t * (A * B) * (B / A) := by
    rw [abs_mul]
    exact mul_le_mul h1 q1 (abs_nonneg _) (by positivity)
  have q2 : |q'| ≤ (11 / 8) * (B / A) := by
    have := abs_sub_abs_le_abs_sub q' (N / (A * A))
    have : 0 ≤ B / A := by positivity
    nlinarith
  have h4 : e * |N' * q'| ≤ e * ((9 / 8) * (A * B) * ((11 / 8) * (B / A))) := by
    refine mul_le_mul_of_nonneg_left ?_ e0
    rw [abs_mul]
    exact mul_le_mul m1 q2 (abs_nonneg _) (by positivity)
  rw [show (9 / 8) * (A * B) * (3 * t * (B / A)) = (27 / 8) * t * (A * B * (B / A)) by ring, e1] at h2
  rw [show t * (A * B) * (B / A) = t * (A * B * (B / A)) by ring, e1] at h3
  rw [show e * ((9 / 8) * (A * B) * ((11 / 8) * (B / A))) = (99 / 64) * (e * (A * B * (B / A))) by ring, e1] at h4
  have h5 : N' * q' - N * (N / (A * A)) = N' * (q' - N / (A * A)) + (N' - N) * (N / (A * A)) := by ring
  have h6 := (abs_le.1 h2).2
  have h7 := (abs_le.1 h3).2
  have h8 := mul_le_mul_of_nonneg_right he (mul_nonneg hB hB)
  have h9 := mul_nonneg t0 (mul_nonneg hB hB)
  linarith

/-- **C126.** Away from its axis, the signed distance to a cylinder is defined: if the square of the distance to the line through the axis is more than a
few units in the last place of the square of the distance to the base.  Missing: points near to the axis, for which it is refuted. -/
theorem C126_cylinder_partial (hp : 1 ≤ p) (h : IsRound p rnd) (hs : IsSqrt sqrt) (hn : (1 + eps K p) ^ (n + 6) ≤ 9 / 8) (c : Tube K n) (x : Fin n → K) :
    (c.p0 = c.p1 → cylSdf rnd sqrt c x = none) ∧
    (c.p0 ≠ c.p1 → (∀ t : K, 6 * ((1 + eps K p) ^ (n + 6) - 1) * len sqrt (x - c.p0) ^ 2 ≤ len sqrt (x - (c.p0 + t • (c.p1 - c.p0))) ^ 2) →
      (cylSdf rnd sqrt c x).isSome) := by
  have e0 := eps_pos (K := K) p
  have e1 := eps_le (K := K) hp
  have hd := C104_dist2 hp h c.p1 c.p0
  rw [show dist2 rnd c.p1 c.p0 = mag2 rnd (sub rnd c.p1 c.p0) from rfl] at hd
  constructor
  · intro hc
    simp only [cylSdf]
    rw [if_pos (hd.2.2.2 hc.symm)]
  · intro hc hfar
    have hA := Shape.len_pos hs (sub_ne_zero.2 (Ne.symm hc))
    have hB := Shape.len_nonneg hs (x - c.p0)
    simp only [cylSdf]
    rw [if_neg fun hh => hc (hd.2.2.1 hh).symm, if_neg]
    · rfl
    rw [not_lt, h.nonneg_iff hp]
    set B := len sqrt (x - c.p0) with hBd
    set A := len sqrt (c.p1 - c.p0) with hAd
    set t : K := (1 + eps K p) ^ (n + 6) - 1 with ht
    have ht6 : 6 * eps K p ≤ t := six_eps
    have htk : ∀ k ≤ n + 6, (1 + eps K p) ^ k - 1 ≤ t := fun k hk => sub_le_sub_right (pow_le_pow_right₀ (by linarith) hk) 1
    have hN : |(c.p1 - c.p0) ⬝ᵥ (x - c.p0)| ≤ A * B := (Finset.abs_sum_le_sum_abs _ _).trans (sum_abs_le_len hs _ _)
    have hN' := (dot_near hp h hs c.p1 c.p0 x c.p0).trans (mul_le_mul_of_nonneg_right (htk _ (by omega)) (by positivity))
    rw [← hBd, ← hAd] at hN'
    have hD' : |mag2 rnd (sub rnd c.p1 c.p0) - A * A| ≤ t * (A * A) := by
      have h1 := (dot_near hp h hs c.p1 c.p0 c.p1 c.p0).trans (mul_le_mul_of_nonneg_right (htk _ (by omega)) (by positivity))
      rw [← Shape.len_mul_self hs, ← hAd] at h1
      exact h1
    have hB' : |mag2 rnd (sub rnd x c.p0) - B * B| ≤ t * (B * B) := by
      have h1 := (dot_near hp h hs x c.p0 x c.p0).trans (mul_le_mul_of_nonneg_right (htk _ (by omega)) (by positivity))
      rw [← Shape.len_mul_self hs, ← hBd] at h1
      exact h1
    have hq := ratio_near e0.le ht6 (by linarith) hA hB hN hN' hD'
    have hx := foot_far hs c hc x (hfar ((c.p1 - c.p0) ⬝ᵥ (x - c.p0) / (A * A)))
    rw [← hBd, ← hAd] at hx
    set N := (c.p1 - c.p0) ⬝ᵥ (x - c.p0)
    set N' := dot rnd (sub rnd c.p1 c.p0) (sub rnd x c.p0)
    set q' := N' / mag2 rnd (sub rnd c.p1 c.p0)
    have hr : |rnd q' - N / (A * A)| ≤ 3 * t * (B / A) := by
      have h1 := abs_sub_le (rnd q') q' (N / (A * A))
      have h2 := h.rel hp q'
      change _ ≤ eps K p * |q'| at h2
      linarith
    have hx2 := prod_near e0.le ht6 (by linarith) hA hB hN hN' hr
    have h3 := h.rel hp (N' * rnd q')
    change _ ≤ eps K p * _ at h3
    have h4 := (abs_le.1 h3).2
    have h5 := (abs_le.1 hB').1
    linarith

/-- With eleven bits: distances to a sphere, capsules and a cylinder, a projection to the sphere, and a point on the axis of a cylinder. -/
example : let sq : ℚ → ℚ := fun x => if x = 25 then 5 else if x = 9 then 3 else if x = 36 then 6 else if x = 18 then 17 / 4 else 0
    ballSdf (nearest 11) sq ⟨![1, -1], 2⟩ ![4, 3] = 3 ∧ ballProject (nearest 11) sq ⟨![1, -1], 2⟩ ![4, 3] = some ![1127 / 512, 307 / 512] ∧
    capSdf (nearest 11) sq ⟨![0, 0], ![8, 0], 2⟩ ![4, 3] = some 1 ∧ capSdf (nearest 11) sq ⟨![0, 0], ![4, 0], 2⟩ ![8, 3] = some 3 ∧
    cylSdf (nearest 11) sq ⟨![0, 0], ![4, 0], 3⟩ ![7, 6] = some (17 / 4) ∧ cylSdf (nearest 11) sq ⟨![0, 0], ![767 / 512, 0], 1⟩ ![1023 / 1024, 0] = none ∧
    cylContains (nearest 11 : ℚ → ℚ) ⟨![0, 0], ![767 / 512, 0], 1⟩ ![1023 / 1024, 0] = some true := by
  decide +kernel

end Geomc.Flt
