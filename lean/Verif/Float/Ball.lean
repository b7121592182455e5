import Verif.Float.Quad

/-! # Property C123: rays and spheres in floating point -/

namespace Geomc.Flt

open Geomc.Shape (Ball)

variable {K : Type} [Field K] [LinearOrder K] [IsStrictOrderedRing K] [FloorRing K] {n : ℕ}

variable {p : ℕ} {rnd sqrt : K → K}

theorem fold_float (h : IsRound p rnd) (u v : Fin n → K) (l : List (Fin n)) (s : K) (hs : IsFloat p s) :
    IsFloat p (l.foldl (fun sum i => multiplyAdd rnd (u i) (v i) sum) s) := by
  induction l generalizing s with
  | nil => exact hs
  | cons i is ih => exact ih _ (h.mem _)

theorem dot_float (h : IsRound p rnd) (u v : Fin n → K) : IsFloat p (dot rnd u v) := fold_float h u v _ _ (float_zero p)
theorem mag2_float (h : IsRound p rnd) (u : Fin n → K) : IsFloat p (mag2 rnd u) := fold_float h u u _ _ (float_zero p)

/-- Whether a ray is reported to meet a sphere is decided by the exact discriminant of the computed coefficients. -/
theorem ball_some (hp : 2 ≤ p) (h : IsRound p rnd) (neg : Bool) (s : Ball K n) (o d : Fin n → K) :
    (ballIntersectRay rnd sqrt neg s o d).isSome ↔ d ≠ 0 ∧
      mag2 rnd d * rnd (mag2 rnd (sub rnd s.center o) - rnd (s.r * s.r)) ≤ dot rnd d (sub rnd s.center o) ^ 2 := by
  simp only [ballIntersectRay, Option.isSome_map]
  generalize sub rnd s.center o = x
  have hb : rnd (-2 * dot rnd d x) = -2 * dot rnd d x := h.fix (by
    rw [show -2 * dot rnd d x = -(dot rnd d x * 2) by ring]
    exact float_neg (float_double (dot_float h d x)))
  rw [quad_some_iff hp h neg (mag2_float h d) (h.mem _) (h.mem _), hb]
  have hd0 : mag2 rnd d = 0 ↔ d = 0 := (C104_mag2_zero (by omega) h d).2
  by_cases hd : d = 0
  · have hdot : dot rnd d x = 0 := by
      have := C104_dot (by omega) h d x
      simpa [hd] using this
    exact iff_of_false (fun hc => hc (.inr ⟨hd0.2 hd, by rw [hdot, mul_zero]⟩)) fun hc => hc.1 hd
  · rw [hd0]
    simp only [hd, false_and, or_false, not_lt, ne_eq, not_false_eq_true, true_and]
    constructor <;> intro hc <;> nlinarith

theorem near_abs {c x y : K} (h1 : (1 - c) * x ≤ y) (h2 : y ≤ (1 + c) * x) (hx : 0 ≤ x) : |y - x| ≤ c * |x| := by
  rw [abs_of_nonneg hx, abs_le]
  constructor <;> linarith

/-- One minus a power is at most the power of one plus. -/
theorem pow_sym {e : K} (h0 : 0 ≤ e) (h1 : e ≤ 1) (k : ℕ) : 1 - ((1 + e) ^ k - 1) ≤ (1 - e) ^ k := by
  induction k with
  | zero => simp
  | succ k ih =>
    have h2 : (1 : K) ≤ (1 + e) ^ k := one_le_pow₀ (by linarith)
    have h3 := mul_le_mul_of_nonneg_right ih (show 0 ≤ 1 - e by linarith)
    rw [pow_succ, pow_succ]
    nlinarith

/-- The error of the computed discriminant. -/
theorem descr_error (hp : 1 ≤ p) (h : IsRound p rnd) (s : Ball K n) (o d : Fin n → K) :
    |(dot rnd d (sub rnd s.center o) ^ 2 - mag2 rnd d * rnd (mag2 rnd (sub rnd s.center o) - rnd (s.r * s.r))) -
      ((∑ i, d i * (s.center i - o i)) ^ 2 - (∑ i, d i ^ 2) * ((∑ i, (s.center i - o i) ^ 2) - s.r ^ 2))| ≤
      ((1 + eps K p) ^ (2 * n + 3) - 1) * ((∑ i, d i ^ 2) * (2 * (∑ i, (s.center i - o i) ^ 2) + s.r ^ 2)) := by
  have e0 := eps_pos (K := K) p
  have e1 := eps_le (K := K) hp
  obtain ⟨a1, a2⟩ := C104_mag2 hp h d
  obtain ⟨m1, m2⟩ := C104_dist2 hp h s.center o
  have m2 := m2.1
  have b1 := C104_dot hp h d (sub rnd s.center o)
  rw [show dist2 rnd s.center o = mag2 rnd (sub rnd s.center o) from rfl] at m1 m2
  have hx : ∀ i, |sub rnd s.center o i - (s.center i - o i)| ≤ eps K p * |s.center i - o i| := fun i => h.rel hp _
  rw [show (2 : K) ^ (-(p : ℤ)) = eps K p from rfl] at *
  set x : Fin n → K := fun i => s.center i - o i with hxd
  set x' := sub rnd s.center o
  set e := eps K p
  set A := ∑ i, d i ^ 2
  set X := ∑ i, (s.center i - o i) ^ 2
  have hA : 0 ≤ A := Finset.sum_nonneg fun i _ => sq_nonneg _
  have hX : 0 ≤ X := Finset.sum_nonneg fun i _ => sq_nonneg _
  have hR : 0 ≤ s.r ^ 2 := sq_nonneg _
  set S := ∑ i, |d i * (s.center i - o i)|
  set B := ∑ i, d i * (s.center i - o i)
  have hS0 : 0 ≤ S := Finset.sum_nonneg fun i _ => abs_nonneg _
  have hSA : S ^ 2 ≤ A * X := by
    have := Finset.sum_mul_sq_le_sq_mul_sq Finset.univ (fun i => |d i|) (fun i => |s.center i - o i|)
    simpa [S, A, X, abs_mul, sq_abs] using this
  have hBS : |B| ≤ S := Finset.abs_sum_le_sum_abs _ _
  have pw : ∀ k : ℕ, (1 : K) ≤ (1 + e) ^ k := fun k => one_le_pow₀ (by linarith)
  -- the dot product
  have hb : |dot rnd d x' - B| ≤ ((1 + e) ^ (n + 1) - 1) * S := by
    have h1 : ∑ i, |d i * x' i| ≤ (1 + e) * S := by
      rw [Finset.mul_sum]
      refine Finset.sum_le_sum fun i _ => ?_
      rw [abs_mul, abs_mul]
      have h2 := abs_sub_abs_le_abs_sub (x' i) (s.center i - o i)
      have h3 := mul_le_mul_of_nonneg_left (show |x' i| ≤ (1 + e) * |s.center i - o i| by linarith [hx i]) (abs_nonneg (d i))
      linarith
    have h2 : |∑ i, d i * x' i - B| ≤ e * S := by
      rw [← Finset.sum_sub_distrib, Finset.mul_sum]
      refine (Finset.abs_sum_le_sum_abs _ _).trans (Finset.sum_le_sum fun i _ => ?_)
      rw [← mul_sub, abs_mul, abs_mul, mul_left_comm]
      exact mul_le_mul_of_nonneg_left (hx i) (abs_nonneg _)
    have h3 := abs_sub_le (dot rnd d x') (∑ i, d i * x' i) B
    have h4 := mul_le_mul_of_nonneg_left h1 (show 0 ≤ (1 + e) ^ n - 1 by linarith [pw n])
    rw [pow_succ]
    nlinarith
  have hbb : |dot rnd d x' ^ 2 - B ^ 2| ≤ ((1 + e) ^ (2 * n + 2) - 1) * (A * X) := by
    have h1 : |dot rnd d x' ^ 2 - B ^ 2| ≤ ((1 + e) ^ (2 * n + 2) - 1) * S ^ 2 := by
      rw [show dot rnd d x' ^ 2 - B ^ 2 = (dot rnd d x' - B) * ((dot rnd d x' - B) + 2 * B) by ring, abs_mul]
      have h2 : |dot rnd d x' - B + 2 * B| ≤ ((1 + e) ^ (n + 1) + 1) * S := by
        have := abs_add_le (dot rnd d x' - B) (2 * B)
        rw [abs_mul 2 B, abs_of_pos (show (0 : K) < 2 by norm_num)] at this
        linarith
      refine (mul_le_mul hb h2 (abs_nonneg _) (mul_nonneg (by linarith [pw (n + 1)]) hS0)).trans (le_of_eq ?_)
      rw [show 2 * n + 2 = (n + 1) + (n + 1) by ring, pow_add]
      ring
    exact h1.trans (mul_le_mul_of_nonneg_left hSA (by linarith [pw (2 * n + 2)]))
  -- the constant coefficient
  have ha : |mag2 rnd d - A| ≤ ((1 + e) ^ n - 1) * A := by
    have := near_abs (c := (1 + e) ^ n - 1) ((mul_le_mul_of_nonneg_right (pow_sym e0.le (by linarith) n) hA).trans a1) (by linarith) hA
    rwa [abs_of_nonneg hA] at this
  have hm : |mag2 rnd x' - X| ≤ ((1 + e) ^ (n + 2) - 1) * X := by
    have := near_abs (c := (1 + e) ^ (n + 2) - 1) ((mul_le_mul_of_nonneg_right (pow_sym e0.le (by linarith) (n + 2)) hX).trans m1) (by linarith) hX
    rwa [abs_of_nonneg hX] at this
  have hr : |rnd (s.r * s.r) - s.r ^ 2| ≤ ((1 + e) ^ (n + 2) - 1) * s.r ^ 2 := by
    have h1 := h.rel hp (s.r * s.r)
    rw [← sq, abs_of_nonneg hR] at h1
    rw [← sq]
    refine h1.trans (mul_le_mul_of_nonneg_right ?_ hR)
    have : (1 + e) ^ 1 ≤ (1 + e) ^ (n + 2) := pow_le_pow_right₀ (by linarith) (by omega)
    linarith
  have hc : |rnd (mag2 rnd x' - rnd (s.r * s.r)) - (X - s.r ^ 2)| ≤ ((1 + e) ^ (n + 3) - 1) * (X + s.r ^ 2) := by
    have h1 := h.rel hp (mag2 rnd x' - rnd (s.r * s.r))
    have h2 : |mag2 rnd x' - rnd (s.r * s.r) - (X - s.r ^ 2)| ≤ ((1 + e) ^ (n + 2) - 1) * (X + s.r ^ 2) := by
      have := abs_sub (mag2 rnd x' - X) (rnd (s.r * s.r) - s.r ^ 2)
      rw [show mag2 rnd x' - X - (rnd (s.r * s.r) - s.r ^ 2) = mag2 rnd x' - rnd (s.r * s.r) - (X - s.r ^ 2) by ring] at this
      linarith
    have h3 := abs_sub_le (rnd (mag2 rnd x' - rnd (s.r * s.r))) (mag2 rnd x' - rnd (s.r * s.r)) (X - s.r ^ 2)
    have h4 := abs_sub_abs_le_abs_sub (mag2 rnd x' - rnd (s.r * s.r)) (X - s.r ^ 2)
    have h5 : |X - s.r ^ 2| ≤ X + s.r ^ 2 := by
      have := abs_sub X (s.r ^ 2)
      rwa [abs_of_nonneg hX, abs_of_nonneg hR] at this
    have h6 := mul_le_mul_of_nonneg_left (show |mag2 rnd x' - rnd (s.r * s.r)| ≤ (1 + e) ^ (n + 2) * (X + s.r ^ 2) by linarith) e0.le
    rw [pow_succ (1 + e) (n + 2)]
    linarith
  set c' := rnd (mag2 rnd x' - rnd (s.r * s.r))
  have hcc : |c'| ≤ (1 + e) ^ (n + 3) * (X + s.r ^ 2) := by
    have h4 := abs_sub_abs_le_abs_sub c' (X - s.r ^ 2)
    have h5 : |X - s.r ^ 2| ≤ X + s.r ^ 2 := by
      have := abs_sub X (s.r ^ 2)
      rwa [abs_of_nonneg hX, abs_of_nonneg hR] at this
    linarith
  have hac : |mag2 rnd d * c' - A * (X - s.r ^ 2)| ≤ ((1 + e) ^ (2 * n + 3) - 1) * (A * (X + s.r ^ 2)) := by
    have h1 : |mag2 rnd d * c' - A * (X - s.r ^ 2)| ≤ |mag2 rnd d - A| * |c'| + A * |c' - (X - s.r ^ 2)| := by
      have := abs_add_le ((mag2 rnd d - A) * c') (A * (c' - (X - s.r ^ 2)))
      rw [abs_mul, abs_mul, abs_of_nonneg hA] at this
      rwa [show mag2 rnd d * c' - A * (X - s.r ^ 2) = (mag2 rnd d - A) * c' + A * (c' - (X - s.r ^ 2)) by ring]
    have h2 := mul_le_mul ha hcc (abs_nonneg _) (mul_nonneg (by linarith [pw n]) hA)
    have h3 := mul_le_mul_of_nonneg_left hc hA
    rw [show 2 * n + 3 = n + (n + 3) by ring, pow_add]
    linarith
  have h1 := abs_sub (dot rnd d x' ^ 2 - B ^ 2) (mag2 rnd d * c' - A * (X - s.r ^ 2))
  rw [show dot rnd d x' ^ 2 - B ^ 2 - (mag2 rnd d * c' - A * (X - s.r ^ 2)) = dot rnd d x' ^ 2 - mag2 rnd d * c' - (B ^ 2 - A * (X - s.r ^ 2)) by ring] at h1
  have h2 : ((1 + e) ^ (2 * n + 2) - 1) * (A * X) ≤ ((1 + e) ^ (2 * n + 3) - 1) * (A * X) :=
    mul_le_mul_of_nonneg_right (by linarith [pow_le_pow_right₀ (show 1 ≤ 1 + e by linarith) (show 2 * n + 2 ≤ 2 * n + 3 by omega)]) (mul_nonneg hA hX)
  linarith

theorem line_sq (c o d : Fin n → K) (t : K) :
    ∑ i, (o i + t * d i - c i) ^ 2 = (∑ i, (c i - o i) ^ 2) - 2 * t * (∑ i, d i * (c i - o i)) + t ^ 2 * ∑ i, d i ^ 2 := by
  rw [Finset.mul_sum, Finset.mul_sum, ← Finset.sum_sub_distrib, ← Finset.sum_add_distrib]
  exact Finset.sum_congr rfl fun i _ => by ring

/-- **C123.** A ray that comes close enough to the centre is reported to meet the sphere, one that stays far enough away to miss it. -/
theorem C123_hit (hp : 2 ≤ p) (h : IsRound p rnd) (neg : Bool) (s : Ball K n) (o d : Fin n → K) (hd : d ≠ 0) :
    ((∃ t, ∑ i, (o i + t * d i - s.center i) ^ 2 ≤
        s.r ^ 2 - ((1 + eps K p) ^ (2 * n + 3) - 1) * (2 * (∑ i, (s.center i - o i) ^ 2) + s.r ^ 2)) →
      (ballIntersectRay rnd sqrt neg s o d).isSome) ∧
    ((∀ t, s.r ^ 2 + ((1 + eps K p) ^ (2 * n + 3) - 1) * (2 * (∑ i, (s.center i - o i) ^ 2) + s.r ^ 2) <
        ∑ i, (o i + t * d i - s.center i) ^ 2) →
      ballIntersectRay rnd sqrt neg s o d = none) := by
  have he := abs_le.1 (descr_error (by omega) h s o d)
  have hs := ball_some (sqrt := sqrt) hp h neg s o d
  have hA : 0 < ∑ i, d i ^ 2 := lt_of_le_of_ne (Finset.sum_nonneg fun i _ => sq_nonneg _) fun hc => hd ((sum_sq_zero d).1 hc.symm)
  simp only [line_sq]
  set A := ∑ i, d i ^ 2
  set X := ∑ i, (s.center i - o i) ^ 2
  set B := ∑ i, d i * (s.center i - o i)
  set G := ((1 + eps K p) ^ (2 * n + 3) - 1) * (2 * X + s.r ^ 2) with hG
  rw [mul_left_comm, ← hG] at he
  constructor
  · rintro ⟨t, ht⟩
    refine hs.2 ⟨hd, ?_⟩
    have h1 := mul_le_mul_of_nonneg_left ht hA.le
    have h2 : A * (X - 2 * t * B + t ^ 2 * A) = A * X - B ^ 2 + (t * A - B) ^ 2 := by ring
    have h3 := sq_nonneg (t * A - B)
    linarith [he.1]
  · intro ht
    have h1 := mul_lt_mul_of_pos_left (ht (B / A)) hA
    have h2 : A * (X - 2 * (B / A) * B + (B / A) ^ 2 * A) = A * X - B ^ 2 := by
      field_simp
      ring
    rw [← Option.not_isSome_iff_eq_none, hs]
    rintro ⟨_, hc⟩
    linarith [he.2]

/-- **C123.** The ends of the interval are in order, and within six roundings of the two exact roots for the computed coefficients. -/
theorem C123_ends (hp : 5 ≤ p) (h : IsRound p rnd) (hq : ∀ x, 0 ≤ x → 0 ≤ sqrt x ∧ sqrt x * sqrt x = x) {neg : Bool} {s : Ball K n} {o d : Fin n → K}
    {t0 t1 : K} (ht : ballIntersectRay rnd sqrt neg s o d = some (t0, t1)) :
    t0 ≤ t1 ∧ ∃ x0 x1 : K, (∀ x, mag2 rnd d * x ^ 2 - 2 * dot rnd d (sub rnd s.center o) * x + rnd (mag2 rnd (sub rnd s.center o) - rnd (s.r * s.r)) = 0 ↔
      x = x0 ∨ x = x1) ∧ |t0 - x0| ≤ 6 * eps K p * |x0| ∧ |t1 - x1| ≤ 6 * eps K p * |x1| := by
  simp only [ballIntersectRay, Option.map_eq_some_iff, Prod.exists, Prod.mk.injEq] at ht
  obtain ⟨r0, r1, hr, e0, e1⟩ := ht
  have hb : rnd (-2 * dot rnd d (sub rnd s.center o)) = -2 * dot rnd d (sub rnd s.center o) := h.fix (by
    rw [show -2 * dot rnd d (sub rnd s.center o) = -(dot rnd d (sub rnd s.center o) * 2) by ring]
    exact float_neg (float_double (dot_float h d _)))
  obtain ⟨x0, x1, hx, n0, n1⟩ := C122_roots hp h hq (mag2_float h d) (h.mem _) (h.mem _) hr
  rw [hb] at hx
  refine ⟨by rw [← e0, ← e1]; exact min_le_max, ?_⟩
  rcases le_total r0 r1 with hle | hle
  · rw [min_eq_left hle] at e0
    rw [max_eq_right hle] at e1
    exact ⟨x0, x1, fun x => by rw [← hx]; constructor <;> intro hh <;> linear_combination hh, by rwa [← e0], by rwa [← e1]⟩
  · rw [min_eq_right hle] at e0
    rw [max_eq_left hle] at e1
    exact ⟨x1, x0, fun x => by rw [or_comm, ← hx]; constructor <;> intro hh <;> linear_combination hh, by rwa [← e0], by rwa [← e1]⟩

/-! ## Rays that are misjudged -/

theorem fold_zero (h : IsRound p rnd) (u v : Fin n → K) (l : List (Fin n)) (huv : ∀ i ∈ l, u i * v i = 0) (s : K) (hs : IsFloat p s) :
    l.foldl (fun sum i => multiplyAdd rnd (u i) (v i) sum) s = s := by
  induction l with
  | nil => rfl
  | cons i is ih =>
    rw [List.foldl_cons, multiplyAdd, huv i (by simp), zero_add, h.fix hs]
    exact ih fun j hj => huv j (by simp [hj])

/-- The vector along the first axis. -/
def along (n : ℕ) (x : K) : Fin (n + 1) → K := fun i => if i = 0 then x else 0

theorem dot_along (h : IsRound p rnd) (x y : K) : dot rnd (along n x) (along n y) = rnd (x * y) := by
  rw [dot, List.finRange_succ, List.foldl_cons, fold_zero h]
  · simp [multiplyAdd, along]
  · intro i hi
    obtain ⟨j, _, rfl⟩ := List.mem_map.1 hi
    simp [along, Fin.succ_ne_zero]
  · exact h.mem _

theorem along_float {x : K} (hx : IsFloat p x) (i : Fin (n + 1)) : IsFloat p (along n x i) := by
  unfold along
  split_ifs
  · exact hx
  · exact float_zero p

theorem sub_along (h : IsRound p rnd) {x : K} (hx : IsFloat p x) : sub rnd (along n x) (fun _ => 0) = along n x := by
  funext i
  rw [sub, sub_zero, h.fix (along_float hx i)]

theorem square_up (hp : 2 ≤ p) (h : IsRound p rnd) {v : K} (hv : v = 2 ^ (1 - (p : ℤ))) (j : ℕ) (h1 : 1 / 2 < (j : K) ^ 2 * v) (h2 : (j : K) ^ 2 * v < 1)
    (h3 : (j : K) * v ≤ 1 / 4) {δ : K} (d0 : 0 ≤ δ) (d1 : δ < v / 4) :
    IsFloat p (1 + j * v) ∧ rnd (rnd ((1 + j * v) * (1 + j * v)) - δ) = 1 + (2 * j + 1) * v := by
  have hp1 : 1 ≤ p := by omega
  have v0 : 0 < v := by
    rw [hv]
    exact two_zpow_pos _
  have hP : ((2 ^ (p - 1) : ℤ) : K) * v = 1 := by
    rw [hv, Int.cast_pow, Int.cast_ofNat, ← zpow_natCast, ← zadd, show ((p - 1 : ℕ) : ℤ) + (1 - p) = 0 by omega, zpow_zero]
  have v1 : v ≤ 1 / 2 := by
    rw [hv, show (1 / 2 : K) = 2 ^ (-1 : ℤ) by norm_num]
    exact zle (by omega)
  have e : ∀ k : ℤ, ((2 ^ (p - 1) + k : ℤ) : K) * 2 ^ ((0 : ℤ) + 1 - p) = 1 + k * v := fun k => by
    rw [zero_add, ← hv, Int.cast_add, add_mul, hP]
  have fl : ∀ k : ℤ, 0 ≤ k → (k : K) * v ≤ 1 → IsFloat p (1 + k * v) := fun k hk hkv => by
    rw [← e]
    refine mem_le hp1 _ _ ?_
    have h4 : (k : K) ≤ ((2 ^ (p - 1) : ℤ) : K) := by
      refine le_of_mul_le_mul_right ?_ v0
      rw [hP]
      exact hkv
    have h5 : k ≤ 2 ^ (p - 1) := Int.cast_le.1 h4
    have h6 : (2 : ℤ) ^ p = 2 ^ (p - 1) * 2 := by
      rw [← pow_succ]
      congr 1
      omega
    rw [abs_of_nonneg (by positivity)]
    omega
  have hj0 : (0 : K) ≤ j := Nat.cast_nonneg j
  have f2 := fl (2 * j + 1) (by positivity) (by push_cast; linarith)
  have ek : (((2 * (j : ℤ) + 1 : ℤ)) : K) = 2 * j + 1 := by push_cast; ring
  have hh : (2 : K) ^ ((0 : ℤ) - p) = v / 2 := by
    rw [hv, show (0 : ℤ) - p = (1 - p) + -1 by ring, zadd]
    norm_num
    ring
  have near : ∀ x : K, 1 ≤ x → |x - (1 + (2 * j + 1) * v)| < v / 2 → rnd x = 1 + (2 * j + 1) * v := fun x hx hn => by
    have := h.eq_of_near hp1 (x := x) (E := 0) (2 ^ (p - 1) + (2 * j + 1)) (by simpa using hx) (by rw [e]; exact f2) (by rw [e, hh, ek]; exact hn)
    rw [this, e, ek]
  have hjv : 0 ≤ (j : K) * v := mul_nonneg hj0 v0.le
  have hsq : (1 + j * v) * (1 + j * v) = 1 + (2 * j + 1) * v - v * (1 - (j : K) ^ 2 * v) := by ring
  have h4 : 0 < v * (1 - (j : K) ^ 2 * v) := mul_pos v0 (by linarith)
  have h5 : v * (1 - (j : K) ^ 2 * v) < v * (1 / 2) := mul_lt_mul_of_pos_left (by linarith) v0
  have r1 : rnd ((1 + j * v) * (1 + j * v)) = 1 + (2 * j + 1) * v := by
    refine near _ ?_ ?_
    · nlinarith
    · rw [hsq, show 1 + (2 * j + 1) * v - v * (1 - (j : K) ^ 2 * v) - (1 + (2 * j + 1) * v) = -(v * (1 - (j : K) ^ 2 * v)) by ring, abs_neg, abs_of_pos h4]
      linarith
  refine ⟨by simpa using fl j (by positivity) (by push_cast; linarith), ?_⟩
  rw [r1]
  refine near _ ?_ ?_
  · nlinarith
  · rw [show 1 + (2 * (j : K) + 1) * v - δ - (1 + (2 * j + 1) * v) = -δ by ring, abs_neg, abs_of_nonneg d0]
    linarith

theorem exists_square_up (hp : 5 ≤ p) (v : K) (hv : v = 2 ^ (1 - (p : ℤ))) :
    ∃ j : ℕ, 1 / 2 < (j : K) ^ 2 * v ∧ (j : K) ^ 2 * v < 1 ∧ (j : K) * v ≤ 1 / 4 := by
  rcases Nat.even_or_odd' p with ⟨k, hk | hk⟩
  · obtain ⟨m, rfl⟩ : ∃ m, k = m + 3 := ⟨k - 3, by omega⟩
    have e : ((2 : K) ^ m) ^ 2 * v = 1 / 32 := by
      rw [hv, hk, ← pow_mul, ← zpow_natCast, ← zadd, show ((m * 2 : ℕ) : ℤ) + (1 - ((2 * (m + 3) : ℕ) : ℤ)) = -5 by push_cast; ring]
      norm_num
    have h1 : (1 : K) ≤ 2 ^ m := one_le_pow₀ (by norm_num)
    have v0 : 0 < v := by
      rw [hv]
      exact two_zpow_pos _
    refine ⟨5 * 2 ^ m, ?_, ?_, ?_⟩ <;> push_cast
    · nlinarith
    · nlinarith
    · have : (2 : K) ^ m * v ≤ ((2 : K) ^ m) ^ 2 * v := mul_le_mul_of_nonneg_right (by nlinarith) v0.le
      linarith
  · obtain ⟨m, rfl⟩ : ∃ m, k = m + 2 := ⟨k - 2, by omega⟩
    have e : ((2 : K) ^ m) ^ 2 * v = 1 / 16 := by
      rw [hv, hk, ← pow_mul, ← zpow_natCast, ← zadd, show ((m * 2 : ℕ) : ℤ) + (1 - ((2 * (m + 2) + 1 : ℕ) : ℤ)) = -4 by push_cast; ring]
      norm_num
    have h1 : (1 : K) ≤ 2 ^ m := one_le_pow₀ (by norm_num)
    have v0 : 0 < v := by
      rw [hv]
      exact two_zpow_pos _
    refine ⟨3 * 2 ^ m, ?_, ?_, ?_⟩ <;> push_cast
    · nlinarith
    · nlinarith
    · have : (2 : K) ^ m * v ≤ ((2 : K) ^ m) ^ 2 * v := mul_le_mul_of_nonneg_right (by nlinarith) v0.le
      linarith

/-- **C123** refuted: in every format of at least five bits, and every dimension, some ray towards the centre of a sphere of positive radius
is reported to miss it. -/
theorem C123_hit_refuted (hp : 5 ≤ p) (h : IsRound p rnd) (neg : Bool) (n : ℕ) :
    ∃ (s : Ball K (n + 1)) (o d : Fin (n + 1) → K), (∀ i, IsFloat p (s.center i) ∧ IsFloat p (o i) ∧ IsFloat p (d i)) ∧ IsFloat p s.r ∧ 0 < s.r ∧
      d ≠ 0 ∧ (∃ t, 0 < t ∧ ∀ i, o i + t * d i = s.center i) ∧ ballIntersectRay rnd sqrt neg s o d = none := by
  have hp1 : 1 ≤ p := by omega
  have f1 : IsFloat p (1 : K) := by simpa using float_pow (K := K) hp1 0
  obtain ⟨v, hv⟩ : ∃ v : K, v = 2 ^ (1 - (p : ℤ)) := ⟨_, rfl⟩
  have v0 : 0 < v := by
    rw [hv]
    exact two_zpow_pos _
  obtain ⟨j, h1, h2, h3⟩ := exists_square_up hp v hv
  have hr2 : rnd ((2 : K) ^ (-(p : ℤ)) * 2 ^ (-(p : ℤ))) = 2 ^ (-(p : ℤ) + -p) := by rw [← zadd, h.fix (float_pow hp1 _)]
  have hd1 : (2 : K) ^ (-(p : ℤ) + -p) < v / 4 := by
    have h4 : v / 4 = v * 2 ^ (-2 : ℤ) := by
      norm_num
      ring
    rw [h4, hv, ← zadd]
    exact zpow_lt_zpow_right₀ (by norm_num) (by omega)
  obtain ⟨fx, hx⟩ := square_up (by omega) h hv j h1 h2 h3 (two_zpow_pos (K := K) (-(p : ℤ) + -p)).le hd1
  refine ⟨⟨along n (1 + j * v), 2 ^ (-(p : ℤ))⟩, fun _ => 0, along n 1, fun i => ⟨along_float fx i, float_zero p, along_float f1 i⟩, float_pow hp1 _,
    two_zpow_pos _, ?_, ⟨1 + j * v, by positivity, fun i => ?_⟩, ?_⟩
  · intro hc
    have := congrFun hc 0
    simp [along] at this
  · by_cases hi : i = 0 <;> simp [along, hi]
  · rw [← Option.not_isSome_iff_eq_none, ball_some (by omega) h]
    rintro ⟨_, hc⟩
    rw [sub_along h fx, C104_mag2_dot, C104_mag2_dot, dot_along h, dot_along h, dot_along h, hr2, hx, one_mul, one_mul, h.fix f1, h.fix fx, one_mul] at hc
    have : 0 < v * (1 - (j : K) ^ 2 * v) := mul_pos v0 (by linarith)
    nlinarith

/-- **C123** refuted: in every format and every dimension from two some ray that stays at twice the radius from the centre of a sphere is
reported to meet it. -/
theorem C123_miss_refuted (hp : 2 ≤ p) (h : IsRound p rnd) (neg : Bool) (n : ℕ) :
    ∃ (s : Ball K (n + 2)) (o d : Fin (n + 2) → K), (∀ i, IsFloat p (s.center i) ∧ IsFloat p (o i) ∧ IsFloat p (d i)) ∧ IsFloat p s.r ∧ 0 < s.r ∧
      (∀ t, (2 * s.r) ^ 2 ≤ ∑ i, (o i + t * d i - s.center i) ^ 2) ∧ (ballIntersectRay rnd sqrt neg s o d).isSome := by
  have hp1 : 1 ≤ p := by omega
  have f1 : IsFloat p (1 : K) := by simpa using float_pow (K := K) hp1 0
  set y : K := 2 ^ (-(p : ℤ)) with hy
  set c : Fin (n + 2) → K := fun i => if i = 0 then 1 else if i = 1 then y else 0 with hc
  have y0 : 0 < y := two_zpow_pos _
  have fy : IsFloat p y := float_pow hp1 _
  have y1 : y ≤ 1 / 4 := by
    rw [hy, show (1 / 4 : K) = 2 ^ (-2 : ℤ) by norm_num]
    exact zle (by omega)
  have fc : ∀ i, IsFloat p (c i) := fun i => by
    simp only [hc]
    split_ifs
    exacts [f1, fy, float_zero p]
  have hsub : sub rnd c (fun _ => 0) = c := by
    funext i
    rw [sub, sub_zero, h.fix (fc i)]
  have hzz : ∀ i ∈ ((List.finRange n).map Fin.succ).map Fin.succ, c i = 0 ∧ along (n + 1) (1 : K) i = 0 := by
    intro i hi
    obtain ⟨j, hj, rfl⟩ := List.mem_map.1 hi
    obtain ⟨k, _, rfl⟩ := List.mem_map.1 hj
    refine ⟨?_, by simp [along, Fin.succ_ne_zero]⟩
    have : (Fin.succ (Fin.succ k)) ≠ (1 : Fin (n + 2)) := by
      intro hk
      have := congrArg Fin.val hk
      simp at this
    simp [hc, Fin.succ_ne_zero, this]
  have hmag : mag2 rnd c = 1 := by
    rw [mag2, List.finRange_succ, List.finRange_succ, List.map_cons, List.foldl_cons, List.foldl_cons, fold_zero h]
    · simp only [multiplyAdd, hc, if_true, mul_one, add_zero, h.fix f1]
      rw [if_neg (by simp), if_pos (by rfl), add_comm]
      exact absorb hp1 h (by positivity) (by rw [← hy]; nlinarith)
    · intro i hi
      rw [(hzz i hi).1, mul_zero]
    · exact h.mem _
  have hdot : dot rnd (along (n + 1) 1) c = 1 := by
    rw [dot, List.finRange_succ, List.foldl_cons, fold_zero h]
    · simp [multiplyAdd, along, hc, h.fix f1]
    · intro i hi
      obtain ⟨j, _, rfl⟩ := List.mem_map.1 hi
      simp [along, Fin.succ_ne_zero]
    · exact h.mem _
  refine ⟨⟨c, y / 2⟩, fun _ => 0, along (n + 1) 1, fun i => ⟨fc i, float_zero p, along_float f1 i⟩, float_half fy, by positivity, fun t => ?_, ?_⟩
  · have h1 : (0 + t * along (n + 1) (1 : K) 1 - c 1) ^ 2 ≤ ∑ i, (0 + t * along (n + 1) (1 : K) i - c i) ^ 2 :=
      Finset.single_le_sum (f := fun i => (0 + t * along (n + 1) (1 : K) i - c i) ^ 2) (fun i _ => sq_nonneg _) (Finset.mem_univ 1)
    have h2 : along (n + 1) (1 : K) 1 = 0 := by simp [along]
    have h3 : c 1 = y := by simp [hc]
    rw [h2, h3] at h1
    show (2 * (y / 2)) ^ 2 ≤ ∑ i, (0 + t * along (n + 1) (1 : K) i - c i) ^ 2
    nlinarith
  · rw [ball_some hp h]
    refine ⟨fun hc => ?_, ?_⟩
    · have := congrFun hc 0
      simp [along] at this
    · simp only [hsub, hmag, hdot]
      rw [C104_mag2_dot, dot_along h, one_mul, h.fix f1, one_mul, one_pow]
      refine h.le_of_le f1 ?_
      have : 0 ≤ rnd (y / 2 * (y / 2)) := (h.nonneg_iff hp1 _).2 (by positivity)
      linarith

/-- The ray along the first axis from the origin and the unit disc at distance two. -/
example : ballIntersectRay (K := ℚ) id (fun x => if x = 4 then 2 else 0) false ⟨![2, 0], 1⟩ ![0, 0] ![1, 0] = some (1, 3) := by
  decide +kernel

end Geomc.Flt
