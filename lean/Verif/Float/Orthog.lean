import Verif.Float.OrthogModel
import Verif.Float.Dist
import Verif.LU.Lemmas

/-! # Property C127: the Gram–Schmidt process in floating point -/

namespace Geomc.Flt

open Geomc.Vec (IsSqrt)
open Geomc.Shape (len)
open Geomc.LU (loop loopFrom loopM loop_inv loopFrom_inv loopM_inv)

variable {K : Type} [Field K] [LinearOrder K] [IsStrictOrderedRing K] [FloorRing K] {N n p : ℕ} {rnd sqrt : K → K}

/-! ## Projections -/

/-- A rounded quotient. -/
theorem quot_round (hp : 1 ≤ p) (h : IsRound p rnd) {k : ℕ} {y' y Y m' m q : K} (hy : Near (eps K p) k y' y Y) (hm : 0 < m) (hq : 1 ≤ q)
    (hm' : |m'⁻¹ - m⁻¹| ≤ (q - 1) * |m⁻¹|) : |rnd (y' / m') - y / m| ≤ ((1 + eps K p) ^ (k + 1) * q - 1) * (Y / m) := by
  have e0 := eps_pos (K := K) p
  have i0 : 0 < m⁻¹ := inv_pos.2 hm
  rw [abs_of_pos i0] at hm'
  have s1 : |m'⁻¹| ≤ q * m⁻¹ := by
    have := abs_sub_abs_le_abs_sub m'⁻¹ m⁻¹
    rw [abs_of_pos i0] at this
    linarith
  have h1 : |y' * m'⁻¹ - y * m⁻¹| ≤ ((1 + eps K p) ^ k * q - 1) * (Y * m⁻¹) := by
    rw [show y' * m'⁻¹ - y * m⁻¹ = (y' - y) * m'⁻¹ + y * (m'⁻¹ - m⁻¹) by ring]
    refine (abs_add_le _ _).trans ?_
    rw [abs_mul, abs_mul]
    have a1 := mul_le_mul hy.1 s1 (abs_nonneg _) ((abs_nonneg _).trans hy.1)
    have a2 := mul_le_mul hy.2 hm' (abs_nonneg _) hy.pos
    have : ((1 + eps K p) ^ k * q - 1) * (Y * m⁻¹) = ((1 + eps K p) ^ k - 1) * Y * (q * m⁻¹) + Y * ((q - 1) * m⁻¹) := by ring
    linarith
  have s2 : |y * m⁻¹| ≤ Y * m⁻¹ := by
    rw [abs_mul, abs_of_pos i0]
    exact mul_le_mul_of_nonneg_right hy.2 i0.le
  rw [div_eq_mul_inv, div_eq_mul_inv, div_eq_mul_inv]
  set z' := y' * m'⁻¹
  set z := y * m⁻¹
  set Z := Y * m⁻¹
  have h2 := h.rel hp z'
  change _ ≤ eps K p * |z'| at h2
  have h3 := abs_sub_le (rnd z') z' z
  have h4 := abs_sub_abs_le_abs_sub z' z
  have h5 : |z'| ≤ (1 + eps K p) ^ k * q * Z := by linarith
  have h6 := mul_le_mul_of_nonneg_left h5 e0.le
  rw [pow_succ]
  linarith

/-- The reciprocal of a computed squared length. -/
theorem mag2_inv (hp : 1 ≤ p) (h : IsRound p rnd) (hs : IsSqrt sqrt) (hN : (1 + eps K p) ^ N < 2) (a : Fin N → K) :
    |(mag2 rnd a)⁻¹ - (len sqrt a * len sqrt a)⁻¹| ≤ (1 / (2 - (1 + eps K p) ^ N) - 1) * |(len sqrt a * len sqrt a)⁻¹| := by
  have e0 := eps_pos (K := K) p
  have e1 := eps_le (K := K) hp
  have h1 : |mag2 rnd a - len sqrt a * len sqrt a| ≤ ((1 + eps K p) ^ N - 1) * |len sqrt a * len sqrt a| := by
    obtain ⟨x, y⟩ := C104_mag2 hp h a
    rw [← len_sq hs, pow_two] at x y
    change (1 - eps K p) ^ N * _ ≤ _ at x
    change _ ≤ (1 + eps K p) ^ N * _ at y
    refine near_abs ((mul_le_mul_of_nonneg_right (pow_sym e0.le (by linarith) N) (mul_self_nonneg _)).trans x) ?_ (mul_self_nonneg _)
    rwa [add_sub_cancel]
  have := near_inv (by linarith) h1
  rwa [show 1 - ((1 + eps K p) ^ N - 1) = 2 - (1 + eps K p) ^ N by ring] at this

theorem q_ge (hN : (1 + eps K p) ^ N < 2) : (1 : K) ≤ 1 / (2 - (1 + eps K p) ^ N) := by
  have e0 := eps_pos (K := K) p
  have : (1 : K) ≤ (1 + eps K p) ^ N := one_le_pow₀ (by linarith)
  rw [le_div_iff₀ (by linarith)]
  linarith

/-- The computed components of a projection. -/
theorem proj_near (hp : 1 ≤ p) (h : IsRound p rnd) (hs : IsSqrt sqrt) (hN : (1 + eps K p) ^ N < 2) (x : Fin N → K) {a : Fin N → K} (ha : a ≠ 0) (i : Fin N) :
    |projectOn rnd x a i - Vec.projectOn x a i| ≤ ((1 + eps K p) ^ (N + 2) * (1 / (2 - (1 + eps K p) ^ N)) - 1) * (len sqrt x / len sqrt a * |a i|) ∧
    |Vec.projectOn x a i| ≤ len sqrt x / len sqrt a * |a i| := by
  have e0 := eps_pos (K := K) p
  have hA := Shape.len_pos hs ha
  have hm : mag2 rnd a ≠ 0 := fun hh => ha ((C104_mag2_zero hp h a).2.1 hh)
  have hD : Near (eps K p) N (dot rnd x a) (x ⬝ᵥ a) (len sqrt x * len sqrt a) := by
    refine ⟨(C104_dot hp h x a).trans (mul_le_mul_of_nonneg_left (sum_abs_le_len hs x a) (sub_nonneg.2 (one_le_pow₀ ?_))),
      (Finset.abs_sum_le_sum_abs _ _).trans (sum_abs_le_len hs x a)⟩
    have := two_zpow_pos (K := K) (-(p : ℤ))
    linarith
  have h1 := ((Near.refl (eps K p) (a i)).mul e0.le hD).round hp h le_rfl
  rw [zero_add] at h1
  have h2 := quot_round hp h h1 (mul_pos hA hA) (q_ge hN) (mag2_inv hp h hs hN a)
  have e : |a i| * (len sqrt x * len sqrt a) / (len sqrt a * len sqrt a) = len sqrt x / len sqrt a * |a i| := by
    field_simp
  have e' : Vec.projectOn x a i = a i * (x ⬝ᵥ a) / (len sqrt a * len sqrt a) := by
    rw [Vec.projectOn]
    rw [if_pos (by rw [Vec.mag2_eq, ← Shape.len_mul_self hs]; exact (mul_pos hA hA).ne')]
    rw [Vec.mag2_eq, Vec.dot_eq, ← Shape.len_mul_self hs]
  rw [e] at h2
  rw [e']
  constructor
  · rw [projectOn]
    rw [if_pos hm]
    exact h2
  · rw [← e, abs_div, abs_of_pos (mul_pos hA hA)]
    exact div_le_div_of_nonneg_right h1.2 (mul_pos hA hA).le

/-- The projection to the zero vector is the zero vector. -/
theorem proj_zero (hp : 1 ≤ p) (h : IsRound p rnd) (x : Fin N → K) : projectOn rnd x 0 = 0 ∧ Vec.projectOn x 0 = 0 := by
  constructor
  · rw [projectOn]
    rw [if_neg (by rw [(C104_mag2_zero hp h 0).2.2 rfl]; simp)]
  · rw [Vec.projectOn]
    rw [if_neg (by rw [Vec.mag2_eq]; simp)]

/-- **C127.** The component along an axis is right up to rounding, relative to the length of the vector. -/
theorem C127_project (hp : 1 ≤ p) (h : IsRound p rnd) (hs : IsSqrt sqrt) (hN : (1 + eps K p) ^ N < 2) (x a : Fin N → K) :
    len sqrt (projectOn rnd x a - Vec.projectOn x a) ≤ ((1 + eps K p) ^ (N + 2) * (1 / (2 - (1 + eps K p) ^ N)) - 1) * len sqrt x := by
  have e0 := eps_pos (K := K) p
  have p1 : (1 : K) ≤ (1 + eps K p) ^ (N + 2) := one_le_pow₀ (by linarith)
  have c0 := one_le_mul_of_one_le_of_one_le p1 (q_ge hN)
  have hB := Shape.len_nonneg hs x
  rcases eq_or_ne a 0 with rfl | ha
  · rw [(proj_zero hp h x).1, (proj_zero hp h x).2, sub_self, (Shape.len_eq_zero hs).2 rfl]
    exact mul_nonneg (by linarith) hB
  · have hA := Shape.len_pos hs ha
    refine (len_le_of_abs hs (v := a) (c := ((1 + eps K p) ^ (N + 2) * (1 / (2 - (1 + eps K p) ^ N)) - 1) * (len sqrt x / len sqrt a))
      (mul_nonneg (by linarith) (by positivity)) fun i => ?_).trans (le_of_eq ?_)
    · rw [mul_assoc]
      exact (proj_near hp h hs hN x ha i).1
    · rw [mul_assoc, div_mul_cancel₀ _ hA.ne']

/-! ## One step -/

/-- The error of one step of the process, relative to the length of the vector. -/
def gsErr (K : Type) [Field K] (p N : ℕ) : K := 2 * ((1 + eps K p) ^ (N + 3) / (2 - (1 + eps K p) ^ N) - 1)

theorem gsErr_nonneg (hN : (1 + eps K p) ^ N < 2) : 0 ≤ gsErr K p N := by
  have e0 := eps_pos (K := K) p
  have p1 : (1 : K) ≤ (1 + eps K p) ^ (N + 3) := one_le_pow₀ (by linarith)
  have := one_le_mul_of_one_le_of_one_le p1 (q_ge hN)
  rw [mul_one_div] at this
  rw [gsErr]
  linarith

/-- It is a few units in the last place. -/
theorem C127_size (hN : 16 * ((N + 3 : ℕ) * eps K p) ≤ 1) : (1 + eps K p) ^ N < 2 ∧ gsErr K p N ≤ 5 * ((N + 3 : ℕ) * eps K p) := by
  have e0 := eps_pos (K := K) p
  set x : K := (N + 3 : ℕ) * eps K p with hx
  have x0 : 0 ≤ x := by positivity
  have hk : (1 : K) ≤ (N + 3 : ℕ) := by exact_mod_cast (by omega : 1 ≤ N + 3)
  have e1 : eps K p ≤ x := by nlinarith
  have b1 : 1 - x ≤ (1 - eps K p) ^ (N + 3) := by
    have := one_add_mul_le_pow (a := -eps K p) (by linarith) (N + 3)
    rw [← sub_eq_add_neg, mul_neg, ← sub_eq_add_neg] at this
    exact this
  have b2 : (1 + eps K p) ^ (N + 3) * (1 - eps K p) ^ (N + 3) ≤ 1 := by
    rw [← mul_pow]
    exact pow_le_one₀ (by nlinarith) (by nlinarith)
  have P0 : (0 : K) < (1 + eps K p) ^ (N + 3) := by positivity
  have b3 : (1 + eps K p) ^ (N + 3) * (1 - x) ≤ 1 := (mul_le_mul_of_nonneg_left b1 P0.le).trans b2
  have b4 : (1 + eps K p) ^ N ≤ (1 + eps K p) ^ (N + 3) := pow_le_pow_right₀ (by linarith) (by omega)
  set P := (1 + eps K p) ^ (N + 3)
  have b5 : P ≤ 1 + 16 / 15 * x := by nlinarith
  refine ⟨by linarith, ?_⟩
  have d0 : 0 < 2 - (1 + eps K p) ^ N := by linarith
  have b6 : P / (2 - (1 + eps K p) ^ N) ≤ 1 + 5 / 2 * x := by
    rw [div_le_iff₀ d0]
    have : (1 + 5 / 2 * x) * (1 - 16 / 15 * x) ≤ (1 + 5 / 2 * x) * (2 - (1 + eps K p) ^ N) := mul_le_mul_of_nonneg_left (by linarith) (by linarith)
    nlinarith
  rw [gsErr]
  linarith

theorem step_near (hp : 1 ≤ p) (h : IsRound p rnd) (hs : IsSqrt sqrt) (hN : (1 + eps K p) ^ N < 2) (v a : Fin N → K) :
    len sqrt (sub rnd v (projectOn rnd v a) - (v - Vec.projectOn v a)) ≤ gsErr K p N * len sqrt v := by
  have e0 := eps_pos (K := K) p
  have hB := Shape.len_nonneg hs v
  set Q : K := (1 + eps K p) ^ (N + 2) * (1 / (2 - (1 + eps K p) ^ N)) with hQ
  have p1 : (1 : K) ≤ (1 + eps K p) ^ (N + 2) := one_le_pow₀ (by linarith)
  have Q1 : 1 ≤ Q := one_le_mul_of_one_le_of_one_le p1 (q_ge hN)
  have eg : gsErr K p N = ((1 + eps K p) * Q - 1) * 2 := by
    rw [gsErr, hQ]
    ring
  have c0 : 0 ≤ (1 + eps K p) * Q - 1 := by nlinarith
  have key : ∀ P : Fin N → K, (∀ i, |projectOn rnd v a i - Vec.projectOn v a i| ≤ (Q - 1) * |P i| ∧ |Vec.projectOn v a i| ≤ |P i|) → len sqrt P ≤ len sqrt v →
      len sqrt (sub rnd v (projectOn rnd v a) - (v - Vec.projectOn v a)) ≤ gsErr K p N * len sqrt v := by
    intro P hP hl
    have h1 : len sqrt (fun i => |v i| + |P i|) ≤ 2 * len sqrt v := by
      have := Shape.len_add_le hs (fun i => |v i|) (fun i => |P i|)
      rw [len_abs hs, len_abs hs] at this
      refine le_trans this ?_
      linarith
    refine (len_le_of_abs hs (v := fun i => |v i| + |P i|) c0 fun i => ?_).trans ?_
    · rw [abs_of_nonneg (show 0 ≤ |v i| + |P i| by positivity)]
      obtain ⟨h2, h3⟩ := hP i
      have h4 := h.rel hp (v i - projectOn rnd v a i)
      change _ ≤ eps K p * _ at h4
      have h5 := abs_sub_le (rnd (v i - projectOn rnd v a i)) (v i - projectOn rnd v a i) (v i - Vec.projectOn v a i)
      rw [show v i - projectOn rnd v a i - (v i - Vec.projectOn v a i) = -(projectOn rnd v a i - Vec.projectOn v a i) by ring, abs_neg] at h5
      have h6 := abs_sub (v i) (projectOn rnd v a i)
      have h7 := abs_sub_abs_le_abs_sub (projectOn rnd v a i) (Vec.projectOn v a i)
      have h8 : |v i - projectOn rnd v a i| ≤ |v i| + Q * |P i| := by linarith
      have h9 := mul_le_mul_of_nonneg_left h8 e0.le
      have h10 : eps K p * |v i| ≤ ((1 + eps K p) * Q - 1) * |v i| := mul_le_mul_of_nonneg_right (by nlinarith) (abs_nonneg _)
      change |rnd (v i - projectOn rnd v a i) - (v i - Vec.projectOn v a i)| ≤ _
      linarith
    · rw [eg, mul_assoc]
      exact mul_le_mul_of_nonneg_left h1 c0
  rcases eq_or_ne a 0 with rfl | ha
  · refine key 0 (fun i => ?_) (by rw [(Shape.len_eq_zero hs).2 rfl]; exact hB)
    rw [(proj_zero hp h v).1, (proj_zero hp h v).2]
    simp
  · have hA := Shape.len_pos hs ha
    have hr : 0 ≤ len sqrt v / len sqrt a := by positivity
    refine key (fun i => len sqrt v / len sqrt a * |a i|) (fun i => ?_) ?_
    · simp only [abs_mul, abs_abs, abs_of_nonneg hr]
      exact proj_near hp h hs hN v ha i
    · have := len_le_of_abs hs (u := fun i => len sqrt v / len sqrt a * |a i|) (v := a) hr fun i => by rw [abs_mul, abs_abs, abs_of_nonneg hr]
      rwa [div_mul_cancel₀ _ hA.ne'] at this

/-- The exact remainder. -/
theorem step_exact (hs : IsSqrt sqrt) (v a : Fin N → K) :
    (∃ r : K, Vec.projectOn v a = r • a) ∧ (v - Vec.projectOn v a) ⬝ᵥ a = 0 ∧ len sqrt (v - Vec.projectOn v a) ≤ len sqrt v := by
  rcases eq_or_ne a 0 with rfl | ha
  · have : Vec.projectOn v (0 : Fin N → K) = 0 := by
      rw [Vec.projectOn]
      rw [if_neg (by rw [Vec.mag2_eq]; simp)]
    rw [this, sub_zero]
    exact ⟨⟨0, by simp⟩, by simp, le_rfl⟩
  · have hA := Shape.len_pos hs ha
    have hm : a ⬝ᵥ a ≠ 0 := by
      rw [← Shape.len_mul_self hs]
      exact (mul_pos hA hA).ne'
    have e : Vec.projectOn v a = (v ⬝ᵥ a / a ⬝ᵥ a) • a := by
      rw [Vec.projectOn]
      rw [if_pos (by rw [Vec.mag2_eq]; exact hm), Vec.mag2_eq, Vec.dot_eq]
      funext i
      rw [Pi.smul_apply, smul_eq_mul]
      ring
    have ho : (v - (v ⬝ᵥ a / a ⬝ᵥ a) • a) ⬝ᵥ a = 0 := by
      rw [sub_dotProduct, smul_dotProduct, smul_eq_mul, div_mul_cancel₀ _ hm, sub_self]
    refine ⟨⟨_, e⟩, by rw [e]; exact ho, ?_⟩
    rw [e, Shape.len_le_iff hs (Shape.len_nonneg hs v), Shape.len_mul_self hs]
    set r := v ⬝ᵥ a / a ⬝ᵥ a
    have h1 : v ⬝ᵥ v = (v - r • a) ⬝ᵥ (v - r • a) + r * r * (a ⬝ᵥ a) := by
      have h2 : v = (v - r • a) + r • a := by abel
      conv_lhs => rw [h2]
      rw [add_dotProduct, dotProduct_add, dotProduct_add, dotProduct_smul, smul_dotProduct, smul_dotProduct, dotProduct_smul, dotProduct_comm a, ho]
      simp only [smul_eq_mul]
      ring
    rw [h1]
    have : 0 ≤ a ⬝ᵥ a := by
      rw [← Shape.len_mul_self hs]
      exact mul_self_nonneg _
    nlinarith [mul_self_nonneg r]

/-- One step of the process. -/
theorem step_spec (hp : 1 ≤ p) (h : IsRound p rnd) (hs : IsSqrt sqrt) (hN : (1 + eps K p) ^ N < 2) (v a : Fin N → K) :
    (∃ r : K, len sqrt (v - sub rnd v (projectOn rnd v a) - r • a) ≤ gsErr K p N * len sqrt v) ∧
    len sqrt (sub rnd v (projectOn rnd v a)) ≤ (1 + gsErr K p N) * len sqrt v ∧
    |sub rnd v (projectOn rnd v a) ⬝ᵥ a| ≤ gsErr K p N * len sqrt v * len sqrt a := by
  have h1 := step_near hp h hs hN v a
  obtain ⟨⟨r, hr⟩, h2, h3⟩ := step_exact hs v a
  set w := sub rnd v (projectOn rnd v a)
  refine ⟨⟨r, ?_⟩, ?_, ?_⟩
  · rw [← hr, show v - w - Vec.projectOn v a = -(w - (v - Vec.projectOn v a)) by abel, Shape.len_neg hs]
    exact h1
  · have := Shape.len_add_le hs (w - (v - Vec.projectOn v a)) (v - Vec.projectOn v a)
    rw [sub_add_cancel] at this
    linarith
  · have e : w ⬝ᵥ a = (w - (v - Vec.projectOn v a)) ⬝ᵥ a := by
      rw [sub_dotProduct w, h2, sub_zero]
    rw [e]
    exact ((Finset.abs_sum_le_sum_abs _ _).trans (sum_abs_le_len hs _ _)).trans (mul_le_mul_of_nonneg_right h1 (Shape.len_nonneg hs a))

/-! ## The process -/

/-- What is known of the vector `w` made of `v` by removing the components along the first `j` vectors of `b`. -/
def Removed (sqrt : K → K) (c : K) (b : ℕ → Fin N → K) (v w : Fin N → K) (j : ℕ) : Prop :=
  (∃ r : ℕ → K, len sqrt (v - w - ∑ l ∈ Finset.range j, r l • b l) ≤ ((1 + c) ^ j - 1) * len sqrt v) ∧
  len sqrt w ≤ (1 + c) ^ j * len sqrt v ∧ ∀ l, l + 1 = j → |w ⬝ᵥ b l| ≤ c * (1 + c) ^ l * len sqrt v * len sqrt (b l)

theorem Removed.congr {c : K} {b b' : ℕ → Fin N → K} {v w : Fin N → K} {j : ℕ} (hb : ∀ l < j, b' l = b l) (h : Removed sqrt c b v w j) :
    Removed sqrt c b' v w j := by
  obtain ⟨⟨r, h1⟩, h2, h3⟩ := h
  refine ⟨⟨r, ?_⟩, h2, fun l hl => ?_⟩
  · rwa [Finset.sum_congr rfl fun l hl => by rw [hb l (Finset.mem_range.1 hl)]]
  · rw [hb l (by omega)]
    exact h3 l hl

theorem row_spec (hp : 1 ≤ p) (h : IsRound p rnd) (hs : IsSqrt sqrt) (hN : (1 + eps K p) ^ N < 2) (b : ℕ → Fin N → K) (i : ℕ) :
    (∀ k, k ≠ i → loop i (fun j b => Function.update b i (sub rnd (b i) (projectOn rnd (b i) (b j)))) b k = b k) ∧
    Removed sqrt (gsErr K p N) b (b i) (loop i (fun j b => Function.update b i (sub rnd (b i) (projectOn rnd (b i) (b j)))) b i) i := by
  have c0 := gsErr_nonneg (K := K) hN
  refine loop_inv (n := i) (f := fun j b => Function.update b i (sub rnd (b i) (projectOn rnd (b i) (b j)))) (s := b)
    (fun j b' => (∀ k, k ≠ i → b' k = b k) ∧ Removed sqrt (gsErr K p N) b (b i) (b' i) j) ⟨fun _ _ => rfl, ⟨0, by simp [(Shape.len_eq_zero hs).2]⟩, by simp, fun l hl => by omega⟩ ?_
  rintro j hj b' ⟨hk, ⟨r, hr⟩, hl, -⟩
  refine ⟨fun k hki => by rw [Function.update_of_ne hki, hk k hki], ?_⟩
  rw [Function.update_self, hk j (by omega)]
  obtain ⟨⟨t, ht⟩, h2, h3⟩ := step_spec hp h hs hN (b' i) (b j)
  set w := b' i
  set w' := sub rnd w (projectOn rnd w (b j))
  set c := gsErr K p N
  have q0 : 0 ≤ (1 + c) ^ j := by positivity
  refine ⟨⟨Function.update r j t, ?_⟩, ?_, ?_⟩
  · rw [Finset.sum_range_succ, Function.update_self, Finset.sum_congr rfl fun l hl => by
      rw [Function.update_of_ne (by have := Finset.mem_range.1 hl; omega)]]
    have e : b i - w' - (∑ l ∈ Finset.range j, r l • b l + t • b j) = (b i - w - ∑ l ∈ Finset.range j, r l • b l) + (w - w' - t • b j) := by abel
    rw [e]
    have h4 := Shape.len_add_le hs (b i - w - ∑ l ∈ Finset.range j, r l • b l) (w - w' - t • b j)
    have h5 := mul_le_mul_of_nonneg_left hl c0
    rw [pow_succ]
    linarith
  · have h5 := mul_le_mul_of_nonneg_left hl (show 0 ≤ 1 + c by linarith)
    rw [pow_succ]
    linarith
  · intro l hl'
    obtain rfl : l = j := by omega
    refine h3.trans (mul_le_mul_of_nonneg_right ?_ (Shape.len_nonneg hs _))
    have h5 := mul_le_mul_of_nonneg_left hl c0
    linarith

/-- **C127.** What the process returns is a triangular change of basis of its input, up to rounding: each input vector is its output plus a combination
of the outputs before it, up to an error that is small relative to its own length.  The first vector and those beyond the end are unchanged, no vector
grows by more than rounding, and each is orthogonal to the one before it up to rounding relative to the length of the input. -/
theorem C127_triangular (hp : 1 ≤ p) (h : IsRound p rnd) (hs : IsSqrt sqrt) (hN : (1 + eps K p) ^ N < 2) (b : ℕ → Fin N → K) (n : ℕ) :
    orthogonalize rnd b n 0 = b 0 ∧ (∀ k, n ≤ k → orthogonalize rnd b n k = b k) ∧ ∀ k < n,
      (∃ r : ℕ → K, len sqrt (b k - orthogonalize rnd b n k - ∑ l ∈ Finset.range k, r l • orthogonalize rnd b n l) ≤
        ((1 + gsErr K p N) ^ k - 1) * len sqrt (b k)) ∧
      len sqrt (orthogonalize rnd b n k) ≤ (1 + gsErr K p N) ^ k * len sqrt (b k) ∧
      ∀ l, l + 1 = k → |orthogonalize rnd b n k ⬝ᵥ orthogonalize rnd b n l| ≤
        gsErr K p N * (1 + gsErr K p N) ^ l * len sqrt (b k) * len sqrt (orthogonalize rnd b n l) := by
  rcases Nat.eq_zero_or_pos n with rfl | hn
  · exact ⟨rfl, fun _ _ => rfl, fun k hk => by omega⟩
  have key := loopFrom_inv (lo := 1) (hi := n)
    (f := fun i b => loop i (fun j b => Function.update b i (sub rnd (b i) (projectOn rnd (b i) (b j)))) b) (s := b)
    (fun i b' => b' 0 = b 0 ∧ (∀ k, i ≤ k → b' k = b k) ∧ ∀ k < i, Removed sqrt (gsErr K p N) b' (b k) (b' k) k) hn
    ⟨rfl, fun _ _ => rfl, fun k hk => by
      obtain rfl : k = 0 := by omega
      exact ⟨⟨0, by simp [(Shape.len_eq_zero hs).2]⟩, by simp, fun l hl => by omega⟩⟩ (by
      rintro i h1 h2 b' ⟨z, hge, hlt⟩
      obtain ⟨hk, hR⟩ := row_spec hp h hs hN b' i
      refine ⟨by rw [hk 0 (by omega), z], fun k hik => by rw [hk k (by omega), hge k (by omega)], fun k hki => ?_⟩
      rcases Nat.lt_or_ge k i with hlt' | hge'
      · rw [hk k (by omega)]
        exact (hlt k hlt').congr fun l hl => hk l (by omega)
      · obtain rfl : k = i := by omega
        rw [hge k le_rfl] at hR
        exact hR.congr fun l hl => hk l (by omega))
  exact key

/-- **C127.** A pair of vectors is made orthogonal up to rounding, relative to the lengths of the inputs. -/
theorem C127_pair (hp : 1 ≤ p) (h : IsRound p rnd) (hs : IsSqrt sqrt) (hN : (1 + eps K p) ^ N < 2) (b : ℕ → Fin N → K) :
    |orthogonalize rnd b 2 1 ⬝ᵥ orthogonalize rnd b 2 0| ≤ gsErr K p N * (len sqrt (b 1) * len sqrt (b 0)) := by
  obtain ⟨h0, -, h1⟩ := C127_triangular hp h hs hN b 2
  have := (h1 1 (by omega)).2.2 0 rfl
  rwa [pow_zero, mul_one, h0, mul_assoc, ← h0] at this

theorem norm_none {B : ℕ → Fin N → K} {k n : ℕ} (hk : k < n) (hB : mag rnd sqrt (B k) = 0) :
    loopM n (fun i (b : ℕ → Fin N → K) =>
      let m := mag rnd sqrt (b i)
      if m = 0 then none else some (Function.update b i fun k => rnd (b i k / m))) B = none := by
  have keep : ∀ m, ∀ s, loopM m (fun i (b : ℕ → Fin N → K) =>
      let m := mag rnd sqrt (b i)
      if m = 0 then none else some (Function.update b i fun k => rnd (b i k / m))) B = some s → ∀ l, m ≤ l → s l = B l := by
    intro m
    induction m with
    | zero =>
      intro s hs l _
      rw [loopM] at hs
      rw [← Option.some.inj hs]
    | succ m ih =>
      intro s hs l hl
      rw [loopM, Option.bind_eq_some_iff] at hs
      obtain ⟨t, ht, h2⟩ := hs
      simp only at h2
      split_ifs at h2
      rw [← Option.some.inj h2, Function.update_of_ne (by omega)]
      exact ih t ht l (by omega)
  induction n with
  | zero => omega
  | succ n ih =>
    rw [loopM, Option.bind_eq_none_iff]
    intro s hs
    rcases Nat.lt_or_ge k n with h1 | h1
    · rw [ih h1] at hs
      cases hs
    · obtain rfl : k = n := by omega
      simp only
      rw [keep k s hs k le_rfl, if_pos hB]

/-- **C127.** The vectors returned by `orthonormalize` have unit length up to rounding; it fails exactly if a vector vanishes in the process. -/
theorem C127_unit (hp : 1 ≤ p) (h : IsRound p rnd) (hs : IsSqrt sqrt) (hN : (1 + eps K p) ^ (N + 2) < 2) (b : ℕ → Fin N → K) (n : ℕ) :
    (orthonormalize rnd sqrt b n = none ↔ ∃ k < n, orthogonalize rnd b n k = 0) ∧
    ∀ o, orthonormalize rnd sqrt b n = some o → ∀ k < n, |len sqrt (o k) - 1| ≤ (1 + eps K p) / (2 - (1 + eps K p) ^ (N + 2)) - 1 := by
  have e0 := eps_pos (K := K) p
  set B := orthogonalize rnd b n
  have hz : ∀ v : Fin N → K, mag rnd sqrt v = 0 ↔ v = 0 := fun v => (C104_mag hp h (sqrt_spec hs) v).2.2.2
  have unit1 : ∀ v : Fin N → K, v ≠ 0 → |len sqrt (fun i => rnd (v i / mag rnd sqrt v)) - 1| ≤ (1 + eps K p) / (2 - (1 + eps K p) ^ (N + 2)) - 1 := by
    intro v hv
    have hL := Shape.len_pos hs hv
    have hm := (mag_near hp h hs v).1
    have hi := near_inv (d := (1 + eps K p) ^ (N + 2) - 1) (by linarith) (by rwa [abs_of_pos hL])
    rw [show 1 - ((1 + eps K p) ^ (N + 2) - 1) = 2 - (1 + eps K p) ^ (N + 2) by ring] at hi
    have h1 : len sqrt ((len sqrt v)⁻¹ • v) = 1 := (Shape.unit_eq hs hv).2
    rw [← h1]
    refine (len_near hs).trans ?_
    set q := 1 / (2 - (1 + eps K p) ^ (N + 2)) with hq
    have c0 : 0 ≤ (1 + eps K p) ^ (0 + 1) * q - 1 := by
      have := one_le_mul_of_one_le_of_one_le (show (1 : K) ≤ (1 + eps K p) ^ (0 + 1) from one_le_pow₀ (by linarith)) (q_ge hN)
      rw [← hq] at this
      linarith
    refine (len_le_of_abs hs (v := (len sqrt v)⁻¹ • v) c0 fun i => ?_).trans (le_of_eq ?_)
    · have := quot_round hp h (Near.refl (eps K p) (v i)) hL (q_ge hN) hi
      rw [Pi.smul_apply, smul_eq_mul, abs_mul, abs_of_pos (inv_pos.2 hL), Pi.sub_apply, Pi.smul_apply, smul_eq_mul]
      rwa [div_eq_mul_inv (v i) (len sqrt v), div_eq_mul_inv |v i|, mul_comm (v i) (len sqrt v)⁻¹, mul_comm |v i| (len sqrt v)⁻¹] at this
    · rw [h1, mul_one, hq, mul_one_div, zero_add, pow_one]
  by_cases hv : ∃ k < n, B k = 0
  · have hn : orthonormalize rnd sqrt b n = none := by
      obtain ⟨k, hk, hB⟩ := hv
      exact norm_none hk ((hz _).2 hB)
    exact ⟨⟨fun _ => hv, fun _ => hn⟩, fun o ho => by rw [hn] at ho; cases ho⟩
  · push Not at hv
    obtain ⟨o, ho, hP⟩ := loopM_inv (n := n) (f := fun i (b : ℕ → Fin N → K) =>
        let m := mag rnd sqrt (b i)
        if m = 0 then none else some (Function.update b i fun k => rnd (b i k / m))) (s := B)
      (fun i b' => (∀ k, i ≤ k → b' k = B k) ∧ ∀ k < i, |len sqrt (b' k) - 1| ≤ (1 + eps K p) / (2 - (1 + eps K p) ^ (N + 2)) - 1)
      ⟨fun _ _ => rfl, fun k hk => by omega⟩ (by
      rintro i hi b' ⟨h1, h2⟩
      have hb : b' i ≠ 0 := by
        rw [h1 i le_rfl]
        exact hv i hi
      refine ⟨_, if_neg (fun hh => hb ((hz _).1 hh)), fun k hk => by rw [Function.update_of_ne (by omega), h1 k (by omega)], fun k hk => ?_⟩
      rcases eq_or_ne k i with rfl | hki
      · rw [Function.update_self]
        exact unit1 _ hb
      · rw [Function.update_of_ne hki]
        exact h2 k (by omega))
    have ho' : orthonormalize rnd sqrt b n = some o := ho
    refine ⟨⟨(fun hh => by rw [ho'] at hh; cases hh), fun ⟨k, hk, hh⟩ => absurd hh (hv k hk)⟩, fun o' h' k hk => ?_⟩
    rw [ho'] at h'
    obtain rfl := Option.some.inj h'
    exact hP.2 k hk

/-! ## Nearly parallel vectors -/

theorem dot_first (h : IsRound p rnd) (u : Fin (n + 1) → K) (y : K) : dot rnd u (Pi.single 0 y) = rnd (u 0 * y) := by
  have h1 : ∀ (l : List (Fin n)) {z : K}, IsFloat p z →
      (l.map Fin.succ).foldl (fun sum i => multiplyAdd rnd (u i) ((Pi.single 0 y : Fin (n + 1) → K) i) sum) z = z := by
    intro l
    induction l with
    | nil => exact fun _ => rfl
    | cons i l ih =>
      intro z hz
      rw [List.map_cons, List.foldl_cons]
      simp only [Pi.single_apply, Fin.succ_ne_zero, if_false] at ih ⊢
      rw [multiplyAdd, mul_zero, zero_add, h.fix hz]
      exact ih hz
  rw [dot, List.finRange_succ, List.foldl_cons]
  simp only [Pi.single_eq_same, multiplyAdd, add_zero]
  exact h1 _ (h.mem _)

/-- The numbers of the counterexample. -/
theorem gs_nums (hp : 6 ≤ p) (h : IsRound p rnd) : ∃ a b : K, IsFloat p a ∧ IsFloat p b ∧ 0 < a ∧
    rnd (b - rnd (rnd (a * rnd (b * a)) / rnd (a * a))) ≠ 0 := by
  have hp1 : 1 ≤ p := by omega
  obtain ⟨m, rfl⟩ : ∃ m, p = m + 2 := ⟨p - 2, by omega⟩
  set u : K := 2 ^ (-((m + 2 : ℕ) : ℤ)) with hu
  set R : ℤ := 2 ^ m with hR
  have hR1 : 16 ≤ R := by
    have : (2 : ℤ) ^ 4 ≤ 2 ^ m := pow_le_pow_right₀ (by norm_num) (by omega)
    linarith
  have hP : (2 : ℤ) ^ (m + 2) = 4 * R := by
    rw [pow_add, ← hR]
    ring
  have hRu : (4 * (R : K)) * u = 1 := by
    have h1 : (4 * (R : K)) = 2 ^ ((m + 2 : ℕ) : ℤ) := by
      rw [zpow_natCast]
      exact_mod_cast hP.symm
    rw [h1, hu, ← zadd, add_neg_cancel, zpow_zero]
  have u0 : 0 < u := two_zpow_pos _
  have u1 : u ≤ 1 / 64 := by
    have : (16 : K) ≤ R := by exact_mod_cast hR1
    nlinarith
  have e1 : (2 : K) ^ (0 + 1 - ((m + 2 : ℕ) : ℤ)) = 2 * u := by
    rw [show (0 + 1 - ((m + 2 : ℕ) : ℤ)) = 1 + -((m + 2 : ℕ) : ℤ) by ring, zadd, zpow_one]
  have f1 : ∀ k : ℤ, |k| ≤ 4 * R → IsFloat (m + 2) ((k : K) * (2 * u)) := fun k hk => by
    rw [← e1]
    exact mem_le hp1 k _ (by rwa [hP])
  have near : ∀ (x : K) (k : ℤ), 1 ≤ x → |k| ≤ 4 * R → |x - k * (2 * u)| < u → rnd x = k * (2 * u) := fun x k hx hk hn => by
    rw [← e1] at hn ⊢
    refine h.eq_of_near hp1 (E := 0) k (by rwa [zpow_zero]) ?_ (by rwa [zero_sub])
    rw [e1]
    exact f1 k hk
  have uu : u * u ≤ u / 64 := by nlinarith
  have uu0 : 0 < u * u := mul_pos u0 u0
  have fa : IsFloat (m + 2) (1 + 2 * u) := by
    have := f1 (2 * R + 1) (by rw [abs_of_nonneg (by omega)]; omega)
    push_cast at this
    rwa [show (2 * (R : K) + 1) * (2 * u) = 1 + 2 * u by linear_combination hRu] at this
  have fb : IsFloat (m + 2) (3 / 2 + 2 * u) := by
    have := f1 (3 * R + 1) (by rw [abs_of_nonneg (by omega)]; omega)
    push_cast at this
    rwa [show (3 * (R : K) + 1) * (2 * u) = 3 / 2 + 2 * u by linear_combination (3 / 2) * hRu] at this
  have hd : rnd ((3 / 2 + 2 * u) * (1 + 2 * u)) = 3 / 2 + 6 * u := by
    have := near ((3 / 2 + 2 * u) * (1 + 2 * u)) (3 * R + 3) (by nlinarith) (by rw [abs_of_nonneg (by omega)]; omega) (by
      push_cast
      rw [show (3 / 2 + 2 * u) * (1 + 2 * u) - (3 * (R : K) + 3) * (2 * u) = -u + 4 * (u * u) by linear_combination (-(3 / 2)) * hRu, abs_lt]
      constructor <;> linarith)
    rw [this]
    push_cast
    linear_combination (3 / 2) * hRu
  have hm : rnd ((1 + 2 * u) * (1 + 2 * u)) = 1 + 4 * u := by
    have := near ((1 + 2 * u) * (1 + 2 * u)) (2 * R + 2) (by nlinarith) (by rw [abs_of_nonneg (by omega)]; omega) (by
      push_cast
      rw [show (1 + 2 * u) * (1 + 2 * u) - (2 * (R : K) + 2) * (2 * u) = 4 * (u * u) by linear_combination (-1) * hRu, abs_lt]
      constructor <;> linarith)
    rw [this]
    push_cast
    linear_combination hRu
  have hn : rnd ((1 + 2 * u) * (3 / 2 + 6 * u)) = 3 / 2 + 10 * u := by
    have := near ((1 + 2 * u) * (3 / 2 + 6 * u)) (3 * R + 5) (by nlinarith) (by rw [abs_of_nonneg (by omega)]; omega) (by
      push_cast
      rw [show (1 + 2 * u) * (3 / 2 + 6 * u) - (3 * (R : K) + 5) * (2 * u) = -u + 12 * (u * u) by linear_combination (-(3 / 2)) * hRu, abs_lt]
      constructor <;> linarith)
    rw [this]
    push_cast
    linear_combination (3 / 2) * hRu
  have hq : rnd ((3 / 2 + 10 * u) / (1 + 4 * u)) = 3 / 2 + 4 * u := by
    have d0 : 0 < 1 + 4 * u := by linarith
    have := near ((3 / 2 + 10 * u) / (1 + 4 * u)) (3 * R + 2) (by rw [le_div_iff₀ d0]; linarith) (by rw [abs_of_nonneg (by omega)]; omega) (by
      push_cast
      have e : (3 / 2 + 10 * u) / (1 + 4 * u) - (3 * (R : K) + 2) * (2 * u) = -(16 * (u * u)) / (1 + 4 * u) := by
        rw [show (3 * (R : K) + 2) * (2 * u) = 3 / 2 + 4 * u by linear_combination (3 / 2) * hRu, sub_eq_iff_eq_add, div_add' _ _ _ d0.ne']
        congr 1
        ring
      rw [e, abs_div, abs_of_pos d0, abs_neg, abs_of_pos (show 0 < 16 * (u * u) by linarith), div_lt_iff₀ d0]
      nlinarith)
    rw [this]
    push_cast
    linear_combination (3 / 2) * hRu
  refine ⟨1 + 2 * u, 3 / 2 + 2 * u, fa, fb, by linarith, ?_⟩
  rw [hd, hm, hn, hq, Ne, h.zero_iff hp1]
  intro hc
  linarith

/-- **C127** refuted for nearly parallel vectors: in every format with six bits or more and in every dimension from three there are linearly independent
vectors such that the vectors made of them are as nearly parallel as one likes. -/
theorem C127_parallel_refuted (hp : 6 ≤ p) (h : IsRound p rnd) (n : ℕ) {η : K} (h0 : 0 < η) :
    ∃ b : ℕ → Fin (n + 3) → K, (∀ k i, IsFloat p (b k i)) ∧ LinearIndependent K ![b 0, b 1] ∧ orthogonalize rnd b 2 1 ≠ 0 ∧
      (1 - η) * ((orthogonalize rnd b 2 0 ⬝ᵥ orthogonalize rnd b 2 0) * (orthogonalize rnd b 2 1 ⬝ᵥ orthogonalize rnd b 2 1)) ≤
        (orthogonalize rnd b 2 0 ⬝ᵥ orthogonalize rnd b 2 1) ^ 2 := by
  have hp1 : 1 ≤ p := by omega
  obtain ⟨a, b, fa, fb, a0, hr⟩ := gs_nums (K := K) hp h
  set ρ := rnd (b - rnd (rnd (a * rnd (b * a)) / rnd (a * a))) with hρ
  obtain ⟨k, hk⟩ := exists_pow_lt_of_lt_one (show 0 < η * ρ ^ 2 by positivity) (show (1 / 2 : K) < 1 by norm_num)
  set w : K := (1 / 2) ^ k with hw
  have w0 : 0 < w := by positivity
  have w1 : w ≤ 1 := pow_le_one₀ (by norm_num) (by norm_num)
  have fw : IsFloat p w := by
    have := float_pow (K := K) hp1 (-(k : ℤ))
    rwa [zpow_neg, zpow_natCast, ← inv_pow, ← one_div] at this
  let v0 : Fin (n + 3) → K := Pi.single 0 a
  let v1 : Fin (n + 3) → K := Fin.cons b (Pi.single 0 w)
  let B : ℕ → Fin (n + 3) → K := fun k => if k = 0 then v0 else if k = 1 then v1 else 0
  have m0 : rnd (a * a) ≠ 0 := by
    rw [Ne, h.zero_iff hp1]
    positivity
  have hpr : projectOn rnd v1 v0 = Pi.single 0 (rnd (rnd (a * rnd (b * a)) / rnd (a * a))) := by
    funext i
    have e1 : mag2 rnd v0 = rnd (a * a) := dot_first h _ _
    have e2 : dot rnd v1 v0 = rnd (b * a) := dot_first h _ _
    rw [projectOn, if_pos (by rw [e1]; exact m0), e1, e2]
    refine Fin.cases rfl (fun j => ?_) i
    have : v0 j.succ = 0 := by
      rw [show v0 = Pi.single 0 a from rfl, Pi.single_apply, if_neg (Fin.succ_ne_zero j)]
    rw [this, zero_mul, h.fix (float_zero p), zero_div, h.fix (float_zero p), Pi.single_apply, if_neg (Fin.succ_ne_zero j)]
  have hout : sub rnd v1 (projectOn rnd v1 v0) = Fin.cons ρ (Pi.single 0 w) := by
    rw [hpr]
    funext i
    refine Fin.cases rfl (fun j => ?_) i
    rw [sub, Fin.cons_succ, Pi.single_apply, if_neg (Fin.succ_ne_zero j), sub_zero]
    change rnd ((Pi.single 0 w : Fin (n + 2) → K) j) = _
    rw [Pi.single_apply]
    split_ifs
    · exact h.fix fw
    · exact h.fix (float_zero p)
  have o1 : orthogonalize rnd B 2 1 = Fin.cons ρ (Pi.single 0 w) := by
    rw [← hout]
    rfl
  have o0 : orthogonalize rnd B 2 0 = v0 := rfl
  have d00 : v0 ⬝ᵥ v0 = a * a := by
    rw [show v0 = Pi.single 0 a from rfl, single_dotProduct, Pi.single_eq_same]
  have d01 : v0 ⬝ᵥ (Fin.cons ρ (Pi.single 0 w) : Fin (n + 3) → K) = a * ρ := by
    rw [show v0 = Pi.single 0 a from rfl, single_dotProduct, Fin.cons_zero]
  have d11 : (Fin.cons ρ (Pi.single 0 w) : Fin (n + 3) → K) ⬝ᵥ Fin.cons ρ (Pi.single 0 w) = ρ * ρ + w * w := by
    rw [dotProduct, Fin.sum_univ_succ, Fin.cons_zero]
    congr 1
    simp only [Fin.cons_succ]
    change (Pi.single 0 w : Fin (n + 2) → K) ⬝ᵥ Pi.single 0 w = _
    rw [single_dotProduct, Pi.single_eq_same]
  refine ⟨B, ?_, ?_, ?_, ?_⟩
  · intro k i
    change IsFloat p ((if k = 0 then v0 else if k = 1 then v1 else 0) i)
    split_ifs
    · change IsFloat p ((Pi.single 0 a : Fin (n + 3) → K) i)
      rw [Pi.single_apply]
      split_ifs
      · exact fa
      · exact float_zero p
    · refine Fin.cases fb (fun j => ?_) i
      change IsFloat p ((Pi.single 0 w : Fin (n + 2) → K) j)
      rw [Pi.single_apply]
      split_ifs
      · exact fw
      · exact float_zero p
    · exact float_zero p
  · rw [LinearIndependent.pair_iff]
    intro s t hst
    have e1 := congrFun hst 1
    have e0 := congrFun hst 0
    have z1 : s * 0 + t * w = 0 := e1
    have z0 : s * a + t * b = 0 := e0
    have t0 : t = 0 := by
      rw [mul_zero, zero_add] at z1
      exact (mul_eq_zero.1 z1).resolve_right w0.ne'
    rw [t0, zero_mul, add_zero] at z0
    exact ⟨(mul_eq_zero.1 z0).resolve_right a0.ne', t0⟩
  · rw [o1]
    intro hc
    exact hr (congrFun hc 0)
  · rw [o0, o1, d00, d01, d11]
    have ww : w * w ≤ η * ρ ^ 2 := by nlinarith
    have : (1 - η) * (ρ * ρ + w * w) ≤ ρ * ρ := by nlinarith
    have := mul_le_mul_of_nonneg_left this (mul_self_nonneg a)
    linarith

/-- With six bits: the third axis direction is found exactly; 33/32 and 49/32 along the same axis leave a remainder. -/
example : let b : ℕ → Fin 3 → ℚ := fun k => if k = 0 then ![33 / 32, 0, 0] else if k = 1 then ![49 / 32, 1 / 1024, 0] else ![1, 2, 3]
    orthogonalize (nearest 6) b 2 1 = ![-1 / 32, 1 / 1024, 0] ∧
    orthogonalize (nearest 6 : ℚ → ℚ) (fun k => if k = 0 then ![2, 0, 0] else if k = 1 then ![1, 1, 0] else ![5, 7, 9]) 3 2 = ![0, 0, 9] ∧
    projectOn (nearest 6 : ℚ → ℚ) ![1, 1, 1] ![1, 2, 0] = ![19 / 32, 19 / 16, 0] ∧
    (orthonormalize (nearest 6) (fun x : ℚ => if x = 4 then 2 else if x = 1 then 1 else 0) (fun k => if k = 0 then ![2, 0, 0] else ![3, 1, 0]) 2).map
      (fun o => o 1) = some ![0, 1, 0] := by
  decide +kernel

end Geomc.Flt
