import Verif.Util.Lemmas
import Mathlib.Analysis.Calculus.Deriv.Polynomial
import Mathlib.Analysis.Calculus.Deriv.Mul
import Mathlib.Analysis.Calculus.Deriv.Pow

/-! # Properties C01-C07: `geomc/function/Utils.h` -/

namespace Geomc.Util

/-! ## C01 positive_mod -/

/-- C01 (signed integers).  For `0 < b` with `2 b` representable, no undefined behaviour occurs and
the result is the unique representative of `a` modulo `b` in `[0, b)`. -/
theorem C01_positiveMod (w : ℕ) (a b : ℤ) (ha1 : -(2 ^ (w - 1)) ≤ a) (ha2 : a < 2 ^ (w - 1))
    (hb : 0 < b) (hb2 : 2 * b ≤ 2 ^ (w - 1)) :
    ∃ r, positiveMod w a b = some r ∧ 0 ≤ r ∧ r < b ∧ b ∣ a - r := by
  have hm1 : -b < a.tmod b := by
    have := Int.tmod_lt_of_pos (-a) hb
    rw [Int.neg_tmod] at this; omega
  have hm2 : a.tmod b < b := Int.tmod_lt_of_pos a hb
  have hpos : 0 ≤ a.tmod b + b := by omega
  refine ⟨(a.tmod b + b).tmod b, ?_, Int.tmod_nonneg _ hpos, Int.tmod_lt_of_pos _ hb, ?_⟩
  · simp only [positiveMod, cmod, hb.ne', if_false, tdiv_chk hb ha1 ha2, Option.bind_eq_bind,
      Option.bind_some]
    rw [chk_some (by omega) (by omega)]
    simp only [Option.bind_some]
    rw [tdiv_chk hb (by omega) (by omega)]
    rfl
  · have h1 : b ∣ a - a.tmod b := Int.dvd_self_sub_tmod
    have h2 : b ∣ (a.tmod b + b) - (a.tmod b + b).tmod b := Int.dvd_self_sub_tmod
    have : a - (a.tmod b + b).tmod b
        = (a - a.tmod b) + ((a.tmod b + b) - (a.tmod b + b).tmod b) - b := by ring
    rw [this]
    exact dvd_sub (dvd_add h1 h2) (dvd_refl b)

/-- C01: a zero modulus is undefined behaviour at every width. -/
theorem C01_positiveMod_zero (w : ℕ) (a : ℤ) : positiveMod w a 0 = none := by
  simp [positiveMod, cmod]

/-- C01 (unsigned integers), when `2 b` fits in the word. -/
theorem C01_positiveModU (w a b : ℕ) (hb : 0 < b) (hb2 : 2 * b ≤ 2 ^ w) :
    positiveModU w a b = some (a % b) := by
  have h := Nat.mod_lt a hb
  have : (a % b + b) % 2 ^ w = a % b + b := Nat.mod_eq_of_lt (by omega)
  simp [positiveModU, hb.ne', this]

/-- C01 is *false* for moduli above half the range: the 32-bit signed call overflows and the 32-bit
unsigned call returns a wrong residue. -/
theorem C01_large_modulus_refuted :
    positiveMod 32 (2 ^ 31 - 2) (2 ^ 31 - 1) = none ∧
    positiveModU 32 (2 ^ 32 - 2) (2 ^ 32 - 1) = some (2 ^ 32 - 3) := by decide +kernel

/-- C01 (real arguments). -/
theorem C01_positiveModF {K : Type*} [Field K] [LinearOrder K] [IsStrictOrderedRing K] [FloorRing K]
    (a b : K) (hb : 0 < b) :
    0 ≤ positiveModF a b ∧ positiveModF a b < b ∧ ∃ k : ℤ, a = positiveModF a b + k * b := by
  refine ⟨?_, ?_, ⌊a / b⌋, by simp [positiveModF]; ring⟩
  · have := Int.floor_le (a / b)
    rw [le_div_iff₀ hb] at this
    simp only [positiveModF]; linarith
  · have := Int.lt_floor_add_one (a / b)
    rw [div_lt_iff₀ hb] at this
    simp only [positiveModF]; linarith

example : positiveMod 64 (-7) 3 = some 2 := by decide
example : positiveModF (-7 / 2 : ℚ) 3 = 5 / 2 := by
  rw [positiveModF, show ⌊(-7 / 2 / 3 : ℚ)⌋ = -2 by rw [Int.floor_eq_iff]; norm_num]; norm_num

/-! ## C02 ceil_div, floor_div, snap -/

/-- C02: for a positive divisor and no overflow, `ceil_div` is the ceiling of the quotient *exactly*
on `-b < a` or when `a - 1` is a multiple of `b`; everywhere else the code is wrong. -/
theorem C02_ceilDiv_iff (w : ℕ) (a b : ℤ) (hb : 0 < b)
    (h1 : -(2 ^ (w - 1)) ≤ a) (h2 : a + b < 2 ^ (w - 1)) :
    ceilDiv w a b = some ⌈(a : ℚ) / b⌉ ↔ -b < a ∨ b ∣ a - 1 := by
  rw [ceil_rat a b hb, ceilDiv, chk_some (by omega) h2]
  simp only [Option.bind_eq_bind, Option.bind_some]
  rw [chk_some (by omega) (by omega)]
  simp only [Option.bind_some, cdiv, hb.ne', if_false]
  rw [tdiv_chk hb (by omega) (by omega), Option.some.injEq, tdiv_eq_floor_iff hb]
  have e : b ∣ a + b - 1 ↔ b ∣ a - 1 := by
    rw [show a + b - 1 = (a - 1) + b by ring]; exact dvd_add_self_right
  rw [e]
  constructor <;> rintro (h | h) <;> first | (left; omega) | (right; exact h)

/-- C02 (partial): on every `a > -b` with `b > 0` (in particular all non-negative numerators)
`ceil_div` is the ceiling.  Missing: numerators `a ≤ -b`, where the code is wrong. -/
theorem C02_ceilDiv_partial (w : ℕ) (a b : ℤ) (hb : 0 < b) (ha : -b < a)
    (h1 : -(2 ^ (w - 1)) ≤ a) (h2 : a + b < 2 ^ (w - 1)) :
    ceilDiv w a b = some ⌈(a : ℚ) / b⌉ := (C02_ceilDiv_iff w a b hb h1 h2).2 (Or.inl ha)

/-- C02: for a positive divisor and no overflow, `floor_div` is the floor of the quotient *exactly*
on `-b ≤ a` or when `b` divides `a`. -/
theorem C02_floorDiv_iff (w : ℕ) (a b : ℤ) (hb : 0 < b)
    (h1 : -(2 ^ (w - 1)) < a) (h2 : a + b < 2 ^ (w - 1)) :
    floorDiv w a b = some ⌊(a : ℚ) / b⌋ ↔ -b ≤ a ∨ b ∣ a := by
  rw [floor_rat a b hb, floorDiv, chk_some (by omega) h2]
  simp only [Option.bind_eq_bind, Option.bind_some, cdiv, hb.ne', if_false]
  rw [tdiv_chk hb (by omega) (by omega)]
  simp only [Option.bind_some]
  have hlo : -(2 ^ (w - 1)) < (a + b).tdiv b := by
    have := tdiv_lower (a + b) (m := 2 ^ (w - 1) - 1) hb (by have : (0:ℤ) < 2 ^ (w-1) := by positivity
                                                             omega) (by omega)
    omega
  have hhi := tdiv_upper (a + b) (m := 2 ^ (w - 1)) hb (by positivity) h2
  rw [chk_some (by omega) (by omega), Option.some.injEq]
  have e : (a + b) / b = a / b + 1 := Int.add_ediv_of_dvd_right (dvd_refl b) |>.trans (by
    rw [Int.ediv_self hb.ne'])
  rw [show ((a + b).tdiv b - 1 = a / b) ↔ ((a + b).tdiv b = (a + b) / b) by omega,
    tdiv_eq_floor_iff hb, dvd_add_self_right]
  constructor <;> rintro (h | h) <;> first | (left; omega) | (right; exact h)

/-- C02 (partial): `floor_div` is the floor on `a ≥ -b`, `b > 0`.  Missing: smaller numerators,
where the code is wrong unless `b` divides `a`. -/
theorem C02_floorDiv_partial (w : ℕ) (a b : ℤ) (hb : 0 < b) (ha : -b ≤ a)
    (h1 : -(2 ^ (w - 1)) < a) (h2 : a + b < 2 ^ (w - 1)) :
    floorDiv w a b = some ⌊(a : ℚ) / b⌋ := (C02_floorDiv_iff w a b hb h1 h2).2 (Or.inl ha)

/-- C02 (partial): `snap` gives the smallest multiple of `b` that is at least `a`, on `a > -b`. -/
theorem C02_snap_partial (w : ℕ) (a b : ℤ) (hb : 0 < b) (ha : -b < a)
    (h1 : -(2 ^ (w - 1)) ≤ a) (h2 : a + b < 2 ^ (w - 1)) :
    ∃ r, snap w a b = some r ∧ b ∣ r ∧ a ≤ r ∧ ∀ m, b ∣ m → a ≤ m → r ≤ m := by
  have h := C02_ceilDiv_partial w a b hb ha h1 h2
  rw [ceil_rat a b hb] at h
  have q1 := Int.ediv_mul_le (a + b - 1) hb.ne'
  have q2 := Int.lt_ediv_add_one_mul_self (a + b - 1) hb
  set q := (a + b - 1) / b
  have hq0 : 0 ≤ q := Int.ediv_nonneg (by omega) hb.le
  have hle : a ≤ b * q := by nlinarith
  have hlt : b * q < a + b := by nlinarith
  refine ⟨b * q, ?_, dvd_mul_right b q, hle, ?_⟩
  · simp only [snap, h, Option.bind_eq_bind, Option.bind_some]
    rw [chk_some]
    · have : 0 ≤ b * q := by positivity
      have : (0:ℤ) < 2 ^ (w-1) := by positivity
      omega
    · omega
  · rintro m ⟨k, rfl⟩ hm
    have : q ≤ k := by
      by_contra hk
      have : k ≤ q - 1 := by omega
      have : b * k ≤ b * (q - 1) := by nlinarith
      nlinarith
    nlinarith

/-- C02 fails as documented: `ceil_div(-4,2)` is `-1` (should be `-2`), `floor_div(-3,2)` is `-1`
(should be `-2`), `snap(-4,2) = -2`, and with a negative divisor `ceil_div(4,-2) = -0`... -/
theorem C02_refuted :
    (ceilDiv 32 (-4) 2 = some (-1) ∧ ⌈((-4 : ℤ) : ℚ) / (2 : ℤ)⌉ = -2) ∧
    (floorDiv 32 (-3) 2 = some (-1) ∧ ⌊((-3 : ℤ) : ℚ) / (2 : ℤ)⌋ = -2) ∧
    snap 32 (-4) 2 = some (-2) ∧
    (ceilDiv 32 5 (-2) = some (-1) ∧ ⌈((5 : ℤ) : ℚ) / (-2 : ℤ)⌉ = -2) := by
  refine ⟨⟨by decide, by norm_num⟩, ⟨by decide, ?_⟩, by decide, ⟨by decide, ?_⟩⟩
  · rw [Int.floor_eq_iff]; norm_num
  · rw [Int.ceil_eq_iff]; norm_num

example : ceilDiv 32 (-1) 2 = some 0 ∧ floorDiv 32 (-2) 3 = some (-1) ∧ snap 32 7 4 = some 8 := by
  decide

/-! ## C03 clamp, is_power_of_two -/

/-- C03: clamp stays inside, is the identity inside, and yields the end points outside. -/
theorem C03_clamp {K : Type*} [LinearOrder K] (v lo hi : K) (h : lo ≤ hi) :
    lo ≤ clamp v lo hi ∧ clamp v lo hi ≤ hi ∧
    (lo ≤ v → v ≤ hi → clamp v lo hi = v) ∧
    (v ≤ lo → clamp v lo hi = lo) ∧ (hi ≤ v → clamp v lo hi = hi) := by
  unfold clamp
  refine ⟨le_max_left _ _, max_le h (min_le_left _ _), ?_, ?_, ?_⟩
  · intro h1 h2; rw [min_eq_right h2, max_eq_right h1]
  · intro h1; rw [max_eq_left ((min_le_right _ _).trans h1)]
  · intro h1; rw [min_eq_left h1, max_eq_right h]

/-- C03: clamp is the point of `[lo, hi]` closest to `v`. -/
theorem C03_clamp_nearest {K : Type*} [Field K] [LinearOrder K] [IsStrictOrderedRing K]
    (v lo hi x : K) (h : lo ≤ hi) (h1 : lo ≤ x) (h2 : x ≤ hi) :
    |v - clamp v lo hi| ≤ |v - x| := by
  obtain ⟨_, _, hin, hl, hh⟩ := C03_clamp v lo hi h
  rcases le_total v lo with hv | hv
  · rw [hl hv, abs_of_nonpos (by linarith), abs_of_nonpos (by linarith)]; linarith
  · rcases le_total hi v with hv2 | hv2
    · rw [hh hv2, abs_of_nonneg (by linarith), abs_of_nonneg (by linarith)]; linarith
    · rw [hin hv hv2]; simp

/-- C03: exact characterisation of `is_power_of_two`. -/
theorem C03_isPowerOfTwo (x : ℕ) : isPowerOfTwo x = true ↔ ∃ k, x = 2 ^ k := by
  unfold isPowerOfTwo
  simp only [Bool.and_eq_true, decide_eq_true_eq, beq_iff_eq]
  constructor
  · rintro ⟨h0, h⟩
    exact pow_and_pred_aux x x (by omega) h Nat.lt_two_pow_self
  · rintro ⟨k, rfl⟩
    exact ⟨by positivity, two_pow_and_pred k⟩

example : clamp (7 : ℤ) 0 5 = 5 ∧ isPowerOfTwo 64 = true ∧ isPowerOfTwo 96 = false := by decide

/-! ## C04 linear interpolation over any number of axes -/

/-- C04: `interp_linear` over `n+1` axes is the multilinear blend in which table entry `c` sits at
the corner whose coordinate on axis `i` is bit `i` of `c`.  (It reads exactly the `2^(n+1)` entries.) -/
theorem C04_multilinear {K : Type*} [Field K] (s : ℕ → K) (n : ℕ) (p : ℕ → K) :
    interpLinear s (n + 1) p =
      ∑ c ∈ Finset.range (2 ^ (n + 1)),
        p c * ∏ i ∈ Finset.range (n + 1), (if c.testBit i then s i else 1 - s i) :=
  interpLinear_sum s n p

/-- C04: at the corner of the cube numbered `c` the stored sample is returned. -/
theorem C04_corner {K : Type*} [Field K] (n c : ℕ) (hc : c < 2 ^ (n + 1)) (p : ℕ → K) (s : ℕ → K)
    (hs : ∀ i, i < n + 1 → s i = if c.testBit i then 1 else 0) :
    interpLinear s (n + 1) p = p c := by
  rw [interpLinear_sum, Finset.sum_eq_single c]
  · rw [Finset.prod_eq_one, mul_one]
    intro i hi
    rw [hs i (Finset.mem_range.mp hi)]
    cases c.testBit i <;> simp
  · intro d hd hdc
    have hd' := Finset.mem_range.mp hd
    obtain ⟨i, hi, hne⟩ : ∃ i, i < n + 1 ∧ d.testBit i ≠ c.testBit i := by
      by_contra hcon
      push Not at hcon
      apply hdc
      apply Nat.eq_of_testBit_eq
      intro i
      by_cases hi : i < n + 1
      · exact hcon i hi
      · have hp : 2 ^ (n + 1) ≤ 2 ^ i := Nat.pow_le_pow_right (by norm_num) (by omega)
        rw [Nat.testBit_lt_two_pow (lt_of_lt_of_le hd' hp),
          Nat.testBit_lt_two_pow (lt_of_lt_of_le hc hp)]
    rw [Finset.prod_eq_zero (Finset.mem_range.mpr hi), mul_zero]
    rw [hs i hi]
    revert hne
    cases d.testBit i <;> cases c.testBit i <;> simp
  · intro h; exact absurd (Finset.mem_range.mpr hc) h

/-- C04: for parameters in `[0,1]` the result stays between bounds on the samples. -/
theorem C04_range {K : Type*} [Field K] [LinearOrder K] [IsStrictOrderedRing K] (n : ℕ) (p s : ℕ → K)
    (lo hi : K) (hs : ∀ i, i < n + 1 → 0 ≤ s i ∧ s i ≤ 1)
    (hp : ∀ c, c < 2 ^ (n + 1) → lo ≤ p c ∧ p c ≤ hi) :
    lo ≤ interpLinear s (n + 1) p ∧ interpLinear s (n + 1) p ≤ hi := by
  induction n generalizing p with
  | zero =>
    have h0 := hs 0 (by norm_num)
    have a := hp 0 (by norm_num)
    have b := hp 1 (by norm_num)
    simp only [interpLinear, mix]
    constructor <;> nlinarith [h0.1, h0.2, a.1, a.2, b.1, b.2]
  | succ n ih =>
    have e : 2 ^ (n + 1 + 1) = 2 ^ (n + 1) + 2 ^ (n + 1) := by ring
    have a := ih p (fun i hi => hs i (by omega)) (fun c hc => hp c (by omega))
    have b := ih (fun i => p (2 ^ (n + 1) + i)) (fun i hi => hs i (by omega))
      (fun c hc => hp _ (by omega))
    have h0 := hs (n + 1) (by omega)
    simp only [interpLinear, mix]
    constructor <;> nlinarith [h0.1, h0.2, a.1, a.2, b.1, b.2]

/-- C04: affine data is reproduced exactly: if the samples are those of an affine function, so is
the interpolant. -/
theorem C04_affine_exact {K : Type*} [Field K] (n : ℕ) (a : K) (g s : ℕ → K) :
    interpLinear s (n + 1)
        (fun c => a + ∑ i ∈ Finset.range (n + 1), g i * (if c.testBit i then 1 else 0))
      = a + ∑ i ∈ Finset.range (n + 1), g i * s i := by
  induction n generalizing a with
  | zero => simp [interpLinear, mix]; ring
  | succ n ih =>
    rw [interpLinear]
    have congr_tab : ∀ p q : ℕ → K, (∀ c, c < 2 ^ (n + 1) → p c = q c) →
        interpLinear s (n + 1) p = interpLinear s (n + 1) q := by
      intro p q h
      rw [interpLinear_sum, interpLinear_sum]
      exact Finset.sum_congr rfl fun c hc => by rw [h c (Finset.mem_range.mp hc)]
    have t1 := congr_tab (fun c => a + ∑ i ∈ Finset.range (n + 1 + 1),
        g i * (if c.testBit i then 1 else 0))
      (fun c => a + ∑ i ∈ Finset.range (n + 1), g i * (if c.testBit i then 1 else 0))
    have t2 := congr_tab (fun j => a + ∑ i ∈ Finset.range (n + 1 + 1),
        g i * (if (2 ^ (n + 1) + j).testBit i then 1 else 0))
      (fun c => (a + g (n + 1)) + ∑ i ∈ Finset.range (n + 1), g i * (if c.testBit i then 1 else 0))
    rw [t1, t2, ih, ih, Finset.sum_range_succ _ (n + 1), mix]
    · ring
    · intro c hc
      rw [Finset.sum_range_succ _ (n + 1)]
      have h1 : (2 ^ (n + 1) + c).testBit (n + 1) = true := by
        rw [Nat.testBit_two_pow_add_eq, Nat.testBit_lt_two_pow hc]; rfl
      rw [h1, Finset.sum_congr rfl fun i hi => by
        rw [Nat.testBit_two_pow_add_gt (Finset.mem_range.mp hi)]]
      simp; ring
    · intro c hc
      rw [Finset.sum_range_succ _ (n + 1), Nat.testBit_lt_two_pow hc]
      simp

example : interpLinear (fun i => if i = 0 then (1 / 4 : ℚ) else 1 / 2) 2 (fun c => (c : ℚ)) = 5 / 4 := by
  norm_num [interpLinear, mix]

/-! ## C05 cubic interpolation -/

/-- Spec for C05: the four Catmull-Rom blending weights at parameter `s` (tap `d` = 0..3). -/
def catmullRom {K : Type*} [Field K] (s : K) : ℕ → K
  | 0 => (-s + 2 * s ^ 2 - s ^ 3) / 2
  | 1 => (2 - 5 * s ^ 2 + 3 * s ^ 3) / 2
  | 2 => (s + 4 * s ^ 2 - 3 * s ^ 3) / 2
  | 3 => (-s ^ 2 + s ^ 3) / 2
  | _ => 0

/-- C05: over `n+1` axes `interp_cubic` is the tensor-product Catmull-Rom blend of the `4^(n+1)`
samples, base-4 digit `i` of the table index being the tap along axis `i`. -/
theorem C05_tensor {K : Type*} [Field K] [CharZero K] (s : ℕ → K) (n : ℕ) (p : ℕ → K) :
    interpCubic s (n + 1) p =
      ∑ c ∈ Finset.range (4 ^ (n + 1)),
        p c * ∏ i ∈ Finset.range (n + 1), catmullRom (s i) (c / 4 ^ i % 4) := by
  rw [interpCubic_sum]
  refine Finset.sum_congr rfl fun c _ => ?_
  congr 1
  refine Finset.prod_congr rfl fun i _ => ?_
  have h : c / 4 ^ i % 4 < 4 := Nat.mod_lt _ (by norm_num)
  generalize c / 4 ^ i % 4 = d at h ⊢
  have : d = 0 ∨ d = 1 ∨ d = 2 ∨ d = 3 := by omega
  rcases this with rfl | rfl | rfl | rfl <;>
    simp only [cubicW, catmullRom, interpCubic1] <;> ring

/-- C05: sample reproduction at the two ends of the centre cell along one axis. -/
theorem C05_endpoints {K : Type*} [Field K] [CharZero K] (p0 p1 p2 p3 : K) :
    interpCubic1 0 p0 p1 p2 p3 = p1 ∧ interpCubic1 1 p0 p1 p2 p3 = p2 := by
  constructor <;> simp only [interpCubic1]
  · ring
  · ring

/-- C05: at the grid point of the centre cell with corner bits `b`, the stored sample is returned,
for any number of axes. -/
theorem C05_gridpoint {K : Type*} [Field K] [CharZero K] (n : ℕ) (p : ℕ → K) (b : ℕ → Bool) :
    interpCubic (fun i => if b i then 1 else 0) (n + 1) p
      = p (∑ i ∈ Finset.range (n + 1), (if b i then 2 else 1) * 4 ^ i) := by
  induction n generalizing p with
  | zero =>
    have := C05_endpoints (p 0) (p 1) (p 2) (p 3)
    cases h : b 0 <;> simp [interpCubic, h, this.1, this.2]
  | succ n ih =>
    rw [interpCubic]
    simp only [ih]
    have hb : 2 ^ (2 * (n + 1)) = 4 ^ (n + 1) := by rw [pow_mul]; norm_num
    rw [hb, Finset.sum_range_succ _ (n + 1)]
    cases h : b (n + 1)
    · simp only [Bool.false_eq_true, if_false, (C05_endpoints _ _ _ _).1]
      congr 1; ring
    · simp only [if_true, (C05_endpoints _ _ _ _).2]
      congr 1; ring

/-- C05: quadratics are reproduced exactly in one dimension. -/
theorem C05_quadratic_exact {K : Type*} [Field K] [CharZero K] (a b c s : K) :
    let f : K → K := fun x => a * x ^ 2 + b * x + c
    interpCubic1 s (f (-1)) (f 0) (f 1) (f 2) = f s := by
  simp only [interpCubic1]; ring

/-- C05: neighbouring cells join with a common first derivative, namely the central difference at
the shared sample. -/
theorem C05_C1_join (p0 p1 p2 p3 p4 : ℝ) :
    HasDerivAt (fun s => interpCubic1 s p0 p1 p2 p3) ((p3 - p1) / 2) 1 ∧
    HasDerivAt (fun s => interpCubic1 s p1 p2 p3 p4) ((p3 - p1) / 2) 0 := by
  have key : ∀ q0 q1 q2 q3 x : ℝ, HasDerivAt (fun s => interpCubic1 s q0 q1 q2 q3)
      (1 / 2 * (q2 - q0) + (2 * q0 - 5 * q1 + 4 * q2 - q3) * x
        + 3 / 2 * (3 * (q1 - q2) + q3 - q0) * x ^ 2) x := by
    intro q0 q1 q2 q3 x
    have h1 := ((hasDerivAt_id x).const_mul (1 / 2 * (q2 - q0)))
    have h2 := ((hasDerivAt_pow 2 x).const_mul (1 / 2 * (2 * q0 - 5 * q1 + 4 * q2 - q3)))
    have h3 := ((hasDerivAt_pow 3 x).const_mul (1 / 2 * (3 * (q1 - q2) + q3 - q0)))
    have h := ((h1.add h2).add h3).const_add q1
    refine (h.congr_deriv ?_).congr_of_eventuallyEq (Filter.Eventually.of_forall fun s => ?_)
    · norm_num; ring
    · simp [interpCubic1]; ring
  constructor
  · exact (key p0 p1 p2 p3 1).congr_deriv (by ring)
  · exact (key p1 p2 p3 p4 0).congr_deriv (by ring)

example : interpCubic1 (1 / 2 : ℚ) 1 0 1 4 = 1 / 4 := by norm_num [interpCubic1]

/-! ## C06 quadratic_solve -/

/-- C06: the call succeeds exactly when a real root exists and the coefficients are not all zero. -/
theorem C06_success_iff (a b c : ℝ) :
    (quadraticSolve a b c).isSome ↔
      (∃ x : ℝ, a * x ^ 2 + b * x + c = 0) ∧ ¬ (a = 0 ∧ b = 0 ∧ c = 0) := by
  unfold quadraticSolve
  by_cases h : b * b - 4 * a * c < 0 ∨ a = 0 ∧ b = 0
  · simp only [h, if_true, Option.isSome_none, Bool.false_eq_true, false_iff]
    rintro ⟨⟨x, hx⟩, hn⟩
    rcases h with h | ⟨ha, hb⟩
    · have : (2 * a * x + b) ^ 2 = b * b - 4 * a * c := by linear_combination 4 * a * hx
      nlinarith [sq_nonneg (2 * a * x + b)]
    · subst ha hb; exact hn ⟨rfl, rfl, by simpa using hx⟩
  · simp only [h, if_false]
    push Not at h
    obtain ⟨hd, hab⟩ := h
    simp only [Option.isSome_some, true_iff]
    refine ⟨?_, fun ⟨h1, h2, _⟩ => hab h1 h2⟩
    by_cases ha : a = 0
    · exact ⟨-c / b, by subst ha; field_simp [hab rfl]; ring⟩
    · refine ⟨(-b + Real.sqrt (b * b - 4 * a * c)) / (2 * a), ?_⟩
      have hs := Real.mul_self_sqrt hd
      set r := Real.sqrt (b * b - 4 * a * c)
      field_simp
      nlinarith

/-- C06: on success, the roots are exactly the two reported numbers. -/
theorem C06_roots (a b c r0 r1 : ℝ) (h : quadraticSolve a b c = some (r0, r1)) (x : ℝ) :
    a * x ^ 2 + b * x + c = 0 ↔ x = r0 ∨ x = r1 := by
  unfold quadraticSolve at h
  by_cases hcond : b * b - 4 * a * c < 0 ∨ a = 0 ∧ b = 0
  · simp only [hcond, if_true, reduceCtorEq] at h
  simp only [hcond, if_false, Option.some.injEq, Prod.mk.injEq] at h
  push Not at hcond
  obtain ⟨hd, hab⟩ := hcond
  have hs := Real.mul_self_sqrt hd
  have hs0 := Real.sqrt_nonneg (b * b - 4 * a * c)
  set r := Real.sqrt (b * b - 4 * a * c) with hr
  set q := -(1 / 2) * (b + if 0 ≤ b then r else -r) with hq
  have hqq : q * q + b * q + a * c = 0 := by
    rw [hq]; split_ifs <;> nlinarith
  by_cases ha : a = 0
  · have hb : b ≠ 0 := hab ha
    have hq0 : q ≠ 0 := by
      rw [hq]
      split_ifs with hb0
      · have : 0 < b := lt_of_le_of_ne hb0 (Ne.symm hb)
        intro h; nlinarith
      · push Not at hb0
        intro h; nlinarith
    have hqb : q = -b := by
      have h0 : q * (q + b) = 0 := by subst ha; linarith [hqq]
      rcases mul_eq_zero.mp h0 with h0 | h0
      · exact absurd h0 hq0
      · linarith
    rw [if_neg (by simpa using ha), if_pos hq0] at h
    obtain ⟨rfl, rfl⟩ := h
    subst ha
    simp only [or_self, hqb]
    rw [eq_div_iff (by simpa using hb)]
    constructor <;> intro h <;> linarith
  · rw [if_pos ha] at h
    by_cases hq0 : q = 0
    · rw [if_neg (by simpa using hq0)] at h
      obtain ⟨rfl, rfl⟩ := h
      have hc : c = 0 := by
        rw [hq0] at hqq; simpa [ha] using hqq
      have hb0 : b = 0 := by
        rw [hq] at hq0
        split_ifs at hq0 with hb0
        · linarith
        · push Not at hb0; linarith
      simp [hq0, hc, hb0, ha]
    · rw [if_pos hq0] at h
      obtain ⟨rfl, rfl⟩ := h
      have e : a * x ^ 2 + b * x + c = (a * x - q) * (q * x - c) / q := by
        field_simp; linear_combination x * hqq
      rw [e, div_eq_zero_iff, mul_eq_zero, eq_div_iff ha, eq_div_iff hq0]
      constructor
      · rintro ((h | h) | h)
        · left; linarith
        · right; linarith
        · exact absurd h hq0
      · rintro (h | h)
        · left; left; linarith
        · left; right; linarith

/-- A concrete instance: `x² - 3x + 2`. -/
example : ∃ r0 r1, quadraticSolve 1 (-3) 2 = some (r0, r1) ∧ ({r0, r1} : Set ℝ) = {1, 2} := by
  have hs : Real.sqrt ((-3) * (-3) - 4 * 1 * 2) = 1 := by
    rw [show ((-3 : ℝ) * (-3) - 4 * 1 * 2) = 1 by norm_num]; exact Real.sqrt_one
  refine ⟨2, 1, ?_, Set.pair_comm _ _⟩
  unfold quadraticSolve
  simp only [hs]
  norm_num

/-! ## C07 angle_to -/

/-- C07: the result is congruent to the difference modulo a full turn and in `[-π, π]`. -/
theorem C07_angleTo (a b : ℝ) :
    (∃ k : ℤ, angleTo a b = (b - a) + k * (2 * Real.pi)) ∧
    -Real.pi ≤ angleTo a b ∧ angleTo a b ≤ Real.pi := by
  have hpi := Real.pi_pos
  obtain ⟨a0, a1, ka, hka⟩ := C01_positiveModF a (2 * Real.pi) (by linarith)
  obtain ⟨b0, b1, kb, hkb⟩ := C01_positiveModF b (2 * Real.pi) (by linarith)
  unfold angleTo
  simp only
  set u := positiveModF a (2 * Real.pi)
  set v := positiveModF b (2 * Real.pi)
  constructor
  · split_ifs
    · exact ⟨ka - kb, by push_cast; linear_combination hka - hkb⟩
    · exact ⟨ka - kb + 1, by push_cast; linear_combination hka - hkb⟩
    · exact ⟨ka - kb - 1, by push_cast; linear_combination hka - hkb⟩
    · exact ⟨ka - kb + 1, by push_cast; linear_combination hka - hkb⟩
  · rcases abs_cases (v - u) with h1 | h1 <;>
    rcases abs_cases (v - (u + 2 * Real.pi)) with h2 | h2 <;>
    rcases abs_cases (v - (u - 2 * Real.pi)) with h3 | h3 <;>
    split_ifs <;> constructor <;> linarith

/-- C07: among all congruent angles none is smaller in magnitude. -/
theorem C07_shortest (a b : ℝ) (k : ℤ) : |angleTo a b| ≤ |b - a + k * (2 * Real.pi)| := by
  obtain ⟨⟨m, hm⟩, h1, h2⟩ := C07_angleTo a b
  have hpi := Real.pi_pos
  have e : b - a + k * (2 * Real.pi) = angleTo a b + ((k - m : ℤ) : ℝ) * (2 * Real.pi) := by
    rw [hm]; push_cast; ring
  rw [e]
  set t := angleTo a b
  rcases lt_trichotomy (k - m) 0 with h | h | h
  · have : ((k - m : ℤ) : ℝ) ≤ -1 := by exact_mod_cast (by omega : k - m ≤ -1)
    rw [abs_of_nonpos (a := t + _) (by nlinarith)]
    exact abs_le.mpr ⟨by nlinarith, by nlinarith⟩
  · rw [h]; simp
  · have : (1 : ℝ) ≤ ((k - m : ℤ) : ℝ) := by exact_mod_cast (by omega : 1 ≤ k - m)
    rw [abs_of_nonneg (a := t + _) (by nlinarith)]
    exact abs_le.mpr ⟨by nlinarith, by nlinarith⟩

/-- C07 side: degrees and radians are inverse. -/
theorem C07_degrees_radians (x : ℝ) : degrees (radians x) = x ∧ radians (degrees x) = x := by
  have := Real.pi_pos.ne'
  constructor <;> simp only [degrees, radians] <;> field_simp

end Geomc.Util
