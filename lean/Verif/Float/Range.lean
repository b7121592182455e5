import Verif.Float.RangeModel
import Verif.Float.Vec
import Verif.Ieee.Overflow

/-! # Property C110: random floats in a range -/

namespace Geomc.Flt

variable {K : Type} [Field K] [LinearOrder K] [IsStrictOrderedRing K] [FloorRing K]

/-- Rounding does not cross a float. -/
theorem IsRound.le_of_le {p : ℕ} {rnd : K → K} (h : IsRound p rnd) {x y : K} (hy : IsFloat p y) (hxy : x ≤ y) : rnd x ≤ y := by
  by_contra hc
  push Not at hc
  have := h.near x y hy
  rw [abs_of_nonneg (by linarith), abs_of_nonneg (by linarith)] at this
  linarith

theorem IsRound.ge_of_ge {p : ℕ} {rnd : K → K} (h : IsRound p rnd) {x y : K} (hy : IsFloat p y) (hxy : y ≤ x) : y ≤ rnd x := by
  by_contra hc
  push Not at hc
  have := h.near x y hy
  rw [abs_of_nonpos (by linarith), abs_of_nonpos (by linarith)] at this
  linarith

/-- Rounding to the nearest keeps the order. -/
theorem IsRound.mono {p : ℕ} {rnd : K → K} (h : IsRound p rnd) : Monotone rnd := by
  intro x y hxy
  rcases hxy.lt_or_eq with hlt | rfl
  · by_contra hc
    push Not at hc
    have a := h.near x _ (h.mem y)
    have b := h.near y _ (h.mem x)
    rcases le_total x (rnd y) with h1 | h1
    · rw [abs_of_nonneg (by linarith), abs_of_nonneg (by linarith)] at a
      linarith
    · rcases le_total (rnd x) y with h2 | h2
      · rw [abs_of_nonpos (show rnd y - y ≤ 0 by linarith), abs_of_nonpos (show rnd x - y ≤ 0 by linarith)] at b
        linarith
      · rw [abs_of_nonneg (show 0 ≤ rnd x - x by linarith), abs_of_nonpos (show rnd y - x ≤ 0 by linarith)] at a
        rw [abs_of_nonpos (show rnd y - y ≤ 0 by linarith), abs_of_nonneg (show 0 ≤ rnd x - y by linarith)] at b
        linarith
  · exact le_rfl

/-- **C110.** `rand(hi)` lies between zero and `hi`, whatever the sign of `hi`; both ends are reached. -/
theorem C110_to {p : ℕ} {rnd : K → K} (h : IsRound p rnd) {hi u : K} (hf : IsFloat p hi) (h0 : 0 ≤ u) (h1 : u ≤ 1) :
    min 0 hi ≤ randTo rnd hi u ∧ randTo rnd hi u ≤ max 0 hi ∧ randTo rnd hi 0 = 0 ∧ randTo rnd hi 1 = hi := by
  have z := float_zero (K := K) p
  refine ⟨?_, ?_, by rw [randTo, mul_zero, h.fix z], by rw [randTo, mul_one, h.fix hf]⟩
  · rcases le_total 0 hi with hs | hs
    · rw [min_eq_left hs]
      exact h.ge_of_ge z (mul_nonneg hs h0)
    · rw [min_eq_right hs]
      exact h.ge_of_ge hf (by nlinarith)
  · rcases le_total 0 hi with hs | hs
    · rw [max_eq_right hs]
      exact h.le_of_le hf (by nlinarith)
    · rw [max_eq_left hs]
      exact h.le_of_le z (mul_nonpos_of_nonpos_of_nonneg hs h0)

/-- **C110.** `rand(lo, hi)` is never on the wrong side of `lo`, which it reaches; it grows with the number drawn. -/
theorem C110_lower {p : ℕ} {rnd : K → K} (h : IsRound p rnd) {lo hi : K} (hf : IsFloat p lo) (hl : lo ≤ hi) :
    randIn rnd lo hi 0 = lo ∧ (∀ u, 0 ≤ u → lo ≤ randIn rnd lo hi u) ∧
    ∀ u v, u ≤ v → randIn rnd lo hi u ≤ randIn rnd lo hi v := by
  have z := float_zero (K := K) p
  have hd : 0 ≤ rnd (hi - lo) := h.ge_of_ge z (by linarith)
  refine ⟨by rw [randIn, mul_zero, h.fix z, zero_add, h.fix hf], fun u hu => h.ge_of_ge hf ?_, fun u v huv => h.mono ?_⟩
  · have := h.ge_of_ge z (mul_nonneg hd hu)
    linarith
  · have := h.mono (mul_le_mul_of_nonneg_left huv hd)
    linarith

/-- **C110.** Where the difference of the bounds is a float, `rand(lo, hi)` stays within the bounds and reaches both; this is so in
particular if both are multiples of the same power of two and not too far apart. -/
theorem C110_upper {p : ℕ} {rnd : K → K} (h : IsRound p rnd) {lo hi u : K} (hf : IsFloat p hi) (hl : lo ≤ hi)
    (hd : IsFloat p (hi - lo)) (h1 : u ≤ 1) :
    randIn rnd lo hi u ≤ hi ∧ randIn rnd lo hi 1 = hi := by
  have e : rnd (hi - lo) = hi - lo := h.fix hd
  refine ⟨?_, by rw [randIn, e, mul_one, e, sub_add_cancel, h.fix hf]⟩
  refine h.le_of_le hf ?_
  rw [e]
  have : rnd ((hi - lo) * u) ≤ hi - lo := h.le_of_le hd (by nlinarith)
  linarith

/-- Multiples of one power of two have a difference that is a float. -/
theorem C110_grid {p : ℕ} (hp : 1 ≤ p) (a b e : ℤ) (h : |b - a| ≤ 2 ^ p) : IsFloat p ((b : K) * 2 ^ e - a * 2 ^ e) := by
  have := mem_le (K := K) hp (b - a) e h
  rwa [Int.cast_sub, sub_mul] at this

/-- **C110.** In general `rand(lo, hi)` exceeds `hi` by no more than the three roundings allow. -/
theorem C110_excess {p : ℕ} (hp : 1 ≤ p) {rnd : K → K} (h : IsRound p rnd) {lo hi u : K} (hl : lo ≤ hi) (h0 : 0 ≤ u) (h1 : u ≤ 1) :
    randIn rnd lo hi u ≤ rnd (hi + 2 ^ (-(p : ℤ)) * (hi - lo)) := by
  refine h.mono ?_
  have hd := (h.bounds hp (show 0 ≤ hi - lo by linarith)).2
  have h2 : rnd (rnd (hi - lo) * u) ≤ rnd (hi - lo) := by
    refine h.le_of_le (h.mem _) ?_
    have : 0 ≤ rnd (hi - lo) := h.ge_of_ge (float_zero p) (by linarith)
    nlinarith
  rw [eps] at hd
  linarith

/-- **C110** refuted for the upper bound: whatever the precision and the way ties are rounded, there are bounds which `rand(lo, hi)`
exceeds. -/
theorem C110_upper_refuted {p : ℕ} (hp : 2 ≤ p) {rnd : K → K} (h : IsRound p rnd) :
    IsFloat p (-2 ^ (p + 1) : K) ∧ IsFloat p (3 : K) ∧ randIn rnd (-2 ^ (p + 1)) 3 1 = 4 := by
  have f3 : IsFloat p (3 : K) := by
    refine ⟨3, 0, ?_, by simp⟩
    calc |(3 : ℤ)| < 2 ^ 2 := by norm_num
      _ ≤ 2 ^ p := pow_le_pow_right₀ (by norm_num) hp
  have hpow : (2 : K) ^ (p + 1) = 2 ^ ((p : ℤ) + 1) := by
    rw [← zpow_natCast]; congr 1
  have hq : (2 : ℤ) ^ p = 2 * 2 ^ (p - 1) := by
    rw [← pow_succ']; congr 1; omega
  have hqK : (2 : K) ^ (p + 1) = 2 ^ (p - 1) * 4 := by
    rw [show p + 1 = (p - 1) + 2 by omega, pow_add]; norm_num
  have fs : IsFloat p ((2 : K) ^ (p + 1) + 4) := by
    have := mem_le (K := K) (p := p) (by omega) (2 ^ (p - 1) + 1) 2 (by
      rw [abs_of_nonneg (by positivity), hq]
      have : (1 : ℤ) ≤ 2 ^ (p - 1) := one_le_pow₀ (by norm_num)
      linarith)
    rw [hqK]
    convert this using 1
    push_cast
    norm_num
    ring
  have hd : rnd (3 - -2 ^ (p + 1)) = 2 ^ (p + 1) + 4 := by
    have hE : (2 : K) ^ ((p : ℤ) + 1) ≤ |rnd (3 - -2 ^ (p + 1))| := by
      rw [← hpow]
      refine le_trans ?_ (le_abs_self _)
      refine h.ge_of_ge ?_ (by linarith)
      rw [hpow]
      exact float_pow (by omega) _
    obtain ⟨k, hk⟩ := grid_of_float (h.mem (3 - -2 ^ (p + 1))) hE
    have n1 := h.near (3 - -2 ^ (p + 1)) _ fs
    have e4 : (2 : K) ^ ((p : ℤ) + 1 + 1 - p) = 4 := by
      rw [show (p : ℤ) + 1 + 1 - p = 2 by ring]; norm_num
    rw [e4] at hk
    rw [hk, hqK] at n1
    rw [hk, hqK]
    rw [show (2 : K) ^ (p - 1) * 4 + 4 - (3 - -(2 ^ (p - 1) * 4)) = 1 by ring, abs_one,
      show (k : K) * 4 - (3 - -(2 ^ (p - 1) * 4)) = ((k - 2 ^ (p - 1) : ℤ) : K) * 4 - 3 by push_cast; ring, abs_le] at n1
    have k1 : ((k - 2 ^ (p - 1) : ℤ) : K) = ((1 : ℤ) : K) := by
      congr 1
      have a1 : ((k - 2 ^ (p - 1) : ℤ) : K) ≤ ((1 : ℤ) : K) := by push_cast; push_cast at n1; linarith [n1.2]
      have a2 : ((0 : ℤ) : K) < ((k - 2 ^ (p - 1) : ℤ) : K) := by push_cast; push_cast at n1; linarith [n1.1]
      have := Int.cast_le.1 a1
      have := Int.cast_lt.1 a2
      omega
    push_cast at k1
    linarith
  have f4 : IsFloat p (4 : K) := by
    have := float_pow (K := K) (p := p) (by omega) 2
    norm_num at this
    exact this
  refine ⟨?_, f3, ?_⟩
  · rw [hpow]
    exact float_neg (float_pow (by omega) _)
  · rw [randIn, hd, mul_one, h.fix fs, show (2 : K) ^ (p + 1) + 4 + -2 ^ (p + 1) = 4 by ring, h.fix f4]

/-- Ordinary bounds, and bounds that are exceeded, with three bits. -/
example : randIn (nearest 3) (1 : ℚ) 3 (1 / 2) = 2 ∧ randIn (nearest 3) (1 : ℚ) 3 1 = 3 ∧ randIn (nearest 3) (-16 : ℚ) 3 1 = 4 := by
  decide +kernel

end Geomc.Flt

namespace Geomc.Ieee

variable {K : Type} [Field K] [LinearOrder K] [IsStrictOrderedRing K] {R : K → Option K} {bot top u η : K}

/-- **C110** refuted where the bounds are too far apart: `rand(lo, hi)` is never finite. -/
theorem C110_far_refuted (h : Overflows R bot top u η) {lo hi x : K} (hd : top ≤ hi - lo) (s t w : Bool) (hx : 0 ≤ x) :
    randIn R (.fin lo s) (.fin hi t) (.fin x w) = if x = 0 then .nan else .inf false := by
  have e : (Fl.fin hi t).sub R (.fin lo s) = .inf false := by
    simp only [Fl.sub, Fl.neg, Fl.add]
    exact ofReal_over h (by linarith) _
  rw [randIn, e]
  by_cases h0 : x = 0
  · simp [Fl.mul, Fl.add, h0]
  · simp [Fl.mul, Fl.add, h0, Fl.sign, _root_.not_lt.2 hx]

/-- `rand(hi)` is finite for every bound that can be rounded, with the right sign, and within the rounding error of the product; below an
infinite bound it never is. -/
theorem C110_to_finite (h : Overflows R bot top u η) {hi x : K} (hh : |hi| < bot) (t w : Bool) (hx : 0 ≤ x) (hx1 : x ≤ 1) :
    (∃ z s, randTo R (.fin hi t) (.fin x w) = .fin z s ∧ |z - hi * x| ≤ u * |hi * x| + η ∧ (0 ≤ hi → 0 ≤ z)) ∧
    ∀ s, randTo R (.inf s) (.fin x false) = if x = 0 then .nan else .inf s := by
  have hb : |hi * x| < bot := by
    rw [abs_mul, abs_of_nonneg hx]
    calc |hi| * x ≤ |hi| * 1 := mul_le_mul_of_nonneg_left hx1 (abs_nonneg _)
      _ < bot := by rwa [mul_one]
  obtain ⟨z, hz⟩ := h.under _ hb
  refine ⟨⟨z, if hi * x = 0 then xor (Fl.fin hi t).sign (Fl.fin x w).sign else decide (hi * x < 0), ?_, h.err _ _ hz, fun h0 => h.sign _ _ hz (mul_nonneg h0 hx)⟩, ?_⟩
  · simp [randTo, Fl.mul, ofReal, hz]
  · intro s
    by_cases h0 : x = 0
    · simp [randTo, Fl.mul, h0]
    · simp [randTo, Fl.mul, h0, Fl.sign, _root_.not_lt.2 hx]

/-- With numbers up to 100, all of them exact. -/
example : randIn keep (.fin (-60) false) (.fin 60 false) (.fin (1 / 2) false) = .inf false := by
  simpa using C110_far_refuted keep_overflows (lo := -60) (hi := 60) (x := 1 / 2) (by norm_num) false false false (by norm_num)

example : randTo keep (.fin (-60) true) (.fin (1 / 2) false) = .fin (-30) true := by
  norm_num [randTo, Fl.mul, ofReal, keep]

end Geomc.Ieee
