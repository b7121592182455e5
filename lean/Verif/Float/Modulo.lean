import Verif.Float.Lerp

/-! # Property C125: remainders and angles in floating point -/

namespace Geomc.Flt

variable {K : Type} [Field K] [LinearOrder K] [IsStrictOrderedRing K] [FloorRing K] {p : ℕ} {rnd : K → K}

/-! ## Remainders -/

/-- The predecessor of one. -/
theorem float_pred_one (hp : 1 ≤ p) : IsFloat p (1 - eps K p) := by
  have e : (1 - eps K p : K) = ((2 ^ p - 1 : ℤ) : K) * 2 ^ (-(p : ℤ)) := by
    have hP : ((2 ^ p : ℤ) : K) * 2 ^ (-(p : ℤ)) = 1 := by
      rw [Int.cast_pow, Int.cast_ofNat, ← zpow_natCast, ← zadd, add_neg_cancel, zpow_zero]
    rw [Int.cast_sub, sub_mul, hP, Int.cast_one, one_mul]
    rfl
  rw [e]
  refine mem_le hp _ _ ?_
  have h2 : (1 : ℤ) ≤ 2 ^ p := one_le_pow₀ (by norm_num)
  rw [abs_of_nonneg (by omega)]
  omega

/-- A quotient of floats below one is rounded to a number below one. -/
theorem quot_lt_one (hp : 1 ≤ p) (h : IsRound p rnd) {a b : K} (fa : IsFloat p a) (fb : IsFloat p b) (a0 : 0 ≤ a) (hab : a < b) : rnd (a / b) < 1 := by
  have b0 : 0 < b := a0.trans_lt hab
  have hlt : a / b ≤ 1 - eps K p := by
    rw [div_le_iff₀ b0]
    obtain ⟨L1, L2⟩ := log_spec b0
    set E := Int.log 2 b
    by_cases hE : (2 : K) ^ E ≤ a
    · obtain ⟨i, hi⟩ := grid_of_float fa (hE.trans (le_abs_self a))
      obtain ⟨j, hj⟩ := grid_of_float fb (L1.trans (le_abs_self b))
      have g := two_zpow_pos (K := K) (E + 1 - p)
      have hij : i + 1 ≤ j := by
        rw [hi, hj] at hab
        exact_mod_cast lt_of_mul_lt_mul_right hab g.le
      have h1 : (i : K) + 1 ≤ j := by exact_mod_cast hij
      have h2 : a + 2 ^ (E + 1 - p) ≤ b := by
        rw [hi, hj]
        nlinarith
      have h3 : eps K p * b ≤ 2 ^ (E + 1 - p) := by
        rw [show E + 1 - (p : ℤ) = -p + (E + 1) by ring, zadd]
        exact mul_le_mul_of_nonneg_left L2.le (eps_pos p).le
      linarith
    · push Not at hE
      -- `a` is below the power of two that starts the binade of `b`
      have h2 : a ≤ 2 ^ E * (1 - eps K p) := by
        by_cases hE' : (2 : K) ^ (E - 1) ≤ a
        · obtain ⟨i, hi⟩ := grid_of_float fa (hE'.trans (le_abs_self a))
          obtain ⟨j, hj⟩ := grid_of_float (float_pow (K := K) hp E) (E := E - 1) (by
            rw [abs_of_pos (two_zpow_pos _)]
            exact zle (by omega))
          have g := two_zpow_pos (K := K) (E - 1 + 1 - p)
          have hij : i + 1 ≤ j := by
            rw [hi, hj] at hE
            exact_mod_cast lt_of_mul_lt_mul_right hE g.le
          have h1 : (i : K) + 1 ≤ j := by exact_mod_cast hij
          have h2 : a + 2 ^ (E - 1 + 1 - p) ≤ 2 ^ E := by
            rw [hi, hj]
            nlinarith
          have h3 : (2 : K) ^ (E - 1 + 1 - p) = eps K p * 2 ^ E := by
            rw [show E - 1 + 1 - (p : ℤ) = -p + E by ring, zadd]
            rfl
          linarith
        · push Not at hE'
          have e1 := eps_le (K := K) hp
          have : (2 : K) ^ E = 2 * 2 ^ (E - 1) := by
            rw [show E = 1 + (E - 1) by ring, zadd, zpow_one]
            simp
          have := two_zpow_pos (K := K) (E - 1)
          nlinarith
      have e1 := eps_le (K := K) hp
      nlinarith
  have := h.le_of_le (float_pred_one (K := K) hp) hlt
  have e0 := eps_pos (K := K) p
  linarith

/-- **C125.** A remainder of a number that is already in range is that number. -/
theorem C125_small (hp : 1 ≤ p) (h : IsRound p rnd) {a b : K} (fa : IsFloat p a) (fb : IsFloat p b) (a0 : 0 ≤ a) (hab : a < b) : positiveMod rnd a b = a := by
  have h0 : 0 ≤ rnd (a / b) := h.ge_of_ge (float_zero p) (div_nonneg a0 (a0.trans hab.le))
  have hf : ⌊rnd (a / b)⌋ = 0 := Int.floor_eq_zero_iff.2 ⟨h0, quot_lt_one hp h fa fb a0 hab⟩
  rw [positiveMod, hf, Int.cast_zero, mul_zero, h.fix (float_zero p), sub_zero, h.fix fa]

/-- **C125.** Multiples have remainder zero. -/
theorem C125_multiple (h : IsRound p rnd) {b : K} (k : ℤ) (b0 : b ≠ 0) (fk : IsFloat p (k : K)) (fa : IsFloat p (b * k)) : positiveMod rnd (b * k) b = 0 := by
  rw [positiveMod, mul_div_cancel_left₀ _ b0, h.fix fk, Int.floor_intCast, h.fix fa, sub_self, h.fix (float_zero p)]

/-- **C125.** In general the remainder is congruent to the number up to two roundings, and that congruent number is in range up to a
rounding of the number itself. -/
theorem C125_congruent (hp : 1 ≤ p) (h : IsRound p rnd) {a b : K} (b0 : 0 < b) :
    ∃ k : ℤ, |positiveMod rnd a b - (a - b * k)| ≤ ((1 + eps K p) ^ 2 - 1) * (|a| + |b * k|) ∧ -(eps K p * |a|) ≤ a - b * k ∧ a - b * k < b + eps K p * |a| := by
  have e0 := (eps_pos (K := K) p).le
  refine ⟨⌊rnd (a / b)⌋, ?_, ?_⟩
  · exact ((((Near.refl (eps K p) a).mono e0 (show 0 ≤ 0 + 1 by norm_num)).sub
      ((Near.refl (eps K p) (b * (⌊rnd (a / b)⌋ : ℤ))).round hp h le_rfl)).round hp h le_rfl).1
  · have h1 := abs_le.1 (h.rel hp (a / b))
    rw [abs_div, abs_of_pos b0] at h1
    have h2 := Int.floor_le (rnd (a / b))
    have h3 := Int.lt_floor_add_one (rnd (a / b))
    have e1 : a = b * (a / b) := by field_simp
    have e2 : eps K p * |a| = b * (eps K p * (|a| / b)) := by field_simp
    constructor
    · have h4 : b * ((⌊rnd (a / b)⌋ : ℤ) : K) ≤ b * (a / b + eps K p * (|a| / b)) := mul_le_mul_of_nonneg_left (by linarith [h1.2]) b0.le
      rw [mul_add, ← e1, ← e2] at h4
      linarith
    · have h4 : b * (a / b - eps K p * (|a| / b)) < b * (((⌊rnd (a / b)⌋ : ℤ) : K) + 1) := mul_lt_mul_of_pos_left (by linarith [h1.1]) b0
      rw [mul_sub, ← e1, ← e2] at h4
      linarith

/-- **C125** refuted for the upper end of the range: for every format and modulus, small negative numbers have the modulus as their
remainder. -/
theorem C125_upper_refuted (hp : 1 ≤ p) (h : IsRound p rnd) {b : K} (fb : IsFloat p b) (b0 : 0 < b) :
    ∃ a : K, IsFloat p a ∧ a < 0 ∧ positiveMod rnd a b = b := by
  obtain ⟨L1, L2⟩ := log_spec b0
  set E := Int.log 2 b
  -- negligible against the modulus
  set δ : K := 2 ^ (E - p - 2) with hδ
  have δ0 : 0 < δ := two_zpow_pos _
  have e0 := eps_pos (K := K) p
  have e1 := eps_le (K := K) hp
  have hδb : δ ≤ eps K p / 4 * b := by
    have : δ = eps K p / 4 * 2 ^ E := by
      rw [hδ, show E - (p : ℤ) - 2 = -p + -2 + E by ring, zadd, zadd]
      show _ = (2 : K) ^ (-(p : ℤ)) / 4 * 2 ^ E
      rw [show (2 : K) ^ (-2 : ℤ) = 1 / 4 by norm_num]
      ring
    rw [this]
    exact mul_le_mul_of_nonneg_left L1 (by linarith)
  have fδ : IsFloat p (-δ) := float_neg (float_pow hp _)
  refine ⟨-δ, fδ, by linarith, ?_⟩
  have hq0 : rnd (-δ / b) < 0 := by
    rw [← not_le, h.nonneg_iff hp, not_le]
    exact div_neg_of_neg_of_pos (by linarith) b0
  have hq1 : -1 ≤ rnd (-δ / b) := by
    refine h.ge_of_ge (float_neg (by simpa using float_pow (K := K) hp 0)) ?_
    rw [le_div_iff₀ b0]
    nlinarith
  have hf : ⌊rnd (-δ / b)⌋ = -1 := Int.floor_eq_iff.2 ⟨by push_cast; exact hq1, by push_cast; linarith⟩
  rw [positiveMod, hf, Int.cast_neg, Int.cast_one, mul_neg, mul_one, h.fix (float_neg fb), sub_neg_eq_add]
  -- the sum is rounded back to the modulus
  obtain ⟨j, hj⟩ := grid_of_float fb (L1.trans (le_abs_self b))
  have hle : rnd (-δ + b) ≤ b := h.le_of_le fb (by linarith)
  by_contra hne
  have hlt : rnd (-δ + b) < b := lt_of_le_of_ne hle hne
  have hn := h.near (-δ + b) b fb
  rw [show b - (-δ + b) = δ by ring, abs_of_pos δ0] at hn
  have hge : b - 2 * δ ≤ rnd (-δ + b) := by linarith [(abs_le.1 hn).1]
  have hbig : (2 : K) ^ (E - 1) ≤ rnd (-δ + b) := by
    have : (2 : K) ^ E = 2 * 2 ^ (E - 1) := by
      rw [show E = 1 + (E - 1) by ring, zadd, zpow_one]
      simp
    nlinarith
  obtain ⟨i, hi⟩ := grid_of_float (h.mem (-δ + b)) (hbig.trans (le_abs_self _))
  obtain ⟨i', hi'⟩ := grid_of_float fb (E := E - 1) ((show (2 : K) ^ (E - 1) ≤ b from (zle (by omega)).trans L1).trans (le_abs_self b))
  have g := two_zpow_pos (K := K) (E - 1 + 1 - p)
  have g4 : (2 : K) ^ (E - 1 + 1 - p) = 4 * δ := by
    rw [hδ, show E - 1 + 1 - (p : ℤ) = 2 + (E - p - 2) by ring, zadd]
    norm_num
  rw [hi, hi'] at hlt
  have hij : i + 1 ≤ i' := by exact_mod_cast lt_of_mul_lt_mul_right hlt g.le
  have h1 : (i : K) + 1 ≤ i' := by exact_mod_cast hij
  rw [hi, hi', g4] at hge
  nlinarith

/-- **C125** refuted for the lower end: in every format with six bits or more some positive number has a negative remainder. -/
theorem C125_negative_refuted (hp : 6 ≤ p) (h : IsRound p rnd) :
    ∃ a b : K, IsFloat p a ∧ IsFloat p b ∧ 0 < a ∧ 0 < b ∧ positiveMod rnd a b < 0 := by
  have hp1 : 1 ≤ p := by omega
  obtain ⟨m, rfl⟩ : ∃ m, p = m + 6 := ⟨p - 6, by omega⟩
  set Q : ℤ := 2 ^ m with hQ
  have Q1 : 1 ≤ Q := one_le_pow₀ (by norm_num)
  have hP : (2 : ℤ) ^ (m + 6) = 64 * Q := by
    rw [hQ, pow_add]
    ring
  have Q1' : (1 : K) ≤ Q := by exact_mod_cast Q1
  -- `b = 48 Q + 3`, `5 b = 240 Q + 15`
  have b0 : (0 : K) < ((48 * Q + 3 : ℤ) : K) := by push_cast; linarith
  have fb : IsFloat (m + 6) ((48 * Q + 3 : ℤ) : K) := float_int hp1 (by rw [hP, abs_of_nonneg (by omega)]; omega)
  have f4 : ∀ k : ℤ, 0 ≤ k → k ≤ 64 * Q → IsFloat (m + 6) ((4 * k : ℤ) : K) := by
    intro k h0 hk
    have := mem_le (K := K) hp1 k 2 (by rw [hP, abs_of_nonneg h0]; exact hk)
    rw [show ((4 * k : ℤ) : K) = (k : K) * 2 ^ (2 : ℤ) by push_cast; norm_num; ring]
    exact this
  have fa := f4 (60 * Q + 3) (by omega) (by omega)
  have hQu : (Q : K) * 2 ^ (-((m : ℤ))) = 1 := by
    rw [hQ, Int.cast_pow, Int.cast_ofNat, ← zpow_natCast, ← zadd, add_neg_cancel, zpow_zero]
  have up := two_zpow_pos (K := K) (-(m : ℤ))
  set u : K := 2 ^ (-(m : ℤ)) with hu
  have hq : rnd (((4 * (60 * Q + 3) : ℤ) : K) / ((48 * Q + 3 : ℤ) : K)) = 5 := by
    have e : (2 : ℤ) + 1 - ((m + 6 : ℕ) : ℤ) = -m + -3 := by push_cast; ring
    have e5 : ((40 * Q : ℤ) : K) * 2 ^ (-(m : ℤ) + -3) = 5 := by
      rw [zadd, ← hu, show (2 : K) ^ (-3 : ℤ) = 1 / 8 by norm_num]
      push_cast
      linear_combination 5 * hQu
    have := h.eq_of_near hp1 (x := ((4 * (60 * Q + 3) : ℤ) : K) / ((48 * Q + 3 : ℤ) : K)) (E := 2) (40 * Q) (by
      rw [le_div_iff₀ b0]
      push_cast
      norm_num
      linarith) (mem_le hp1 _ _ (by rw [hP, abs_of_nonneg (by omega)]; omega)) (by
      rw [e, e5, show (2 : ℤ) - ((m + 6 : ℕ) : ℤ) = -m + -4 by push_cast; ring, zadd, ← hu, show (2 : K) ^ (-4 : ℤ) = 1 / 16 by norm_num]
      have e' : ((4 * (60 * Q + 3) : ℤ) : K) / ((48 * Q + 3 : ℤ) : K) - 5 = -(3 / ((48 * Q + 3 : ℤ) : K)) := by
        rw [eq_comm, neg_eq_iff_eq_neg, eq_comm, neg_sub, sub_eq_iff_eq_add, ← add_div, eq_div_iff b0.ne']
        push_cast
        ring
      rw [e', abs_neg, abs_of_pos (div_pos (by norm_num) b0), div_lt_iff₀ b0]
      push_cast
      nlinarith)
    rw [this, e, e5]
  have hr : rnd (((48 * Q + 3 : ℤ) : K) * 5) = ((4 * (60 * Q + 4) : ℤ) : K) := by
    have e : ((m : ℤ) + 7) + 1 - ((m + 6 : ℕ) : ℤ) = 2 := by push_cast; ring
    have e5 : ((60 * Q + 4 : ℤ) : K) * 2 ^ (2 : ℤ) = ((4 * (60 * Q + 4) : ℤ) : K) := by
      push_cast
      norm_num
      ring
    have := h.eq_of_near hp1 (x := ((48 * Q + 3 : ℤ) : K) * 5) (E := m + 7) (60 * Q + 4) (by
      rw [zadd, zpow_natCast]
      have : (2 : K) ^ m = (Q : K) := by rw [hQ]; push_cast; rfl
      rw [this]
      push_cast
      norm_num
      linarith) (by
      rw [e, e5]
      exact f4 _ (by omega) (by omega)) (by
      rw [e, e5, show ((m : ℤ) + 7) - ((m + 6 : ℕ) : ℤ) = 1 by push_cast; ring]
      push_cast
      rw [show ((48 * (Q : K) + 3) * 5 - 4 * (60 * Q + 4)) = -1 by ring]
      norm_num)
    rw [this, e, e5]
  refine ⟨_, _, fa, fb, by push_cast; linarith, b0, ?_⟩
  rw [positiveMod, hq, show ⌊(5 : K)⌋ = 5 by exact_mod_cast Int.floor_natCast 5]
  rw [show (((5 : ℤ) : K)) = 5 by norm_num, hr, ← not_le, h.nonneg_iff hp1, not_le]
  push_cast
  linarith

/-! ## Angles -/

/-- **C125.** For two angles of a turn, the returned difference leads from the one to the other up to two roundings and a whole turn, and is at
most half a turn up to the same error. -/
theorem C125_angle (hp : 1 ≤ p) (h : IsRound p rnd) {turn r0 r1 : K} (ft : IsFloat p turn) (f0 : IsFloat p r0) (f1 : IsFloat p r1) (h00 : 0 ≤ r0) (h01 : r0 < turn)
    (h10 : 0 ≤ r1) (h11 : r1 < turn) :
    (∃ k : ℤ, |k| ≤ 1 ∧ |angleTo rnd turn r0 r1 - (r1 - r0 + k * turn)| ≤ ((1 + eps K p) ^ 2 - 1) * (3 * turn)) ∧
      |angleTo rnd turn r0 r1| ≤ turn / 2 + ((1 + eps K p) ^ 2 - 1) * (3 * turn) := by
  have e0 := (eps_pos (K := K) p).le
  have t0 : 0 < turn := h00.trans_lt h01
  rw [angleTo]
  simp only [C125_small hp h f0 ft h00 h01, C125_small hp h f1 ft h10 h11]
  have near : ∀ c : K, |c| ≤ turn → |rnd (r1 - rnd (r0 + c)) - (r1 - (r0 + c))| ≤ ((1 + eps K p) ^ 2 - 1) * (3 * turn) := by
    intro c hc
    have h1 := ((((Near.refl (eps K p) r1).mono e0 (show 0 ≤ 0 + 1 by norm_num)).sub
      (((Near.refl (eps K p) r0).add (Near.refl _ c)).round hp h le_rfl)).round hp h le_rfl)
    refine (h1.weaken e0 (Z := 3 * turn) ?_).1
    rw [abs_of_nonneg h00, abs_of_nonneg h10]
    linarith
  have na := near 0 (by rw [abs_zero]; exact t0.le)
  have nb := near turn (abs_of_pos t0).le
  have nc := near (-turn) (by rw [abs_neg]; exact (abs_of_pos t0).le)
  rw [add_zero, h.fix f0] at na
  rw [← sub_eq_add_neg] at nc
  set da := rnd (r1 - r0)
  set db := rnd (r1 - rnd (r0 + turn))
  set dc := rnd (r1 - rnd (r0 - turn))
  set c := ((1 + eps K p) ^ 2 - 1) * (3 * turn)
  have small : ∀ {d x : K}, |d - x| ≤ c → |d| ≤ |x| + c := by
    intro d x hd
    have := abs_sub_abs_le_abs_sub d x
    linarith
  constructor
  · have ea : |da - (r1 - r0 + ((0 : ℤ) : K) * turn)| ≤ c := by
      rw [Int.cast_zero, zero_mul, add_zero]
      exact na
    have eb : |db - (r1 - r0 + ((-1 : ℤ) : K) * turn)| ≤ c := by
      rw [show r1 - r0 + ((-1 : ℤ) : K) * turn = r1 - (r0 + turn) by push_cast; ring]
      exact nb
    have ec : |dc - (r1 - r0 + ((1 : ℤ) : K) * turn)| ≤ c := by
      rw [show r1 - r0 + ((1 : ℤ) : K) * turn = r1 - (r0 - turn) by push_cast; ring]
      exact nc
    by_cases hab : |da| < |db|
    · rw [if_pos hab]
      by_cases hac : |da| < |dc|
      · rw [if_pos hac]
        exact ⟨0, by norm_num, ea⟩
      · rw [if_neg hac]
        exact ⟨1, by norm_num, ec⟩
    · rw [if_neg hab]
      by_cases hac : |db| < |dc|
      · rw [if_pos hac]
        exact ⟨-1, by norm_num, eb⟩
      · rw [if_neg hac]
        exact ⟨1, by norm_num, ec⟩
  · have m1 : ∀ {x y z : K}, |if |if |x| < |y| then x else y| < |z| then (if |x| < |y| then x else y) else z| ≤ |x| ∧
        |if |if |x| < |y| then x else y| < |z| then (if |x| < |y| then x else y) else z| ≤ |y| ∧
        |if |if |x| < |y| then x else y| < |z| then (if |x| < |y| then x else y) else z| ≤ |z| := by
      intro x y z
      by_cases h1 : |x| < |y|
      · simp only [if_pos h1]
        by_cases h2 : |x| < |z|
        · rw [if_pos h2]
          exact ⟨le_rfl, h1.le, h2.le⟩
        · rw [if_neg h2]
          exact ⟨not_lt.1 h2, (not_lt.1 h2).trans h1.le, le_rfl⟩
      · simp only [if_neg h1]
        by_cases h2 : |y| < |z|
        · rw [if_pos h2]
          exact ⟨not_lt.1 h1, le_rfl, h2.le⟩
        · rw [if_neg h2]
          exact ⟨(not_lt.1 h2).trans (not_lt.1 h1), not_lt.1 h2, le_rfl⟩
    obtain ⟨ma, mb, mc⟩ := @m1 da db dc
    rcases le_total (r1 - r0) (turn / 2) with hle | hle
    · rcases le_total (-(turn / 2)) (r1 - r0) with hge | hge
      · have := small na
        have hx : |r1 - r0| ≤ turn / 2 := abs_le.2 ⟨hge, hle⟩
        linarith
      · have := small nc
        have hx : |r1 - (r0 - turn)| ≤ turn / 2 := abs_le.2 ⟨by linarith, by linarith⟩
        linarith
    · have := small nb
      have hx : |r1 - (r0 + turn)| ≤ turn / 2 := abs_le.2 ⟨by linarith, by linarith⟩
      linarith

/-- **C125** refuted for small negative angles: some turn by a negative angle from zero is taken for none. -/
theorem C125_angle_refuted (hp : 1 ≤ p) (h : IsRound p rnd) {turn : K} (ft : IsFloat p turn) (t0 : 0 < turn) :
    ∃ r1 : K, IsFloat p r1 ∧ r1 < 0 ∧ angleTo rnd turn 0 r1 = 0 := by
  obtain ⟨a, fa, ha, hm⟩ := C125_upper_refuted hp h ft t0
  refine ⟨a, fa, ha, ?_⟩
  have z : rnd 0 = 0 := h.fix (float_zero p)
  rw [angleTo]
  simp only [C125_small hp h (float_zero p) ft le_rfl t0, hm, sub_zero, zero_add, h.fix ft, sub_self, z, zero_sub, h.fix (float_neg ft), sub_neg_eq_add]
  have hn : ¬ |turn| < |(0 : K)| := by
    rw [abs_zero]
    exact not_lt.2 (abs_nonneg _)
  have hp' : |(0 : K)| < |rnd (turn + turn)| := by
    rw [abs_zero, abs_pos, Ne, h.zero_iff hp]
    linarith
  rw [if_neg hn, if_pos hp']

/-- With six bits: 252 is five times 51 less three, and has remainder -4.  A turn of eight from one to seven is two backwards. -/
example : positiveMod (nearest 6 : ℚ → ℚ) 252 51 = -4 ∧ positiveMod (nearest 6 : ℚ → ℚ) (-1 / 512) 1 = 1 ∧
    positiveMod (nearest 6 : ℚ → ℚ) (-5) 3 = 1 ∧ angleTo (nearest 6 : ℚ → ℚ) 8 1 7 = -2 := by
  decide +kernel

end Geomc.Flt
