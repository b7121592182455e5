import Verif.Float.QuadModel
import Verif.Float.Box

/-! # Property C122: quadratic equations in floating point -/

namespace Geomc.Flt

variable {K : Type} [Field K] [LinearOrder K] [IsStrictOrderedRing K] [FloorRing K]

variable {p : ℕ} {rnd sqrt : K → K}

/-- A float times four is a float. -/
theorem float_four {x : K} (h : IsFloat p x) : IsFloat p (4 * x) := by
  rw [show 4 * x = x * 2 * 2 by ring]
  exact float_double (float_double h)

/-- The discriminant has a relative error of three roundings, so the sign of the exact one. -/
theorem descr_near (hp : 1 ≤ p) (h : IsRound p rnd) {a b c : K} (ha : IsFloat p a) (hb : IsFloat p b) (hc : IsFloat p c) :
    |diffOfProducts rnd b b (rnd (4 * a)) c - (b * b - 4 * a * c)| ≤ 3 * eps K p * |b * b - 4 * a * c| := by
  rw [h.fix (float_four ha)]
  exact (C95_relative hp h hb hb (float_four ha) hc).1

theorem neg_of_near {c x y : K} (c1 : c < 1) (h : |y - x| ≤ c * |x|) : (y < 0 ↔ x < 0) ∧ (y = 0 ↔ x = 0) := by
  have h1 := abs_le.1 h
  rcases lt_trichotomy x 0 with hx | hx | hx
  · rw [abs_of_neg hx] at h1
    have : y < 0 := by nlinarith
    exact ⟨iff_of_true this hx, iff_of_false this.ne hx.ne⟩
  · subst hx
    simp only [abs_zero, mul_zero, neg_zero, sub_zero] at h1
    have : y = 0 := le_antisymm h1.2 h1.1
    simp [this]
  · rw [abs_of_pos hx] at h1
    have : 0 < y := by nlinarith
    exact ⟨iff_of_false this.not_gt hx.not_gt, iff_of_false this.ne' hx.ne'⟩

theorem sqrt_near (hq : ∀ x, 0 ≤ x → 0 ≤ sqrt x ∧ sqrt x * sqrt x = x) {u x y : K} (u0 : 0 ≤ u) (u4 : u ≤ 1 / 4) (hx : 0 ≤ x) (hy : 0 ≤ y)
    (h : |y - x| ≤ 3 * u * |x|) : |sqrt y - sqrt x| ≤ 2 * u * |sqrt x| := by
  obtain ⟨a0, a1⟩ := hq x hx
  obtain ⟨b0, b1⟩ := hq y hy
  rw [abs_of_nonneg hx] at h
  rw [abs_of_nonneg a0]
  obtain ⟨h1, h2⟩ := abs_le.1 h
  rw [abs_le]
  constructor
  · have : (1 - 2 * u) * sqrt x ≤ sqrt y := by
      refine abs_le_of_sq_le_sq' ?_ b0 |>.2
      have : 0 ≤ x * (u * (1 - 4 * u)) := mul_nonneg hx (mul_nonneg u0 (by linarith))
      calc ((1 - 2 * u) * sqrt x) ^ 2 = (1 - 2 * u) ^ 2 * (sqrt x * sqrt x) := by ring
        _ ≤ sqrt y ^ 2 := by rw [a1, sq (sqrt y), b1]; linarith
    linarith
  · have : sqrt y ≤ (1 + 2 * u) * sqrt x := by
      refine abs_le_of_sq_le_sq' ?_ (mul_nonneg (by linarith) a0) |>.2
      have : 0 ≤ x * (u * (1 + 4 * u)) := mul_nonneg hx (mul_nonneg u0 (by linarith))
      calc sqrt y ^ 2 ≤ (1 + 2 * u) ^ 2 * (sqrt x * sqrt x) := by rw [a1, sq (sqrt y), b1]; linarith
        _ = _ := by ring
    linarith

/-- Whether roots are found is decided by the sign of the exact discriminant. -/
theorem quad_some_iff (hp : 2 ≤ p) (h : IsRound p rnd) (neg : Bool) {a b c : K} (ha : IsFloat p a) (hb : IsFloat p b) (hc : IsFloat p c) :
    (quadSolve rnd sqrt neg a b c).isSome ↔ ¬(b * b - 4 * a * c < 0 ∨ (a = 0 ∧ b = 0)) := by
  have e1 : eps K p ≤ 1 / 4 := by
    rw [eps, show (1 / 4 : K) = 2 ^ (-2 : ℤ) by norm_num]
    exact zle (by omega)
  have hd := (neg_of_near (by linarith) (descr_near (by omega) h ha hb hc)).1
  unfold quadSolve
  simp only [hd]
  by_cases hcond : b * b - 4 * a * c < 0 ∨ a = 0 ∧ b = 0
  · simp [hcond]
  · simp [hcond]

/-- **C122.** Real roots are found exactly if there are any and the coefficients are not all zero: rounding never loses or invents a root,
not even where the two roots are equal. -/
theorem C122_success (hp : 2 ≤ p) (h : IsRound p rnd) (hq : ∀ x, 0 ≤ x → 0 ≤ sqrt x ∧ sqrt x * sqrt x = x) (neg : Bool) {a b c : K}
    (ha : IsFloat p a) (hb : IsFloat p b) (hc : IsFloat p c) :
    (quadSolve rnd sqrt neg a b c).isSome ↔ (∃ x : K, a * x ^ 2 + b * x + c = 0) ∧ ¬(a = 0 ∧ b = 0 ∧ c = 0) := by
  rw [quad_some_iff hp h neg ha hb hc]
  by_cases hcond : b * b - 4 * a * c < 0 ∨ a = 0 ∧ b = 0
  · simp only [hcond, not_true_eq_false, false_iff]
    rintro ⟨⟨x, hx⟩, hn⟩
    rcases hcond with hc | ⟨rfl, rfl⟩
    · have : (2 * a * x + b) ^ 2 = b * b - 4 * a * c := by linear_combination 4 * a * hx
      linarith [sq_nonneg (2 * a * x + b)]
    · exact hn ⟨rfl, rfl, by simpa using hx⟩
  · simp only [hcond, not_false_eq_true, true_iff]
    push Not at hcond
    obtain ⟨h1, h2⟩ := hcond
    refine ⟨?_, fun hn => h2 hn.1 hn.2.1⟩
    by_cases h0 : a = 0
    · subst h0
      have := h2 rfl
      exact ⟨-c / b, by field_simp; ring⟩
    · obtain ⟨s0, s1⟩ := hq _ h1
      generalize sqrt (b * b - 4 * a * c) = s at s0 s1
      refine ⟨(-b + s) / (2 * a), ?_⟩
      field_simp
      linear_combination s1

theorem quad_num {e : K} (e0 : 0 < e) (e1 : e ≤ 1 / 32) {d : K} (hd : d = (1 + ((1 + 2 * e) * (1 + e) - 1)) * (1 + e) - 1) :
    d < 1 / 2 ∧ (1 + d) * (1 + e) - 1 ≤ 6 * e ∧ (1 + (1 / (1 - d) - 1)) * (1 + e) - 1 ≤ 6 * e := by
  have h2 : e * e ≤ e * (1 / 32) := mul_le_mul_of_nonneg_left e1 e0.le
  have h3 : e * e * e ≤ e * e * (1 / 32) := mul_le_mul_of_nonneg_left e1 (mul_pos e0 e0).le
  have h4 : e * e * e * e ≤ e * e * e * (1 / 32) := mul_le_mul_of_nonneg_left e1 (mul_pos (mul_pos e0 e0) e0).le
  have d1 : d < 1 / 2 := by rw [hd]; linarith
  refine ⟨d1, by rw [hd]; linarith, ?_⟩
  rw [show (1 + (1 / (1 - d) - 1)) * (1 + e) - 1 = (1 + e) / (1 - d) - 1 by ring, sub_le_iff_le_add, div_le_iff₀ (by linarith), hd]
  linarith

/-- The formulas for the roots. -/
theorem quad_alg {a b c q : K} (hab : a = 0 → b ≠ 0) (kq : q * (q + b) = -(a * c)) (hq0 : q = 0 → b = 0) (x : K) :
    a * x ^ 2 + b * x + c = 0 ↔ x = (if a ≠ 0 then q / a else c / q) ∨ x = (if q ≠ 0 then c / q else q / a) := by
  by_cases ha0 : a = 0
  · have hb0 := hab ha0
    have hqb : q = -b := by
      rw [ha0, zero_mul, neg_zero] at kq
      rcases mul_eq_zero.1 kq with h0 | h0
      · exact absurd (hq0 h0) hb0
      · linear_combination h0
    rw [if_neg (not_not.2 ha0), if_pos (by rw [hqb]; exact neg_ne_zero.2 hb0), hqb, ha0, or_self]
    constructor
    · intro hx
      field_simp
      linear_combination hx
    · rintro rfl
      field_simp
      ring
  · rw [if_pos ha0]
    by_cases h0 : q = 0
    · rw [if_neg (not_not.2 h0)]
      rw [h0, zero_mul] at kq
      have hc0 : c = 0 := (mul_eq_zero.1 (neg_eq_zero.1 kq.symm)).resolve_left ha0
      rw [h0, hq0 h0, hc0, zero_div, or_self]
      constructor
      · intro hx
        have : a * x ^ 2 = 0 := by linear_combination hx
        exact pow_eq_zero_iff (two_ne_zero) |>.1 ((mul_eq_zero.1 this).resolve_left ha0)
      · rintro rfl
        ring
    · rw [if_pos h0]
      have key : a * x ^ 2 + b * x + c = a * ((x - q / a) * (x - c / q)) := by
        field_simp
        linear_combination x * kq
      rw [key, mul_eq_zero, mul_eq_zero, sub_eq_zero, sub_eq_zero]
      tauto

/-- **C122.** Each of the roots found is one of the two exact roots, with a relative error of at most six roundings. -/
theorem C122_roots (hp : 5 ≤ p) (h : IsRound p rnd) (hq : ∀ x, 0 ≤ x → 0 ≤ sqrt x ∧ sqrt x * sqrt x = x) {neg : Bool} {a b c r0 r1 : K}
    (ha : IsFloat p a) (hb : IsFloat p b) (hc : IsFloat p c) (hr : quadSolve rnd sqrt neg a b c = some (r0, r1)) :
    ∃ x0 x1 : K, (∀ x, a * x ^ 2 + b * x + c = 0 ↔ x = x0 ∨ x = x1) ∧
      |r0 - x0| ≤ 6 * eps K p * |x0| ∧ |r1 - x1| ≤ 6 * eps K p * |x1| := by
  have hp1 : 1 ≤ p := by omega
  have e0 := eps_pos (K := K) p
  have e1 : eps K p ≤ 1 / 32 := by
    rw [eps, show (1 / 32 : K) = 2 ^ (-5 : ℤ) by norm_num]
    exact zle (by omega)
  have hd := descr_near hp1 h ha hb hc
  have hdn := (neg_of_near (by linarith) hd).1
  unfold quadSolve at hr
  simp only [hdn] at hr
  by_cases hcond : b * b - 4 * a * c < 0 ∨ a = 0 ∧ b = 0
  · rw [if_pos hcond] at hr
    cases hr
  rw [if_neg hcond] at hr
  simp only [Option.some.injEq, Prod.mk.injEq] at hr
  obtain ⟨hr0, hr1⟩ := hr
  push Not at hcond
  obtain ⟨hD, hab⟩ := hcond
  set D := b * b - 4 * a * c with hDd
  set D' := diffOfProducts rnd b b (rnd (4 * a)) c
  have hD' : 0 ≤ D' := not_lt.1 fun hc => absurd (hdn.1 hc) (not_lt.2 hD)
  obtain ⟨s0, s1⟩ := hq D hD
  set e := eps K p with he
  have n0 := sqrt_near hq e0.le (by linarith) hD hD' hd
  have n1 := near_round hp1 h n0
  set s := sqrt D
  -- the sign of the root
  obtain ⟨σ, hσ, hσb, hpick⟩ : ∃ σ : K, σ * σ = 1 ∧ 0 ≤ σ * b ∧
      (if b < 0 ∨ (b = 0 ∧ neg = true) then -rnd (sqrt D') else rnd (sqrt D')) = σ * rnd (sqrt D') := by
    split_ifs with hs
    · refine ⟨-1, by ring, ?_, by ring⟩
      rcases hs with hs | hs
      · linarith
      · simp [hs.1]
    · refine ⟨1, by ring, ?_, by ring⟩
      push Not at hs
      simpa using hs.1
  rw [hpick] at hr0 hr1
  have hσ1 : |σ| = 1 := by
    have : |σ| * |σ| = 1 := by rw [← abs_mul, hσ, abs_one]
    nlinarith [abs_nonneg σ]
  have habs : |b + σ * s| = |b| + s := by
    have h1 : |b + σ * s| = |σ * (b + σ * s)| := by rw [abs_mul, hσ1, one_mul]
    have h2 : |b| = |σ * b| := by rw [abs_mul, hσ1, one_mul]
    rw [h1, h2, abs_of_nonneg hσb, abs_of_nonneg (by nlinarith)]
    linear_combination s * hσ
  have n2 : |b + σ * rnd (sqrt D') - (b + σ * s)| ≤ ((1 + 2 * e) * (1 + e) - 1) * |b + σ * s| := by
    rw [show b + σ * rnd (sqrt D') - (b + σ * s) = σ * (rnd (sqrt D') - s) by ring, abs_mul, hσ1, one_mul, habs]
    refine n1.trans ?_
    rw [abs_of_nonneg s0]
    exact mul_le_mul_of_nonneg_left (by linarith [abs_nonneg b]) (by nlinarith)
  have n3 := near_round hp1 h n2
  set t := rnd (b + σ * rnd (sqrt D')) with ht
  have ft : IsFloat p t := h.mem _
  have hqe : rnd (-(1 / 2) * t) = -(1 / 2) * t := h.fix (by
    rw [show -(1 / 2) * t = -(t / 2) by ring]
    exact float_neg (float_half ft))
  rw [hqe] at hr0 hr1
  set q := -(1 / 2) * (b + σ * s) with hqd
  set d := (1 + ((1 + 2 * e) * (1 + e) - 1)) * (1 + e) - 1 with hdd
  have n4 : |-(1 / 2) * t - q| ≤ d * |q| := by
    rw [hqd, ← mul_sub, abs_mul, abs_mul, mul_left_comm]
    exact mul_le_mul_of_nonneg_left n3 (abs_nonneg _)
  set q' := -(1 / 2) * t
  obtain ⟨d1, l0, l1⟩ := quad_num e0 e1 hdd
  have hz := (neg_of_near (by linarith) n4).2
  have kq : q * (q + b) = -(a * c) := by
    rw [hqd]
    linear_combination (1 / 4 : K) * (σ * σ * s1 + D * hσ + hDd)
  have N0 : |rnd (q' / a) - q / a| ≤ 6 * e * |q / a| := by
    refine (near_round (c := d) hp1 h ?_).trans (mul_le_mul_of_nonneg_right l0 (abs_nonneg _))
    rw [← sub_div, abs_div, abs_div, ← mul_div_assoc]
    exact div_le_div_of_nonneg_right n4 (abs_nonneg _)
  have N1 : |rnd (c / q') - c / q| ≤ 6 * e * |c / q| := by
    refine (near_round (c := 1 / (1 - d) - 1) hp1 h ?_).trans (mul_le_mul_of_nonneg_right l1 (abs_nonneg _))
    rw [div_eq_mul_inv, div_eq_mul_inv, ← mul_sub, abs_mul, abs_mul, mul_left_comm]
    exact mul_le_mul_of_nonneg_left (near_inv (by linarith) n4) (abs_nonneg _)
  have hq0 : q = 0 → b = 0 := fun h0 => by
    have h1 : b + σ * s = 0 := by
      rw [hqd] at h0
      exact (mul_eq_zero.1 h0).resolve_left (by norm_num)
    rw [h1, abs_zero] at habs
    exact abs_eq_zero.1 (le_antisymm (by rw [habs]; exact le_add_of_nonneg_right s0) (abs_nonneg b))
  refine ⟨_, _, quad_alg hab kq hq0, ?_, ?_⟩
  · rw [← hr0]
    by_cases ha0 : a = 0
    · rw [if_neg (not_not.2 ha0), if_neg (not_not.2 ha0)]
      exact N1
    · rw [if_pos ha0, if_pos ha0]
      exact N0
  · rw [← hr1]
    by_cases h0 : q = 0
    · rw [if_neg (not_not.2 (hz.2 h0)), if_neg (not_not.2 h0)]
      exact N0
    · rw [if_pos h0, if_pos (fun hc => h0 (hz.1 hc))]
      exact N1

/-- **C122.** Where there is exactly one root the two results are equal, and it is rounded once. -/
theorem C122_double (hp : 2 ≤ p) (h : IsRound p rnd) (hq : ∀ x, 0 ≤ x → 0 ≤ sqrt x ∧ sqrt x * sqrt x = x) {neg : Bool} {a b c r0 r1 : K}
    (ha : IsFloat p a) (hb : IsFloat p b) (hc : IsFloat p c) (hr : quadSolve rnd sqrt neg a b c = some (r0, r1)) (ha0 : a ≠ 0)
    (hD : b * b = 4 * a * c) : r0 = rnd (-b / (2 * a)) ∧ r1 = rnd (-b / (2 * a)) := by
  have e1 : eps K p ≤ 1 / 4 := by
    rw [eps, show (1 / 4 : K) = 2 ^ (-2 : ℤ) by norm_num]
    exact zle (by omega)
  have hd := (neg_of_near (by linarith) (descr_near (by omega) h ha hb hc)).2.2 (by linarith)
  have s0 : sqrt 0 = 0 := mul_self_eq_zero.1 (hq 0 le_rfl).2
  have z := h.fix (float_zero p)
  have hqe : rnd (-(1 / 2) * b) = -(1 / 2) * b := h.fix (by
    rw [show -(1 / 2) * b = -(b / 2) by ring]
    exact float_neg (float_half hb))
  simp only [quadSolve, hd, s0, z, neg_zero, ite_self, add_zero, h.fix hb, hqe, lt_self_iff_false, ha0, false_and, or_self, if_false, ne_eq,
    not_false_eq_true, if_true, Option.some.injEq, Prod.mk.injEq] at hr
  obtain ⟨h0, h1⟩ := hr
  have e : -(1 / 2) * b / a = -b / (2 * a) := by field_simp
  rw [e] at h0 h1
  refine ⟨h0.symm, ?_⟩
  rw [← h1]
  rcases eq_or_ne b 0 with rfl | hb1
  · rw [if_neg (by simp)]
  · rw [if_pos (mul_ne_zero (by norm_num) hb1)]
    congr 1
    field_simp
    linear_combination hD

/-- The rounded root of the rounded square of a float is its absolute value. -/
theorem sqrt_sq (hp : 1 ≤ p) (h : IsRound p rnd) (hq : ∀ x, 0 ≤ x → 0 ≤ sqrt x ∧ sqrt x * sqrt x = x) {b : K} (hb : IsFloat p b) :
    rnd (sqrt (rnd (b * b))) = |b| := by
  rcases eq_or_ne b 0 with rfl | hb0
  · rw [mul_zero, h.fix (float_zero p), mul_self_eq_zero.1 (hq 0 le_rfl).2, h.fix (float_zero p), abs_zero]
  have hpos : 0 < |b| := abs_pos.2 hb0
  obtain ⟨l0, l1⟩ := log_spec hpos
  set E := Int.log 2 |b|
  have fb : IsFloat p |b| := by
    rcases abs_choice b with hc | hc <;> rw [hc]
    · exact hb
    · exact float_neg hb
  rw [← abs_mul_abs_self b]
  set t := |b|
  have e0 := eps_pos (K := K) p
  have e1 := eps_le (K := K) hp
  have hr0 : 0 ≤ rnd (t * t) := (h.nonneg_iff hp _).2 (mul_self_nonneg _)
  obtain ⟨x0, x1⟩ := hq _ hr0
  set x := sqrt (rnd (t * t))
  obtain ⟨b0, b1⟩ := h.bounds hp (mul_self_nonneg t)
  have rel := h.rel hp (t * t)
  have hE : (2 : K) ^ E ≤ x := by
    have h1 : (2 : K) ^ (E + E) ≤ rnd (t * t) := h.ge_of_ge (float_pow hp _) (by
      rw [zadd]
      exact mul_le_mul l0 l0 (two_zpow_pos E).le hpos.le)
    rw [zadd, ← x1] at h1
    exact abs_le_of_sq_le_sq' (by rw [sq, sq]; exact h1) x0 |>.2
  have hx : (1 - eps K p) * t ≤ x := by
    refine abs_le_of_sq_le_sq' ?_ x0 |>.2
    have : 0 ≤ eps K p * (1 - eps K p) * (t * t) := mul_nonneg (mul_nonneg e0.le (by linarith)) (mul_self_nonneg t)
    rw [sq x, x1]
    nlinarith
  obtain ⟨k, hk⟩ := grid_of_float fb (show (2 : K) ^ E ≤ |t| by rw [abs_abs]; exact l0)
  have gp := two_zpow_pos (K := K) (E + 1 - p)
  have hP : (2 : K) ^ (E + 1) = ((2 ^ p : ℤ) : K) * 2 ^ (E + 1 - (p : ℤ)) := by
    rw [Int.cast_pow, Int.cast_ofNat, ← zpow_natCast, ← zadd]
    congr 1
    ring
  have hkl : k ≤ 2 ^ p - 1 := by
    rw [hk, hP] at l1
    have : (k : K) < ((2 ^ p : ℤ) : K) := lt_of_mul_lt_mul_right l1 gp.le
    have := Int.cast_lt.1 this
    omega
  have ht : t ≤ 2 ^ (E + 1) * (1 - eps K p) := by
    have h1 : (k : K) ≤ ((2 ^ p - 1 : ℤ) : K) := Int.cast_le.2 hkl
    have h2 := mul_le_mul_of_nonneg_right h1 gp.le
    rw [← hk, Int.cast_sub, sub_mul, ← hP, Int.cast_one, one_mul] at h2
    rw [mul_sub, mul_one, eps, ← zadd]
    exact h2
  have hn : |x - t| < 2 ^ (E - p) := by
    have h1 : |x - t| * (x + t) = |rnd (t * t) - t * t| := by
      rw [← x1, ← abs_of_nonneg (show 0 ≤ x + t by linarith), ← abs_mul]
      congr 1
      ring
    rw [abs_of_nonneg (mul_self_nonneg t)] at rel
    have h2 : 2 ^ (E - (p : ℤ)) = 2 ^ E * eps K p := by rw [eps, ← zadd]; rfl
    rw [h2]
    have h3 : (2 : K) ^ (E + 1) = 2 * 2 ^ E := by rw [zadd, zpow_one, mul_comm]
    rw [h3] at ht
    have h4 := two_zpow_pos (K := K) E
    by_contra hc
    push Not at hc
    have h5 : 2 ^ E * eps K p * (x + t) ≤ |x - t| * (x + t) := mul_le_mul_of_nonneg_right hc (by linarith)
    rw [h1] at h5
    have h6 : eps K p * (2 ^ E * (x + t)) ≤ eps K p * (t * t) := by linarith
    have h7 := le_of_mul_le_mul_left h6 e0
    have h8 : 2 ^ E * ((2 - eps K p) * t) ≤ t * t := le_trans (mul_le_mul_of_nonneg_left (by linarith) h4.le) h7
    have h9 : 2 ^ E * (2 - eps K p) ≤ t := le_of_mul_le_mul_right (by linarith) hpos
    nlinarith
  rw [hk] at hn ⊢
  exact h.eq_of_near hp k hE (by rw [← hk]; exact fb) hn

/-- **C122.** A linear equation has one result, the exact root rounded once. -/
theorem C122_linear (hp : 1 ≤ p) (h : IsRound p rnd) (hq : ∀ x, 0 ≤ x → 0 ≤ sqrt x ∧ sqrt x * sqrt x = x) (neg : Bool) {b c : K}
    (hb : IsFloat p b) (hb0 : b ≠ 0) : quadSolve rnd sqrt neg 0 b c = some (rnd (-c / b), rnd (-c / b)) := by
  have z := h.fix (float_zero p)
  have hd : diffOfProducts rnd b b (rnd (4 * 0)) c = rnd (b * b) := by
    simp only [diffOfProducts, mul_zero, z, zero_mul, neg_zero, add_zero, h.fix (h.mem _)]
  have hn : ¬ rnd (b * b) < 0 := not_lt.2 ((h.nonneg_iff hp _).2 (mul_self_nonneg b))
  have hpick : (b + if b < 0 ∨ (b = 0 ∧ neg = true) then -|b| else |b|) = b * 2 := by
    split_ifs with hs
    · rcases hs with hs | hs
      · rw [abs_of_neg hs]
        ring
      · exact absurd hs.1 hb0
    · push Not at hs
      rw [abs_of_nonneg hs.1]
      ring
  have hqe : rnd (-(1 / 2) * rnd (b * 2)) = -b := by
    rw [h.fix (float_double hb), show -(1 / 2) * (b * 2) = -b by ring, h.fix (float_neg hb)]
  simp only [quadSolve, hd, sqrt_sq hp h hq hb, hpick, hqe]
  rw [if_neg (by rintro (hc | hc); exacts [hn hc, hb0 hc.2]), if_neg (by simp), if_pos (neg_ne_zero.2 hb0), div_neg, neg_div]

/-! ## Examples -/

example : quadSolve (K := ℚ) id (fun x => if x = 1 then 1 else 0) false 1 (-3) 2 = some (2, 1) := by
  norm_num [quadSolve, diffOfProducts]
example : quadSolve (K := ℚ) id (fun x => if x = 1 then 1 else 0) false 1 0 1 = none := by
  norm_num [quadSolve, diffOfProducts]

/-- A double, with the roots of the reals. -/
example : (quadSolve (nearest 53) Real.sqrt false (1 : ℝ) (-2) 1).isSome := by
  have f1 : IsFloat 53 (1 : ℝ) := by simpa using float_pow (K := ℝ) (p := 53) (by norm_num) 0
  refine (C122_success (by norm_num) (C95_nearest (by norm_num)) (fun x hx => ⟨Real.sqrt_nonneg x, Real.mul_self_sqrt hx⟩) false f1
    (float_neg (by simpa using float_pow (K := ℝ) (p := 53) (by norm_num) 1)) f1).2 ⟨⟨1, by norm_num⟩, by norm_num⟩

end Geomc.Flt
