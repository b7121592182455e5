import Verif.Float.Model

/-! # Property C95: accuracy of the rounded product formulas -/

namespace Geomc.Flt

variable {K : Type} [Field K] [LinearOrder K] [IsStrictOrderedRing K] [FloorRing K]

/-- The floating-point numbers with `p` bits: integers of at most `p` bits times a power of two. -/
def IsFloat (p : ℕ) (x : K) : Prop := ∃ m e : ℤ, |m| < 2 ^ p ∧ x = m * 2 ^ e

/-- Rounding to nearest: the result is a float and none is closer.  Ties are broken in any way. -/
structure IsRound (p : ℕ) (rnd : K → K) : Prop where
  mem : ∀ x, IsFloat p (rnd x)
  near : ∀ x y, IsFloat p y → |rnd x - x| ≤ |y - x|

/-- Unit in the last place: the distance of neighbouring floats around `x`. -/
def ulp (p : ℕ) (x : K) : K := 2 ^ (Int.log 2 |x| + 1 - p)

theorem two_zpow_pos (e : ℤ) : (0 : K) < 2 ^ e := zpow_pos (by norm_num) e

theorem zadd (a b : ℤ) : (2 : K) ^ (a + b) = 2 ^ a * 2 ^ b := zpow_add₀ (by norm_num) a b

theorem zlt {a b : ℤ} (h : (2 : K) ^ a < 2 ^ b) : a < b :=
  (zpow_lt_zpow_iff_right₀ (by norm_num)).1 h

theorem zle {a b : ℤ} (h : a ≤ b) : (2 : K) ^ a ≤ 2 ^ b := zpow_le_zpow_right₀ (by norm_num) h

theorem mem_le {p : ℕ} (hp : 1 ≤ p) (m e : ℤ) (h : |m| ≤ 2 ^ p) : IsFloat p ((m : K) * 2 ^ e) := by
  rcases h.lt_or_eq with h | h
  · exact ⟨m, e, h, rfl⟩
  · have h1 : (1 : ℤ) < 2 ^ p := by
      calc (1 : ℤ) < 2 ^ 1 := by norm_num
        _ ≤ 2 ^ p := pow_le_pow_right₀ (by norm_num) hp
    rcases abs_choice m with hm | hm
    · refine ⟨1, p + e, by simpa using h1, ?_⟩
      rw [hm] at h
      rw [h, zadd]; push_cast; rw [zpow_natCast, one_mul]
    · refine ⟨-1, p + e, by simpa using h1, ?_⟩
      rw [hm] at h
      rw [show m = -2 ^ p by omega, zadd]; push_cast; rw [zpow_natCast]; ring

theorem float_neg {p : ℕ} {x : K} (h : IsFloat p x) : IsFloat p (-x) := by
  obtain ⟨m, e, h, rfl⟩ := h
  exact ⟨-m, e, by rwa [abs_neg], by push_cast; ring⟩

theorem float_zero (p : ℕ) : IsFloat p (0 : K) := ⟨0, 0, by simp, by simp⟩

theorem float_pow {p : ℕ} (hp : 1 ≤ p) (e : ℤ) : IsFloat p ((2 : K) ^ e) := by
  have := mem_le (K := K) hp 1 e (by simpa using one_le_pow₀ (M₀ := ℤ) (by norm_num : (1 : ℤ) ≤ 2))
  simpa using this

theorem IsRound.fix {p : ℕ} {rnd : K → K} (h : IsRound p rnd) {x : K} (hx : IsFloat p x) : rnd x = x := by
  have := h.near x x hx
  rw [sub_self, abs_zero] at this
  exact sub_eq_zero.1 (abs_eq_zero.1 (le_antisymm this (abs_nonneg _)))

/-- A multiple of `2 ^ (E + 1 - p)` up to `2 ^ (E + 1)` is a float. -/
theorem float_grid {p : ℕ} (hp : 1 ≤ p) (E k : ℤ) (h : |(k : K) * 2 ^ (E + 1 - p)| ≤ 2 ^ (E + 1)) :
    IsFloat p ((k : K) * 2 ^ (E + 1 - p)) := by
  apply mem_le hp
  rw [abs_mul, abs_of_pos (show (0 : K) < 2 ^ (E + 1 - (p : ℤ)) from two_zpow_pos _)] at h
  have e : (2 : K) ^ (E + 1) = 2 ^ p * 2 ^ (E + 1 - p) := by
    rw [← zpow_natCast, ← zadd]; congr 1; ring
  rw [e] at h
  have := le_of_mul_le_mul_right h (two_zpow_pos _)
  exact_mod_cast this

/-- A float not below `2 ^ E` is a multiple of `2 ^ (E + 1 - p)`. -/
theorem grid_of_float {p : ℕ} {y : K} (hy : IsFloat p y) {E : ℤ} (h : 2 ^ E ≤ |y|) :
    ∃ k : ℤ, y = k * 2 ^ (E + 1 - p) := by
  obtain ⟨m, e, hm, rfl⟩ := hy
  rw [abs_mul, abs_of_pos (show (0 : K) < 2 ^ e from two_zpow_pos _)] at h
  have h1 : (2 : K) ^ E < 2 ^ (p + e) := by
    rw [zadd, zpow_natCast]
    refine lt_of_le_of_lt h (mul_lt_mul_of_pos_right ?_ (two_zpow_pos _))
    exact_mod_cast hm
  have h2 := zlt h1
  obtain ⟨n, hn⟩ : ∃ n : ℕ, e = (E + 1 - p) + n := ⟨(e - (E + 1 - p)).toNat, by omega⟩
  refine ⟨m * 2 ^ n, ?_⟩
  rw [hn, zadd, zpow_natCast]
  push_cast; ring

theorem round_err {p : ℕ} (hp : 1 ≤ p) {x w : K} (near : ∀ y, IsFloat p y → |w - x| ≤ |y - x|) {E : ℤ}
    (hx : |x| ≤ 2 ^ (E + 1)) : |w - x| ≤ 2 ^ (E - p) := by
  set h : K := 2 ^ (E + 1 - p) with hh
  have hpos : 0 < h := two_zpow_pos _
  have e : (2 : K) ^ (E + 1) = 2 ^ p * h := by
    rw [← zpow_natCast, hh, ← zadd]; congr 1; ring
  have hq : |x / h| ≤ 2 ^ p := by
    rw [abs_div, abs_of_pos hpos, div_le_iff₀ hpos, ← e]; exact hx
  have hr : |round (x / h)| ≤ 2 ^ p := by
    rw [abs_le] at hq ⊢
    have a : round (-(2 : K) ^ p) ≤ round (x / h) := by
      rw [round_eq, round_eq]; exact Int.floor_le_floor (by linarith [hq.1])
    have b : round (x / h) ≤ round ((2 : K) ^ p) := by
      rw [round_eq, round_eq]; exact Int.floor_le_floor (by linarith [hq.2])
    rw [show (2 : K) ^ p = ((2 ^ p : ℤ) : K) by push_cast; rfl, round_intCast] at b
    rw [show -(2 : K) ^ p = ((-2 ^ p : ℤ) : K) by push_cast; rfl, round_intCast] at a
    exact ⟨a, b⟩
  have h1 := near _ (mem_le hp (round (x / h)) (E + 1 - p) hr)
  have h2 := abs_sub_round (x / h)
  have h3 : ((round (x / h) : ℤ) : K) * h - x = -((x / h - round (x / h)) * h) := by
    field_simp; ring
  rw [← hh, h3, abs_neg, abs_mul, abs_of_pos hpos] at h1
  refine h1.trans ?_
  calc |x / h - ↑(round (x / h))| * h ≤ 1 / 2 * h := mul_le_mul_of_nonneg_right h2 hpos.le
    _ = 2 ^ (E - p) := by
      rw [hh, show E + 1 - (p : ℤ) = (E - p) + 1 by ring, zadd]
      rw [zpow_one]; ring

theorem product_form {p : ℕ} {a b : K} (ha : IsFloat p a) (hb : IsFloat p b) :
    ∃ M g : ℤ, |M| < 2 ^ (2 * p) ∧ a * b = M * 2 ^ g := by
  obtain ⟨m, e, hm, rfl⟩ := ha
  obtain ⟨n, f, hn, rfl⟩ := hb
  refine ⟨m * n, e + f, ?_, ?_⟩
  · rw [abs_mul, two_mul, pow_add]
    exact mul_lt_mul'' hm hn (abs_nonneg _) (abs_nonneg _)
  · rw [zadd]; push_cast; ring

theorem residue_float {p : ℕ} (hp : 1 ≤ p) {M g E : ℤ} {w : K} (hM : |M| < 2 ^ (2 * p))
    (hx : ¬ IsFloat p ((M : K) * 2 ^ g)) (h1 : (2 : K) ^ E ≤ M * 2 ^ g) (h2 : (M : K) * 2 ^ g < 2 ^ (E + 1))
    (hw : IsFloat p w) (h3 : 2 ^ E ≤ w) (h4 : |(M : K) * 2 ^ g - w| ≤ 2 ^ (E + 1 - p)) :
    IsFloat p ((M : K) * 2 ^ g - w) := by
  have hgp : (0 : K) < 2 ^ g := two_zpow_pos g
  have hM0 : (0 : K) < M := by
    by_contra hc
    have := mul_nonpos_of_nonpos_of_nonneg (not_lt.1 hc) hgp.le
    linarith [two_zpow_pos (K := K) E]
  have hgE : g < E + 1 - p := by
    by_contra hc
    apply hx
    refine ⟨M, g, ?_, rfl⟩
    have : (M : K) * 2 ^ g < 2 ^ p * 2 ^ g := by
      refine h2.trans_le ?_
      rw [← zpow_natCast, ← zadd]
      exact zle (by omega)
    have := lt_of_mul_lt_mul_right this hgp.le
    have h5 : M < 2 ^ p := by exact_mod_cast this
    rw [abs_of_pos (by exact_mod_cast hM0)]; exact h5
  have hEg : E + 1 - p ≤ p + g := by
    have : (2 : K) ^ E < 2 ^ ((2 * p : ℕ) + g) := by
      refine h1.trans_lt ?_
      rw [zadd, zpow_natCast]
      refine mul_lt_mul_of_pos_right ?_ hgp
      have := (le_abs_self M).trans_lt hM
      exact_mod_cast this
    have := zlt this
    push_cast at this; omega
  obtain ⟨k, hk⟩ := grid_of_float hw (h3.trans (le_abs_self w))
  obtain ⟨n, hn⟩ : ∃ n : ℕ, E + 1 - (p : ℤ) = g + n := ⟨(E + 1 - p - g).toNat, by omega⟩
  have hxw : (M : K) * 2 ^ g - w = ((M - k * 2 ^ n : ℤ) : K) * 2 ^ g := by
    rw [hk, hn, zadd, zpow_natCast]; push_cast; ring
  rw [hxw] at h4 ⊢
  apply mem_le hp
  rw [abs_mul, abs_of_pos hgp] at h4
  have : |((M - k * 2 ^ n : ℤ) : K)| * 2 ^ g ≤ 2 ^ p * 2 ^ g := by
    refine h4.trans ?_
    rw [← zpow_natCast, ← zadd]
    exact zle hEg
  have := le_of_mul_le_mul_right this hgp
  exact_mod_cast this

theorem log_spec {x : K} (h : 0 < x) : (2 : K) ^ Int.log 2 x ≤ x ∧ x < 2 ^ (Int.log 2 x + 1) := by
  have a := Int.zpow_log_le_self (b := 2) (by norm_num) h
  have b := Int.lt_zpow_succ_log_self (b := 2) (by norm_num) x
  exact ⟨by exact_mod_cast a, by exact_mod_cast b⟩

/-- The rounding error of a product of floats is a float. -/
theorem product_error {p : ℕ} (hp : 1 ≤ p) {M g : ℤ} (hM : |M| < 2 ^ (2 * p)) {x w : K}
    (hxe : x = M * 2 ^ g) (hw : IsFloat p w) (near : ∀ y, IsFloat p y → |w - x| ≤ |y - x|) :
    IsFloat p (x - w) := by
  by_cases hx : IsFloat p x
  · have := near x hx
    rw [sub_self, abs_zero] at this
    have : w - x = 0 := abs_eq_zero.1 (le_antisymm this (abs_nonneg _))
    rw [← neg_sub, this, neg_zero]; exact float_zero p
  have pos : ∀ {M : ℤ} {x w : K}, |M| < 2 ^ (2 * p) → x = M * 2 ^ g → IsFloat p w → ¬ IsFloat p x →
      (∀ y, IsFloat p y → |w - x| ≤ |y - x|) → 0 < x → IsFloat p (x - w) := by
    intro M x w hM hxe hw hx near h0
    obtain ⟨h1, h2⟩ := log_spec h0
    have h3 : (2 : K) ^ Int.log 2 x ≤ w := by
      by_contra hc
      have := near _ (float_pow hp (Int.log 2 x))
      rw [abs_of_nonpos (by linarith), abs_of_nonpos (by linarith)] at this
      linarith
    have h4 := round_err hp near (E := Int.log 2 x) (by rw [abs_of_pos h0]; exact h2.le)
    rw [hxe]
    rw [hxe] at hx
    refine residue_float hp hM hx (by rw [← hxe]; exact h1) (by rw [← hxe]; exact h2) hw h3 ?_
    rw [← hxe, abs_sub_comm]
    exact h4.trans (zle (by omega))
  rcases lt_trichotomy x 0 with h0 | h0 | h0
  · have := pos (M := -M) (x := -x) (w := -w) (by rwa [abs_neg]) (by rw [hxe]; push_cast; ring)
      (float_neg hw) (fun h => hx (by simpa using float_neg h))
      (fun y hy => by
        have := near (-y) (float_neg hy)
        rw [← abs_neg, show -(-w - -x) = w - x by ring, ← abs_neg (y - -x),
          show -(y - -x) = -y - x by ring]
        exact this) (by linarith)
    have := float_neg this
    rwa [show -(-x - -w) = x - w by ring] at this
  · exact absurd (h0 ▸ float_zero p) hx
  · exact pos hM hxe hw hx near h0

/-- If a product `x` is much closer to `z` than to the float nearest to `z`, its distance to that float
is itself a float. -/
theorem close_error {p : ℕ} (hp : 1 ≤ p) {M g : ℤ} (hM : |M| < 2 ^ (2 * p)) {x z w : K}
    (hxe : x = M * 2 ^ g) (hw : IsFloat p w) (near : ∀ y, IsFloat p y → |w - z| ≤ |y - z|)
    (hc : 2 * |x - z| < |x - w|) : IsFloat p (x - w) := by
  have hx : ¬ IsFloat p x := by
    intro hx
    have h1 := near x hx
    have h2 := abs_sub_le x z w
    rw [abs_sub_comm z w] at h2
    linarith
  have pos : ∀ {M : ℤ} {x z w : K}, |M| < 2 ^ (2 * p) → x = M * 2 ^ g → IsFloat p w → ¬ IsFloat p x →
      (∀ y, IsFloat p y → |w - z| ≤ |y - z|) → 2 * |x - z| < |x - w| → 0 < x → IsFloat p (x - w) := by
    intro M x z w hM hxe hw hx near hc h0
    obtain ⟨h1, h2⟩ := log_spec h0
    set E := Int.log 2 x with hE
    set h : K := 2 ^ (E + 1 - p) with hh
    have hpos : 0 < h := two_zpow_pos _
    have eE : (2 : K) ^ (E + 1) = ((2 ^ p : ℤ) : K) * h := by
      push_cast; rw [← zpow_natCast, hh, ← zadd]; congr 1; ring
    obtain ⟨j, hj⟩ : ∃ j : ℤ, (2 : K) ^ E = j * h :=
      grid_of_float (float_pow hp E) (le_abs_self _)
    have goal : 2 ^ E ≤ w → |x - w| ≤ h → IsFloat p (x - w) := by
      intro a b
      rw [hxe] at hx b h1 h2 ⊢
      exact residue_float hp hM hx h1 h2 hw a b
    rw [hxe] at hx
    rw [← hxe] at hx
    rcases lt_trichotomy w x with hwx | hwx | hwx
    · -- the grid point at or below `x`
      have hq1 : (⌊x / h⌋ : K) * h ≤ x := by
        have := Int.floor_le (x / h); rwa [le_div_iff₀ hpos] at this
      have hq2 : x < ((⌊x / h⌋ : K) + 1) * h := by
        have := Int.lt_floor_add_one (x / h); rwa [div_lt_iff₀ hpos] at this
      have hq3 : (2 : K) ^ E ≤ (⌊x / h⌋ : K) * h := by
        rw [hj]
        refine mul_le_mul_of_nonneg_right ?_ hpos.le
        have : j ≤ ⌊x / h⌋ := Int.le_floor.2 (by rw [le_div_iff₀ hpos, ← hj]; exact h1)
        exact_mod_cast this
      have hqf : IsFloat p ((⌊x / h⌋ : K) * h) := float_grid hp E _ (by
        rw [← hh, abs_of_nonneg (by linarith [two_zpow_pos (K := K) E])]; linarith)
      have hle : (⌊x / h⌋ : K) * h ≤ w := by
        by_contra hlt
        have hn := near _ hqf
        rw [abs_of_pos (show 0 < x - w by linarith)] at hc
        have h5 := (abs_le.1 (le_refl |x - z|))
        have h6 : w < z := by linarith [h5.2]
        rw [abs_of_neg (by linarith)] at hn
        rcases abs_cases ((⌊x / h⌋ : K) * h - z) with ⟨e, _⟩ | ⟨e, _⟩ <;> rw [e] at hn <;> linarith [h5.2]
      apply goal (hq3.trans hle)
      rw [abs_of_pos (by linarith)]; linarith
    · rw [hwx, sub_self]; exact float_zero p
    · have hq1 : x ≤ (⌈x / h⌉ : K) * h := by
        have := Int.le_ceil (x / h); rwa [div_le_iff₀ hpos] at this
      have hq2 : ((⌈x / h⌉ : K) - 1) * h < x := by
        have := Int.ceil_lt_add_one (x / h)
        rw [← lt_div_iff₀ hpos]; linarith
      have hq3 : (⌈x / h⌉ : K) * h ≤ 2 ^ (E + 1) := by
        rw [eE]
        refine mul_le_mul_of_nonneg_right ?_ hpos.le
        have : ⌈x / h⌉ ≤ 2 ^ p := Int.ceil_le.2 (by rw [div_le_iff₀ hpos, ← eE]; exact h2.le)
        exact_mod_cast this
      have hqf : IsFloat p ((⌈x / h⌉ : K) * h) := float_grid hp E _ (by
        rw [← hh, abs_of_nonneg (by linarith)]; exact hq3)
      have hle : w ≤ (⌈x / h⌉ : K) * h := by
        by_contra hlt
        have hn := near _ hqf
        rw [abs_of_neg (show x - w < 0 by linarith)] at hc
        have h5 := (abs_le.1 (le_refl |x - z|))
        have h6 : z < w := by linarith [h5.1]
        rw [abs_of_pos (by linarith)] at hn
        rcases abs_cases ((⌈x / h⌉ : K) * h - z) with ⟨e, _⟩ | ⟨e, _⟩ <;> rw [e] at hn <;> linarith [h5.1]
      apply goal (by linarith)
      rw [abs_of_neg (by linarith)]; linarith
  rcases lt_trichotomy x 0 with h0 | h0 | h0
  · have := pos (M := -M) (x := -x) (z := -z) (w := -w) (by rwa [abs_neg]) (by rw [hxe]; push_cast; ring)
      (float_neg hw) (fun h => hx (by simpa using float_neg h))
      (fun y hy => by
        have := near (-y) (float_neg hy)
        rw [← abs_neg, show -(-w - -z) = w - z by ring, ← abs_neg (y - -z),
          show -(y - -z) = -y - z by ring]
        exact this)
      (by
        rw [← abs_neg (-x - -z), show -(-x - -z) = x - z by ring, ← abs_neg (-x - -w),
          show -(-x - -w) = x - w by ring]
        exact hc) (by linarith)
    have := float_neg this
    rwa [show -(-x - -w) = x - w by ring] at this
  · exact absurd (h0 ▸ float_zero p) hx
  · exact pos hM hxe hw hx near hc h0

/-- The last rounding: `y` nearest to `s`, which is within one unit of `r`. -/
theorem last_round {p : ℕ} (hp : 1 ≤ p) {r s y : K} {E : ℤ} (hr : |r| < 2 ^ (E + 1))
    (hs : |s - r| ≤ 2 ^ (E + 1 - p)) (hy : IsFloat p y) (near : ∀ q, IsFloat p q → |y - s| ≤ |q - s|) :
    |y - r| ≤ 3 / 2 * 2 ^ (E + 1 - p) := by
  set U : K := 2 ^ (E + 1 - p) with hU
  have hUp : 0 < U := two_zpow_pos _
  have half : (2 : K) ^ (E - p) = U / 2 := by
    rw [hU, show E + 1 - (p : ℤ) = (E - p) + 1 by ring, zadd, zpow_one]; ring
  by_cases hsb : |s| ≤ 2 ^ (E + 1)
  · have h1 := round_err hp near hsb
    rw [half] at h1
    have := abs_sub_le y s r
    linarith
  have key : ∀ {r s y : K}, |r| < 2 ^ (E + 1) → |s - r| ≤ U → IsFloat p y →
      (∀ q, IsFloat p q → |y - s| ≤ |q - s|) → 2 ^ (E + 1) < s → |y - r| ≤ U := by
    intro r s y hr hs hy near hb
    have hn := near _ (float_pow hp (E + 1))
    rw [abs_of_neg (show (2 : K) ^ (E + 1) - s < 0 by linarith)] at hn
    have hn' := abs_le.1 hn
    have hr' := abs_lt.1 hr
    have hs' := abs_le.1 hs
    have hyE : y = 2 ^ (E + 1) := by
      by_contra hne
      have hlt : (2 : K) ^ (E + 1) < y := lt_of_le_of_ne (by linarith [hn'.1]) (Ne.symm hne)
      obtain ⟨k, hk⟩ := grid_of_float hy (hlt.le.trans (le_abs_self y))
      obtain ⟨j, hj⟩ := grid_of_float (float_pow (K := K) hp (E + 1)) (le_abs_self _)
      have h2U : (2 : K) ^ (E + 1 + 1 - p) = 2 * U := by
        rw [hU, show E + 1 + 1 - (p : ℤ) = (E + 1 - p) + 1 by ring, zadd, zpow_one]; ring
      rw [h2U] at hk hj
      rw [hk, hj] at hlt
      have hjk : j < k := by
        have := lt_of_mul_lt_mul_right hlt (by linarith)
        exact_mod_cast this
      have : ((j + 1 : ℤ) : K) * (2 * U) ≤ k * (2 * U) :=
        mul_le_mul_of_nonneg_right (by exact_mod_cast hjk) (by linarith)
      push_cast at this
      rw [← hk, add_mul, ← hj] at this
      linarith [hn'.2, hs'.2, hr'.2]
    rw [hyE, abs_of_pos (by linarith [hr'.2])]
    linarith [hs'.2]
  rcases lt_or_ge s 0 with h0 | h0
  · rw [abs_of_neg h0] at hsb
    have := key (r := -r) (s := -s) (y := -y) (by rwa [abs_neg])
      (by rw [← abs_neg, show -(-s - -r) = s - r by ring]; exact hs) (float_neg hy)
      (fun q hq => by
        have := near (-q) (float_neg hq)
        rw [← abs_neg, show -(-y - -s) = y - s by ring, ← abs_neg (q - -s),
          show -(q - -s) = -q - s by ring]
        exact this) (by linarith)
    rw [← abs_neg, show -(-y - -r) = y - r by ring] at this
    linarith
  · rw [abs_of_nonneg h0] at hsb
    have := key hr hs hy near (by linarith)
    linarith

/-- The common core: `x` and `z` products of floats, `w` the float nearest to `z`. -/
theorem compensated {p : ℕ} (hp : 1 ≤ p) {rnd : K → K} (hr : IsRound p rnd) {M g M' g' : ℤ}
    (hM : |M| < 2 ^ (2 * p)) (hM' : |M'| < 2 ^ (2 * p)) {x z w : K} (hx : x = M * 2 ^ g)
    (hz : z = M' * 2 ^ g') (hw : IsFloat p w) (near : ∀ y, IsFloat p y → |w - z| ≤ |y - z|) :
    (x = z → rnd (rnd (x - w) + rnd (w - z)) = 0) ∧
    (x ≠ z → |rnd (rnd (x - w) + rnd (w - z)) - (x - z)| ≤ 3 / 2 * ulp p (x - z)) := by
  have he := product_error hp hM' hz hw near
  have he' : IsFloat p (w - z) := by have := float_neg he; rwa [neg_sub] at this
  rw [hr.fix he']
  constructor
  · rintro rfl
    rw [hr.fix he, sub_add_sub_cancel, sub_self]
    exact hr.fix (float_zero p)
  · intro hne
    have h0 : 0 < |x - z| := abs_pos.2 (sub_ne_zero.2 hne)
    obtain ⟨h1, h2⟩ := log_spec h0
    refine last_round hp (E := Int.log 2 |x - z|) h2 ?_ (hr.mem _) (hr.near _)
    rw [show rnd (x - w) + (w - z) - (x - z) = rnd (x - w) - (x - w) by ring]
    by_cases hc : 2 * |x - z| < |x - w|
    · rw [hr.fix (close_error hp hM hx hw near hc), sub_self, abs_zero]
      exact (two_zpow_pos _).le
    · have := round_err hp (hr.near (x - w)) (E := Int.log 2 |x - z| + 1) (by
        rw [zadd _ 1, zpow_one]; linarith)
      exact this

/-- **C95.** `diff_of_products` on floats is within 1.5 units in the last place of the exact value of
`a * b - c * d`, whatever the cancellation, and is exactly zero when that is: for every precision and every
rounding to nearest. -/
theorem C95_diff {p : ℕ} (hp : 1 ≤ p) {rnd : K → K} (hr : IsRound p rnd) {a b c d : K}
    (ha : IsFloat p a) (hb : IsFloat p b) (hc : IsFloat p c) (hd : IsFloat p d) :
    (a * b = c * d → diffOfProducts rnd a b c d = 0) ∧
    (a * b ≠ c * d → |diffOfProducts rnd a b c d - (a * b - c * d)| ≤ 3 / 2 * ulp p (a * b - c * d)) := by
  obtain ⟨M, g, hM, h1⟩ := product_form ha hb
  obtain ⟨M', g', hM', h2⟩ := product_form hc hd
  have := compensated hp hr hM hM' h1 h2 (hr.mem (c * d)) (hr.near (c * d))
  have e : diffOfProducts rnd a b c d =
      rnd (rnd (a * b - rnd (c * d)) + rnd (rnd (c * d) - c * d)) := by
    simp only [diffOfProducts]
    rw [show -c * d + rnd (c * d) = rnd (c * d) - c * d by ring, ← sub_eq_add_neg]
  rw [e]; exact this

/-- **C95.** The same for `sum_of_products`. -/
theorem C95_sum {p : ℕ} (hp : 1 ≤ p) {rnd : K → K} (hr : IsRound p rnd) {a b c d : K}
    (ha : IsFloat p a) (hb : IsFloat p b) (hc : IsFloat p c) (hd : IsFloat p d) :
    (a * b + c * d = 0 → sumOfProducts rnd a b c d = 0) ∧
    (a * b + c * d ≠ 0 → |sumOfProducts rnd a b c d - (a * b + c * d)| ≤ 3 / 2 * ulp p (a * b + c * d)) := by
  obtain ⟨M, g, hM, h1⟩ := product_form ha hb
  obtain ⟨M', g', hM', h2⟩ := product_form (float_neg hc) hd
  have := compensated hp hr hM hM' h1 h2 (float_neg (hr.mem (c * d))) (fun y hy => by
    have := hr.near (c * d) (-y) (float_neg hy)
    rw [← abs_neg, show -(-rnd (c * d) - -c * d) = rnd (c * d) - c * d by ring,
      ← abs_neg (y - -c * d), show -(y - -c * d) = -y - c * d by ring]
    exact this)
  have e : sumOfProducts rnd a b c d =
      rnd (rnd (a * b - -rnd (c * d)) + rnd (-rnd (c * d) - -c * d)) := by
    simp only [sumOfProducts]
    rw [show -rnd (c * d) - -c * d = c * d + -rnd (c * d) by ring, sub_neg_eq_add]
  rw [e, show a * b + c * d = a * b - -c * d by ring]
  exact ⟨fun h => this.1 (sub_eq_zero.1 h), fun h => this.2 (sub_ne_zero.1 h)⟩

/-- **C95.** In relative terms: the error is at most three times `2^(-p)` of the exact value. -/
theorem C95_relative {p : ℕ} (hp : 1 ≤ p) {rnd : K → K} (hr : IsRound p rnd) {a b c d : K}
    (ha : IsFloat p a) (hb : IsFloat p b) (hc : IsFloat p c) (hd : IsFloat p d) :
    |diffOfProducts rnd a b c d - (a * b - c * d)| ≤ 3 * 2 ^ (-(p : ℤ)) * |a * b - c * d| ∧
    |sumOfProducts rnd a b c d - (a * b + c * d)| ≤ 3 * 2 ^ (-(p : ℤ)) * |a * b + c * d| := by
  have key : ∀ x : K, x ≠ 0 → 3 / 2 * ulp p x ≤ 3 * 2 ^ (-(p : ℤ)) * |x| := by
    intro x hx
    obtain ⟨h1, _⟩ := log_spec (abs_pos.2 hx)
    rw [ulp, show Int.log 2 |x| + 1 - (p : ℤ) = Int.log 2 |x| + 1 + -p by ring, zadd, zadd, zpow_one]
    have := mul_le_mul_of_nonneg_right h1 (two_zpow_pos (K := K) (-(p : ℤ))).le
    linarith
  obtain ⟨d0, d1⟩ := C95_diff hp hr ha hb hc hd
  obtain ⟨s0, s1⟩ := C95_sum hp hr ha hb hc hd
  constructor
  · by_cases h : a * b = c * d
    · rw [d0 h, h]; simp
    · exact (d1 h).trans (key _ (sub_ne_zero.2 h))
  · by_cases h : a * b + c * d = 0
    · rw [s0 h, h]; simp
    · exact (s1 h).trans (key _ h)

/-- **C95.** `multiply_add` rounds once: no float is closer to the exact value. -/
theorem C95_multiply_add {p : ℕ} {rnd : K → K} (hr : IsRound p rnd) (a b c y : K) (hy : IsFloat p y) :
    IsFloat p (multiplyAdd rnd a b c) ∧
    |multiplyAdd rnd a b c - (a * b + c)| ≤ |y - (a * b + c)| :=
  ⟨hr.mem _, hr.near _ y hy⟩

/-- **C95.** `mix` returns its ends exactly: `a` at 0 and `b` at 1, with rounding included. -/
theorem C95_mix {p : ℕ} (hp : 1 ≤ p) {rnd : K → K} (hr : IsRound p rnd) {a b : K} (ha : IsFloat p a)
    (hb : IsFloat p b) : mix rnd 0 a b = a ∧ mix rnd 1 a b = b := by
  have h0 : rnd 0 = 0 := hr.fix (float_zero p)
  have h1 : rnd 1 = 1 := hr.fix (by simpa using float_pow (K := K) hp 0)
  constructor
  · simp [mix, sumOfProducts, h0, h1, hr.fix ha]
  · simp [mix, sumOfProducts, h0, hr.fix hb]

/-- Roundings to nearest exist for every precision, so none of the above is vacuous. -/
theorem C95_nearest {p : ℕ} (hp : 1 ≤ p) : IsRound p (nearest p : K → K) := by
  have main : ∀ x : K, x ≠ 0 → IsFloat p (nearest p x) ∧
      ∀ y, IsFloat p y → |nearest p x - x| ≤ |y - x| := by
    intro x hx
    have h0 := abs_pos.2 hx
    obtain ⟨h1, h2⟩ := log_spec h0
    set E := Int.log 2 |x| with hE
    set h : K := 2 ^ (E + 1 - p) with hh
    have hpos : 0 < h := two_zpow_pos _
    have hn : nearest p x = round (x / h) * h := by rw [nearest, if_neg hx]
    have grid : ∀ k : ℤ, |nearest p x - x| ≤ |k * h - x| := by
      intro k
      have := round_le (x / h) k
      have e : ∀ q : K, q * h - x = -((x / h - q) * h) := by intro q; field_simp; ring
      rw [hn, e, e, abs_neg, abs_neg, abs_mul, abs_mul]
      exact mul_le_mul_of_nonneg_right this (abs_nonneg h)
    have eE : (2 : K) ^ (E + 1) = 2 ^ p * h := by
      rw [← zpow_natCast, hh, ← zadd]; congr 1; ring
    constructor
    · rw [hn]
      apply mem_le hp
      have hq : |x / h| ≤ 2 ^ p := by
        rw [abs_div, abs_of_pos hpos, div_le_iff₀ hpos, ← eE]; exact h2.le
      rw [abs_le] at hq ⊢
      have a : round (-(2 : K) ^ p) ≤ round (x / h) := by
        rw [round_eq, round_eq]; exact Int.floor_le_floor (by linarith [hq.1])
      have b : round (x / h) ≤ round ((2 : K) ^ p) := by
        rw [round_eq, round_eq]; exact Int.floor_le_floor (by linarith [hq.2])
      rw [show (2 : K) ^ p = ((2 ^ p : ℤ) : K) by push_cast; rfl, round_intCast] at b
      rw [show -(2 : K) ^ p = ((-2 ^ p : ℤ) : K) by push_cast; rfl, round_intCast] at a
      exact ⟨a, b⟩
    · intro y hy
      by_cases hb : 2 ^ E ≤ |y|
      · obtain ⟨k, hk⟩ := grid_of_float hy hb
        rw [hk]; exact grid k
      · obtain ⟨j, hj⟩ := grid_of_float (float_pow (K := K) hp E) (le_abs_self _)
        have hb' : |y| < 2 ^ E := not_le.1 hb
        have hy' := abs_lt.1 hb'
        rcases abs_cases x with ⟨e, _⟩ | ⟨e, _⟩
        · refine (grid j).trans ?_
          rw [← hh] at hj
          rw [← hj]
          rw [e] at h1
          rw [abs_of_nonpos (by linarith), abs_of_nonpos (by linarith)]; linarith
        · refine (grid (-j)).trans ?_
          rw [← hh] at hj
          push_cast
          rw [neg_mul, ← hj]
          rw [e] at h1
          rw [abs_of_nonneg (by linarith), abs_of_nonneg (by linarith)]; linarith
  constructor
  · intro x
    by_cases hx : x = 0
    · rw [nearest, if_pos hx]; exact float_zero p
    · exact (main x hx).1
  · intro x y hy
    by_cases hx : x = 0
    · rw [nearest, if_pos hx, hx]; simp
    · exact (main x hx).2 y hy

/-- With four bits, `13 * 13 - 12 * 14` is 1: the naive formula gives 8, `diff_of_products` the exact value. -/
example : naiveDiff (nearest 4 : ℚ → ℚ) 13 13 12 14 ≠ 1 ∧
    diffOfProducts (nearest 4 : ℚ → ℚ) 13 13 12 14 = 1 := by decide +kernel

end Geomc.Flt
