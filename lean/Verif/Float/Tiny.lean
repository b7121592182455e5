import Verif.Float.TinyModel
import Verif.Float.Vec

/-! # Property C106: products of tiny numbers -/

namespace Geomc.Flt

open Classical in
section

variable {K : Type} [Field K] [LinearOrder K] [IsStrictOrderedRing K] [FloorRing K] {n : ℕ}

/-- The floats with `p` bits and an exponent of at least `q`. -/
def IsFloatE (p : ℕ) (q : ℤ) (x : K) : Prop := ∃ m e : ℤ, |m| < 2 ^ p ∧ q ≤ e ∧ x = m * 2 ^ e

/-- Rounding to nearest among them, with any tie breaking. -/
structure IsRoundE (p : ℕ) (q : ℤ) (rnd : K → K) : Prop where
  mem : ∀ x, IsFloatE p q (rnd x)
  near : ∀ x y, IsFloatE p q y → |rnd x - x| ≤ |y - x|

/-- Multiples of the smallest float. -/
def OnGrid (q : ℤ) (x : K) : Prop := ∃ k : ℤ, x = k * 2 ^ q

theorem IsFloatE.float {p : ℕ} {q : ℤ} {x : K} (h : IsFloatE p q x) : IsFloat p x := by
  obtain ⟨m, e, h, _, rfl⟩ := h
  exact ⟨m, e, h, rfl⟩

theorem IsFloatE.grid {p : ℕ} {q : ℤ} {x : K} (h : IsFloatE p q x) : OnGrid q x := by
  obtain ⟨m, e, _, he, rfl⟩ := h
  obtain ⟨d, rfl⟩ := Int.le.dest he
  refine ⟨m * 2 ^ d, ?_⟩
  push_cast
  rw [zadd, zpow_natCast]
  ring

theorem grid_zero (q : ℤ) : OnGrid q (0 : K) := ⟨0, by simp⟩

theorem OnGrid.add {q : ℤ} {x y : K} (hx : OnGrid q x) (hy : OnGrid q y) : OnGrid q (x + y) := by
  obtain ⟨a, rfl⟩ := hx
  obtain ⟨b, rfl⟩ := hy
  exact ⟨a + b, by push_cast; ring⟩

theorem OnGrid.neg {q : ℤ} {x : K} (hx : OnGrid q x) : OnGrid q (-x) := by
  obtain ⟨a, rfl⟩ := hx
  exact ⟨-a, by push_cast; ring⟩

theorem OnGrid.le {q : ℤ} {x : K} (hx : OnGrid q x) (h0 : x ≠ 0) : 2 ^ q ≤ |x| := by
  obtain ⟨a, rfl⟩ := hx
  have ha : a ≠ 0 := by rintro rfl; simp at h0
  have hp := two_zpow_pos (K := K) q
  rw [abs_mul, abs_of_pos hp]
  have : (1 : K) ≤ |(a : K)| := by exact_mod_cast Int.one_le_abs ha
  nlinarith

theorem floatE_zero (p : ℕ) (q : ℤ) : IsFloatE p q (0 : K) := ⟨0, q, by simp, le_refl _, by simp⟩

/-- Multiples of `2^e` up to `2^p` of them are floats. -/
theorem floatE_mul {p : ℕ} (hp : 1 ≤ p) {q e : ℤ} (he : q ≤ e) (m : ℤ) (h : |m| ≤ 2 ^ p) :
    IsFloatE p q ((m : K) * 2 ^ e) := by
  rcases h.lt_or_eq with h | h
  · exact ⟨m, e, h, he, rfl⟩
  · have h1 : (1 : ℤ) < 2 ^ p := one_lt_pow₀ (by norm_num) (by omega)
    have h2 : (1 : K) * 2 ^ (e + p) = 2 ^ p * 2 ^ e := by
      rw [zadd, zpow_natCast]; ring
    rcases abs_eq (by positivity) |>.1 h with h | h
    · exact ⟨1, e + p, by simpa using h1, by omega, by rw [h]; push_cast; rw [h2]⟩
    · refine ⟨-1, e + p, by simpa using h1, by omega, ?_⟩
      rw [h]; push_cast; rw [neg_mul, ← h2]; ring

theorem IsRoundE.fix {p : ℕ} {q : ℤ} {rnd : K → K} (h : IsRoundE p q rnd) {x : K} (hx : IsFloatE p q x) :
    rnd x = x := by
  have := h.near x x hx
  rw [sub_self, abs_zero] at this
  exact sub_eq_zero.1 (abs_eq_zero.1 (le_antisymm this (abs_nonneg _)))

/-- A multiple of the smallest float is itself one if it is small. -/
theorem OnGrid.float {p : ℕ} (hp : 1 ≤ p) {q : ℤ} {x : K} (hx : OnGrid q x) (h : |x| ≤ 2 ^ (p + q)) :
    IsFloatE p q x := by
  obtain ⟨k, rfl⟩ := hx
  refine floatE_mul hp (le_refl _) k ?_
  have hq := two_zpow_pos (K := K) q
  rw [abs_mul, abs_of_pos hq, zadd, zpow_natCast] at h
  have := le_of_mul_le_mul_right h hq
  exact_mod_cast this

/-- Above the range of underflow, and on multiples of the smallest float, no float with any exponent is closer
than the rounded one. -/
theorem IsRoundE.near_all {p : ℕ} (hp : 1 ≤ p) {q : ℤ} {rnd : K → K} (h : IsRoundE p q rnd) {x : K}
    (hx : OnGrid q x ∨ 2 ^ (p + q - 1) ≤ |x|) (y : K) (hy : IsFloat p y) : |rnd x - x| ≤ |y - x| := by
  by_cases hb : 2 ^ (p + q - 1) ≤ |x|
  · by_cases hye : IsFloatE p q y
    · exact h.near x y hye
    · obtain ⟨m, e, hm, rfl⟩ := hy
      have he : e < q := by
        by_contra hc
        exact hye ⟨m, e, hm, not_lt.1 hc, rfl⟩
      have hy1 : |(m : K) * 2 ^ e| ≤ 2 ^ (p + q - 1) := by
        rw [abs_mul, abs_of_pos (two_zpow_pos (K := K) e)]
        have a1 : |(m : K)| ≤ 2 ^ (p : ℤ) := by
          rw [zpow_natCast]; exact_mod_cast hm.le
        have a2 : (2 : K) ^ e ≤ 2 ^ (q - 1) := zle (by omega)
        calc |(m : K)| * 2 ^ e ≤ 2 ^ (p : ℤ) * 2 ^ (q - 1) :=
              mul_le_mul a1 a2 (two_zpow_pos e).le (two_zpow_pos _).le
          _ = 2 ^ (p + q - 1) := by rw [← zadd]; congr 1; ring
      set b : K := 2 ^ (p + q - 1) with hbd
      have hbf : IsFloatE p q b := by
        have := floatE_mul (K := K) hp (q := q) (e := p + q - 1) (by omega) 1
          (by simpa using one_le_pow₀ (M₀ := ℤ) (by norm_num : (1 : ℤ) ≤ 2))
        simpa using this
      have hbn : IsFloatE p q (-b) := by
        obtain ⟨m, e, h1, h2, h3⟩ := hbf
        exact ⟨-m, e, by rwa [abs_neg], h2, by rw [h3]; push_cast; ring⟩
      have := abs_le.1 hy1
      rcases le_total 0 x with h0 | h0
      · rw [abs_of_nonneg h0] at hb
        refine (h.near x b hbf).trans ?_
        rw [abs_of_nonpos (by linarith), abs_of_nonpos (by linarith)]
        linarith
      · rw [abs_of_nonpos h0] at hb
        refine (h.near x (-b) hbn).trans ?_
        rw [abs_of_nonneg (by linarith), abs_of_nonneg (by linarith)]
        linarith
  · rcases hx with hx | hx
    · have hf : IsFloatE p q x := hx.float hp ((not_le.1 hb).le.trans (zle (by omega)))
      rw [h.fix hf, sub_self, abs_zero]
      exact abs_nonneg _
    · exact absurd hx hb

/-- A rounding of numbers with unbounded exponents that agrees with `rnd` away from underflow. -/
noncomputable def lift (p : ℕ) (q : ℤ) (rnd : K → K) (x : K) : K :=
  if OnGrid q x ∨ 2 ^ (p + q - 1) ≤ |x| then rnd x else nearest p x

theorem lift_round {p : ℕ} (hp : 1 ≤ p) {q : ℤ} {rnd : K → K} (h : IsRoundE p q rnd) :
    IsRound p (lift p q rnd) := by
  have hn := C95_nearest (K := K) hp
  constructor
  · intro x
    unfold lift
    by_cases hx : OnGrid q x ∨ 2 ^ (p + q - 1) ≤ |x|
    · rw [if_pos hx]; exact (h.mem x).float
    · rw [if_neg hx]; exact hn.mem x
  · intro x y hy
    unfold lift
    by_cases hx : OnGrid q x ∨ 2 ^ (p + q - 1) ≤ |x|
    · rw [if_pos hx]; exact h.near_all hp hx y hy
    · rw [if_neg hx]; exact hn.near x y hy

theorem lift_grid {p : ℕ} {q : ℤ} {rnd : K → K} {x : K} (hx : OnGrid q x) : lift p q rnd x = rnd x :=
  if_pos (Or.inl hx)

/-! ## Where underflow does no harm -/

/-- **C106.** If both products are multiples of the smallest float, underflow does not affect
`diff_of_products` and `sum_of_products`: the error bounds of C95 hold. -/
theorem C106_products {p : ℕ} (hp : 1 ≤ p) {q : ℤ} {rnd : K → K} (h : IsRoundE p q rnd) {a b c d : K}
    (ha : IsFloatE p q a) (hb : IsFloatE p q b) (hc : IsFloatE p q c) (hd : IsFloatE p q d)
    (hab : OnGrid q (a * b)) (hcd : OnGrid q (c * d)) :
    |diffOfProducts rnd a b c d - (a * b - c * d)| ≤ 3 * 2 ^ (-(p : ℤ)) * |a * b - c * d| ∧
    |sumOfProducts rnd a b c d - (a * b + c * d)| ≤ 3 * 2 ^ (-(p : ℤ)) * |a * b + c * d| := by
  have g : ∀ x, OnGrid q (rnd x) := fun x => (h.mem x).grid
  have e1 : diffOfProducts rnd a b c d = diffOfProducts (lift p q rnd) a b c d := by
    unfold diffOfProducts
    simp only
    rw [lift_grid hcd, lift_grid (x := -c * d + rnd (c * d)), lift_grid (x := a * b + -rnd (c * d)), lift_grid]
    · exact (g _).add (g _)
    · exact hab.add (g _).neg
    · rw [neg_mul]; exact hcd.neg.add (g _)
  have e2 : sumOfProducts rnd a b c d = sumOfProducts (lift p q rnd) a b c d := by
    unfold sumOfProducts
    simp only
    rw [lift_grid hcd, lift_grid (x := c * d + -rnd (c * d)), lift_grid (x := a * b + rnd (c * d)), lift_grid]
    · exact (g _).add (g _)
    · exact hab.add (g _)
    · exact hcd.add (g _).neg
  rw [e1, e2]
  exact C95_relative hp (lift_round hp h) ha.float hb.float hc.float hd.float

theorem dot_lift {p : ℕ} {q : ℤ} {rnd : K → K} (h : IsRoundE p q rnd) (u v : Fin n → K)
    (huv : ∀ i, OnGrid q (u i * v i)) : dot rnd u v = dot (lift p q rnd) u v ∧ OnGrid q (dot rnd u v) := by
  unfold dot
  generalize List.finRange n = l
  induction l using List.reverseRecOn with
  | nil => exact ⟨rfl, grid_zero q⟩
  | append_singleton l i ih =>
    simp only [List.foldl_append, List.foldl_cons, List.foldl_nil]
    rw [← ih.1]
    unfold multiplyAdd
    refine ⟨(lift_grid ?_).symm, (h.mem _).grid⟩
    exact (huv i).add ih.2

/-- **C106.** If all products of components are multiples of the smallest float, the bounds of C104 for dot
products and squared lengths hold with underflow. -/
theorem C106_dot {p : ℕ} (hp : 1 ≤ p) {q : ℤ} {rnd : K → K} (h : IsRoundE p q rnd) (u v : Fin n → K)
    (huv : ∀ i, OnGrid q (u i * v i)) :
    |dot rnd u v - ∑ i, u i * v i| ≤ ((1 + 2 ^ (-(p : ℤ))) ^ n - 1) * ∑ i, |u i * v i| := by
  rw [(dot_lift h u v huv).1]
  exact C104_dot hp (lift_round hp h) u v

theorem C106_mag2 {p : ℕ} (hp : 1 ≤ p) {q : ℤ} {rnd : K → K} (h : IsRoundE p q rnd) (u : Fin n → K)
    (hu : ∀ i, OnGrid q (u i * u i)) :
    (1 - 2 ^ (-(p : ℤ))) ^ n * ∑ i, u i ^ 2 ≤ mag2 rnd u ∧
    mag2 rnd u ≤ (1 + 2 ^ (-(p : ℤ))) ^ n * ∑ i, u i ^ 2 ∧ (mag2 rnd u = 0 ↔ u = 0) := by
  have e : mag2 rnd u = mag2 (lift p q rnd) u := (dot_lift h u u hu).1
  rw [e]
  have a := C104_mag2 hp (lift_round hp h) u
  exact ⟨a.1, a.2, (C104_mag2_zero hp (lift_round hp h) u).2⟩

/-- **C106.** The same for the length, where the square roots of floats are above the range of underflow (as they
are in all formats: `q ≤ -2 (p - 1)`). -/
theorem C106_mag {p : ℕ} (hp : 1 ≤ p) {q : ℤ} (hqp : q ≤ -2 * (p - 1)) {rnd sqrt : K → K} (h : IsRoundE p q rnd)
    (hq : ∀ x, 0 ≤ x → 0 ≤ sqrt x ∧ sqrt x * sqrt x = x) (u : Fin n → K)
    (hu : ∀ i, OnGrid q (u i * u i)) :
    (1 - 2 ^ (-(p : ℤ))) ^ (n + 2) * ∑ i, u i ^ 2 ≤ mag rnd sqrt u ^ 2 ∧
    mag rnd sqrt u ^ 2 ≤ (1 + 2 ^ (-(p : ℤ))) ^ (n + 2) * ∑ i, u i ^ 2 ∧ (mag rnd sqrt u = 0 ↔ u = 0) := by
  have e : mag2 rnd u = mag2 (lift p q rnd) u := (dot_lift h u u hu).1
  have em : mag rnd sqrt u = mag (lift p q rnd) sqrt u := by
    unfold mag
    rw [← e]
    have h0 : 0 ≤ mag2 rnd u := by rw [e]; exact (C104_mag2_zero hp (lift_round hp h) u).1
    obtain ⟨s0, s1⟩ := hq _ h0
    unfold lift
    rw [if_pos]
    by_cases hz : mag2 rnd u = 0
    · left
      rw [hz] at s1 ⊢
      rw [mul_self_eq_zero.1 s1]
      exact grid_zero q
    · right
      have hg : OnGrid q (mag2 rnd u) := (dot_lift h u u hu).2
      have h1 := hg.le hz
      rw [abs_of_nonneg h0] at h1
      rw [abs_of_nonneg s0]
      by_contra hc
      have hc := not_le.1 hc
      have h2 : sqrt (mag2 rnd u) * sqrt (mag2 rnd u) < 2 ^ ((p : ℤ) + q - 1) * 2 ^ ((p : ℤ) + q - 1) :=
        mul_self_lt_mul_self s0 hc
      rw [s1, ← zadd] at h2
      have h3 : (2 : K) ^ ((p : ℤ) + q - 1 + (p + q - 1)) ≤ 2 ^ q := zle (by omega)
      linarith
  rw [em]
  exact (C104_mag hp (lift_round hp h) hq u).2

/-- **C106.** Differences do not underflow: they keep their relative accuracy, and are zero exactly for equal
floats. -/
theorem C106_sub {p : ℕ} (hp : 1 ≤ p) {q : ℤ} {rnd : K → K} (h : IsRoundE p q rnd) {u v : Fin n → K}
    (hu : ∀ i, IsFloatE p q (u i)) (hv : ∀ i, IsFloatE p q (v i)) :
    (∀ i, |sub rnd u v i - (u i - v i)| ≤ 2 ^ (-(p : ℤ)) * |u i - v i|) ∧ (sub rnd u v = 0 ↔ u = v) := by
  have key : ∀ i, |sub rnd u v i - (u i - v i)| ≤ 2 ^ (-(p : ℤ)) * |u i - v i| := by
    intro i
    have hg : OnGrid q (u i - v i) := by
      rw [sub_eq_add_neg]
      exact (hu i).grid.add (hv i).grid.neg
    have := (lift_round hp h).rel hp (u i - v i)
    rw [lift_grid hg] at this
    exact this
  refine ⟨key, ?_, ?_⟩
  · intro hz
    funext i
    have k := key i
    rw [congrFun hz i, Pi.zero_apply, zero_sub, abs_neg] at k
    have he := eps_le (K := K) hp
    unfold eps at he
    have : |u i - v i| ≤ 0 := by nlinarith [abs_nonneg (u i - v i)]
    exact sub_eq_zero.1 (abs_nonpos_iff.1 this)
  · rintro rfl
    funext i
    unfold sub
    rw [sub_self]
    exact h.fix (floatE_zero p q)

/-! ## Where it does -/

theorem underflow {p : ℕ} {q : ℤ} {rnd : K → K} (h : IsRoundE p q rnd) {x : K} (hx : |x| < 2 ^ (q - 1)) :
    rnd x = 0 := by
  by_contra hne
  have h1 := (h.mem x).grid.le hne
  have h2 := h.near x 0 (floatE_zero p q)
  rw [zero_sub, abs_neg] at h2
  have h3 := abs_sub_abs_le_abs_sub (rnd x) x
  have h4 : (2 : K) ^ q = 2 * 2 ^ (q - 1) := by
    rw [show q = 1 + (q - 1) by ring, zadd]; norm_num
  linarith

/-- **C106, refuted**: a vector of any dimension whose components have squares below half the smallest float has
the computed length zero, and dividing by it leaves `unit()` undefined. -/
theorem C106_mag_refuted {p : ℕ} {q : ℤ} {rnd sqrt : K → K} (h : IsRoundE p q rnd) (hs : sqrt 0 = 0)
    (u : Fin n → K) (hu : ∀ i, u i * u i < 2 ^ (q - 1)) :
    mag2 rnd u = 0 ∧ mag rnd sqrt u = 0 ∧ unit rnd sqrt u = none := by
  have e : mag2 rnd u = 0 := by
    unfold mag2
    generalize List.finRange n = l
    induction l using List.reverseRecOn with
    | nil => rfl
    | append_singleton l i ih =>
      simp only [List.foldl_append, List.foldl_cons, List.foldl_nil]
      rw [ih]
      unfold multiplyAdd
      refine underflow h ?_
      rw [add_zero, abs_of_nonneg (mul_self_nonneg _)]
      exact hu i
  have e2 : mag rnd sqrt u = 0 := by
    unfold mag
    rw [e, hs]
    exact h.fix (floatE_zero p q)
  refine ⟨e, e2, ?_⟩
  unfold unit
  simp only
  rw [if_pos e2]

/-- **C106, refuted**: such vectors exist in every dimension and format, and so do different points at computed
distance zero. -/
theorem C106_dist_refuted {p : ℕ} (hp : 1 ≤ p) {q : ℤ} (hq : q < -1) {rnd sqrt : K → K} (h : IsRoundE p q rnd)
    (hs : sqrt 0 = 0) (hn : 0 < n) :
    ∃ u : Fin n → K, (∀ i, IsFloatE p q (u i)) ∧ u ≠ 0 ∧ unit rnd sqrt u = none ∧
      dist2 rnd u 0 = 0 ∧ dist rnd sqrt u 0 = 0 := by
  have hf : IsFloatE p q ((2 : K) ^ q) := by
    have := floatE_mul (K := K) hp (le_refl q) 1
      (by simpa using one_le_pow₀ (M₀ := ℤ) (by norm_num : (1 : ℤ) ≤ 2))
    simpa using this
  have hsq : ∀ _ : Fin n, (2 : K) ^ q * 2 ^ q < 2 ^ (q - 1) := by
    intro _
    rw [← zadd]
    exact (zpow_lt_zpow_iff_right₀ (by norm_num)).2 (by omega)
  have hsub : sub rnd (fun _ : Fin n => (2 : K) ^ q) 0 = fun _ => 2 ^ q := by
    funext i
    unfold sub
    rw [Pi.zero_apply, sub_zero, h.fix hf]
  obtain ⟨a, b, c⟩ := C106_mag_refuted h hs (fun _ : Fin n => (2 : K) ^ q) hsq
  refine ⟨fun _ => 2 ^ q, fun _ => hf, ?_, c, ?_, ?_⟩
  · intro hz
    exact (two_zpow_pos (K := K) q).ne' (congrFun hz ⟨0, hn⟩)
  · unfold dist2
    rw [hsub, a]
  · unfold dist
    rw [hsub, b]

/-- **C106, refuted**: the relative error of `diff_of_products` is 1 whenever both products are below half
the smallest float; the cross product of such vectors is zero whether or not they are parallel. -/
theorem C106_cross_refuted {p : ℕ} {q : ℤ} {rnd : K → K} (h : IsRoundE p q rnd) :
    (∀ a b c d : K, |a * b| < 2 ^ (q - 1) → |c * d| < 2 ^ (q - 1) → diffOfProducts rnd a b c d = 0) ∧
    (∀ u v : Fin 3 → K, (∀ i j, |u i * v j| < 2 ^ (q - 1)) → ∀ i, cross rnd u v i = 0) := by
  have key : ∀ a b c d : K, |a * b| < 2 ^ (q - 1) → |c * d| < 2 ^ (q - 1) →
      diffOfProducts rnd a b c d = 0 := by
    intro a b c d h1 h2
    unfold diffOfProducts
    simp only
    have z : rnd 0 = 0 := h.fix (floatE_zero p q)
    have h3 : rnd (-c * d) = 0 := underflow h (by rwa [neg_mul, abs_neg])
    rw [underflow h h2, neg_zero, add_zero, add_zero, underflow h h1, h3, add_zero, z]
  refine ⟨key, ?_⟩
  intro u v hu i
  fin_cases i
  · exact key _ _ _ _ (hu 1 2) (hu 2 1)
  · exact key _ _ _ _ (hu 2 0) (hu 0 2)
  · exact key _ _ _ _ (hu 0 1) (hu 1 0)

/-! ## In between -/

/-- **C106.** One rounding is within `ε |x|` or half the smallest float. -/
theorem C106_round {p : ℕ} (hp : 1 ≤ p) {q : ℤ} {rnd : K → K} (h : IsRoundE p q rnd) (x : K) :
    |rnd x - x| ≤ max (2 ^ (-(p : ℤ)) * |x|) (2 ^ (q - 1)) := by
  by_cases hb : 2 ^ (p + q - 1) ≤ |x|
  · refine le_max_of_le_left ?_
    have := (lift_round hp h).rel hp x
    unfold lift at this
    rw [if_pos (Or.inr hb)] at this
    exact this
  · refine le_max_of_le_right ?_
    have hq := two_zpow_pos (K := K) q
    have hx := (not_le.1 hb).le
    set k : ℤ := round (x / 2 ^ q) with hk
    have hr := abs_sub_round (x / (2 : K) ^ q)
    have hk1 : |(k : K) * 2 ^ q - x| ≤ 2 ^ (q - 1) := by
      have : (k : K) * 2 ^ q - x = -((x / 2 ^ q - k) * 2 ^ q) := by field_simp; ring
      rw [this, abs_neg, abs_mul, abs_of_pos hq, show (2 : K) ^ (q - 1) = 1 / 2 * 2 ^ q by
        rw [sub_eq_add_neg, zadd]; norm_num; ring]
      exact mul_le_mul_of_nonneg_right hr hq.le
    refine (h.near x _ (OnGrid.float hp ⟨k, rfl⟩ ?_)).trans hk1
    have h1 : |(k : K) * 2 ^ q| ≤ |(k : K) * 2 ^ q - x| + |x| := by
      have := abs_sub_abs_le_abs_sub ((k : K) * 2 ^ q) x
      linarith
    have h2 : (2 : K) ^ (q - 1) ≤ 2 ^ (p + q - 1) := zle (by omega)
    have h3 : (2 : K) ^ ((p : ℤ) + q) = 2 * 2 ^ (p + q - 1) := by
      rw [show (p : ℤ) + q = 1 + (p + q - 1) by ring, zadd]; norm_num
    linarith

theorem dot_listE {p : ℕ} (hp : 1 ≤ p) {q : ℤ} {rnd : K → K} (h : IsRoundE p q rnd) (u v : Fin n → K)
    (l : List (Fin n)) :
    |l.foldl (fun sum i => multiplyAdd rnd (u i) (v i) sum) 0 - (l.map fun i => u i * v i).sum| ≤
      ((1 + eps K p) ^ l.length - 1) * (l.map fun i => |u i * v i|).sum +
        l.length * (1 + eps K p) ^ l.length * 2 ^ (q - 1) ∧
    |(l.map fun i => u i * v i).sum| ≤ (l.map fun i => |u i * v i|).sum := by
  induction l using List.reverseRecOn with
  | nil => simp
  | append_singleton l i ih =>
    obtain ⟨ih, ih'⟩ := ih
    simp only [List.foldl_append, List.foldl_cons, List.foldl_nil, List.map_append, List.map_cons,
      List.map_nil, List.sum_append, List.sum_cons, List.sum_nil, List.length_append, List.length_cons,
      List.length_nil, add_zero, zero_add, Nat.cast_add, Nat.cast_one]
    set s := l.foldl (fun sum i => multiplyAdd rnd (u i) (v i) sum) 0
    set S := (l.map fun i => u i * v i).sum
    set A := (l.map fun i => |u i * v i|).sum
    set w := u i * v i
    set L : K := (l.length : K)
    set η : K := 2 ^ (q - 1)
    have η0 : 0 < η := two_zpow_pos _
    have L0 : 0 ≤ L := Nat.cast_nonneg _
    have e0 := eps_pos (K := K) p
    set c := (1 + eps K p) ^ l.length with hc
    have c1 : 1 ≤ c := one_le_pow₀ (by linarith)
    have hr : |multiplyAdd rnd (u i) (v i) s - (w + s)| ≤ eps K p * |w + s| + η := by
      refine (C106_round hp h _).trans (max_le ?_ ?_)
      · have : (2 : K) ^ (-(p : ℤ)) * |u i * v i + s| = eps K p * |w + s| := rfl
        linarith
      · have := mul_nonneg e0.le (abs_nonneg (w + s))
        linarith
    have hs : |s| ≤ c * A + L * c * η := by
      have := abs_sub_abs_le_abs_sub s S
      nlinarith
    refine ⟨?_, (abs_add_le _ _).trans (by linarith)⟩
    have t1 : |multiplyAdd rnd (u i) (v i) s - (S + w)| ≤
        |multiplyAdd rnd (u i) (v i) s - (w + s)| + |s - S| := by
      refine le_trans (le_of_eq ?_) (abs_add_le _ _)
      congr 1; ring
    have t2 : |w + s| ≤ |w| + (c * A + L * c * η) := (abs_add_le _ _).trans (by linarith)
    have t3 : 0 ≤ |w| := abs_nonneg w
    have t4 : 0 ≤ (c - 1) * |w| := mul_nonneg (by linarith) t3
    have t5 : eps K p * |w + s| ≤ eps K p * (|w| + (c * A + L * c * η)) := mul_le_mul_of_nonneg_left t2 e0.le
    have t6 : 0 ≤ eps K p * ((c - 1) * |w|) := mul_nonneg e0.le t4
    have t7 : η ≤ c * (1 + eps K p) * η :=
      le_mul_of_one_le_left η0.le (by nlinarith)
    rw [pow_succ, ← hc]
    have : ((c * (1 + eps K p) - 1) * (A + |w|) + (L + 1) * (c * (1 + eps K p)) * η) =
      (c - 1) * A + L * c * η + eps K p * (c * A + L * c * η) + (c - 1) * |w| + eps K p * ((c - 1) * |w|)
        + eps K p * |w| + c * (1 + eps K p) * η := by ring
    linarith

/-- **C106.** For all vectors, with underflow: the computed dot product is within
`((1 + ε)^n - 1) ∑ |u v| + n (1 + ε)^n 2^(q-1)` of the exact one. -/
theorem C106_dot_all {p : ℕ} (hp : 1 ≤ p) {q : ℤ} {rnd : K → K} (h : IsRoundE p q rnd) (u v : Fin n → K) :
    |dot rnd u v - ∑ i, u i * v i| ≤ ((1 + 2 ^ (-(p : ℤ))) ^ n - 1) * ∑ i, |u i * v i| +
      n * (1 + 2 ^ (-(p : ℤ))) ^ n * 2 ^ (q - 1) := by
  have := (dot_listE hp h u v (List.finRange n)).1
  rw [List.length_finRange, ← List.ofFn_eq_map, ← List.ofFn_eq_map, List.sum_ofFn, List.sum_ofFn] at this
  exact this

end

section

variable {K : Type} [Field K] [LinearOrder K] [IsStrictOrderedRing K] [FloorRing K]

/-- The rounding function of the examples is a rounding to nearest. -/
theorem C106_nearest {p : ℕ} (hp : 1 ≤ p) (q : ℤ) : IsRoundE p q (nearestE p q : K → K) := by
  have main : ∀ x : K, x ≠ 0 → IsFloatE p q (nearestE p q x) ∧
      ∀ y, IsFloatE p q y → |nearestE p q x - x| ≤ |y - x| := by
    intro x hx
    have h0 := abs_pos.2 hx
    obtain ⟨l1, l2⟩ := log_spec h0
    set E := Int.log 2 |x| with hE
    set g : ℤ := max (E + 1 - p) q with hg
    have hh : (0 : K) < 2 ^ g := two_zpow_pos _
    have e : nearestE p q x = (round (x / 2 ^ g) : K) * 2 ^ g := by
      unfold nearestE
      rw [if_neg hx]
    have bound : |(round (x / (2 : K) ^ g) : K) * 2 ^ g - x| ≤ 1 / 2 * 2 ^ g := by
      have hr := abs_sub_round (x / (2 : K) ^ g)
      have : (round (x / (2 : K) ^ g) : K) * 2 ^ g - x = -((x / 2 ^ g - round (x / (2 : K) ^ g)) * 2 ^ g) := by
        field_simp; ring
      rw [this, abs_neg, abs_mul, abs_of_pos hh]
      exact mul_le_mul_of_nonneg_right hr hh.le
    have hxl : |x / 2 ^ g| < 2 ^ p := by
      rw [abs_div, abs_of_pos hh, div_lt_iff₀ hh]
      refine l2.trans_le ?_
      have : (2 : K) ^ (E + 1) ≤ 2 ^ ((p : ℤ) + g) := zle (by have := le_max_left (E + 1 - p) q; omega)
      rwa [zadd (p : ℤ) g, zpow_natCast] at this
    have hk : |round (x / (2 : K) ^ g)| ≤ 2 ^ p := by
      obtain ⟨a, b⟩ := abs_lt.1 hxl
      have hr := abs_le.1 (abs_sub_round (x / (2 : K) ^ g))
      rw [abs_le]
      constructor
      · have : (-(2 ^ p) - 1 : K) < round (x / (2 : K) ^ g) := by linarith [hr.2]
        have : (-(2 ^ p) - 1 : ℤ) < round (x / (2 : K) ^ g) := by exact_mod_cast this
        omega
      · have : (round (x / (2 : K) ^ g) : K) < 2 ^ p + 1 := by linarith [hr.1]
        have : round (x / (2 : K) ^ g) < (2 ^ p + 1 : ℤ) := by exact_mod_cast this
        omega
    rw [e]
    refine ⟨floatE_mul hp (le_max_right _ _) _ hk, ?_⟩
    intro y hy
    -- a float other than a multiple of `2^g` is below `2^E`
    by_cases hyg : OnGrid g y
    · obtain ⟨m, rfl⟩ := hyg
      have h1 := round_le (x / (2 : K) ^ g) m
      have s1 : (round (x / (2 : K) ^ g) : K) * 2 ^ g - x = -((x / 2 ^ g - round (x / (2 : K) ^ g)) * 2 ^ g) := by
        field_simp; ring
      have s2 : (m : K) * 2 ^ g - x = -((x / 2 ^ g - m) * 2 ^ g) := by field_simp; ring
      rw [s1, s2, abs_neg, abs_neg, abs_mul, abs_mul, abs_of_pos hh]
      exact mul_le_mul_of_nonneg_right h1 hh.le
    · have hgE : g = E + 1 - p := by
        rcases max_choice (E + 1 - (p : ℤ)) q with hm | hm
        · exact hm
        · exact absurd (by have := hy.grid; rwa [← hm] at this) hyg
      have hyE : |y| < 2 ^ E := by
        by_contra hc
        have := grid_of_float hy.float (E := E) (not_lt.1 hc)
        rw [← hgE] at this
        exact hyg this
      -- `± 2^E` is a multiple of `2^g`, and closer
      have hb2 : ∃ k : ℤ, (2 : K) ^ E = k * 2 ^ g := by
        refine ⟨2 ^ (p - 1), ?_⟩
        push_cast
        rw [hgE, ← zpow_natCast, ← zadd]
        congr 1
        omega
      obtain ⟨k, hk2⟩ := hb2
      have h1 := round_le (x / (2 : K) ^ g) k
      have h2 := round_le (x / (2 : K) ^ g) (-k)
      have s1 : (round (x / (2 : K) ^ g) : K) * 2 ^ g - x = -((x / 2 ^ g - round (x / (2 : K) ^ g)) * 2 ^ g) := by
        field_simp; ring
      have s2 : (2 : K) ^ E - x = -((x / 2 ^ g - (k : K)) * 2 ^ g) := by rw [hk2]; field_simp; ring
      have s3 : -(2 : K) ^ E - x = -((x / 2 ^ g - ((-k : ℤ) : K)) * 2 ^ g) := by
        push_cast; rw [hk2]; field_simp; ring
      have b2 : |(round (x / (2 : K) ^ g) : K) * 2 ^ g - x| ≤ |2 ^ E - x| := by
        rw [s1, s2, abs_neg, abs_neg, abs_mul, abs_mul]
        exact mul_le_mul_of_nonneg_right h1 (abs_nonneg _)
      have b3 : |(round (x / (2 : K) ^ g) : K) * 2 ^ g - x| ≤ |-2 ^ E - x| := by
        rw [s1, s3, abs_neg, abs_neg, abs_mul, abs_mul]
        exact mul_le_mul_of_nonneg_right h2 (abs_nonneg _)
      obtain ⟨y1, y2⟩ := abs_lt.1 hyE
      rcases le_total 0 x with hx0 | hx0
      · rw [abs_of_nonneg hx0] at l1
        refine b2.trans ?_
        rw [abs_of_nonpos (by linarith), abs_of_nonpos (by linarith)]
        linarith
      · rw [abs_of_nonpos hx0] at l1
        refine b3.trans ?_
        rw [abs_of_nonneg (by linarith), abs_of_nonneg (by linarith)]
        linarith
  have hz : nearestE p q (0 : K) = 0 := if_pos rfl
  constructor
  · intro x
    by_cases hx : x = 0
    · rw [hx, hz]; exact floatE_zero p q
    · exact (main x hx).1
  · intro x y hy
    by_cases hx : x = 0
    · rw [hx, hz]; simp
    · exact (main x hx).2 y hy

end

/-- In double precision `(10^-170, 0, 0)` has length zero; `(10^-150, 0, 0)` has not. -/
example : mag2 (nearestE 53 (-1074)) ![(1 : ℚ) / 10 ^ 170, 0, 0] = 0 ∧
    mag2 (nearestE 53 (-1074)) ![(1 : ℚ) / 10 ^ 150, 0, 0] ≠ 0 := by
  decide +kernel

/-- In single precision two vectors at a right angle, with a zero cross product. -/
example : cross (nearestE 24 (-149)) ![(2 : ℚ) ^ (-80 : ℤ), 0, 0] ![0, (2 : ℚ) ^ (-80 : ℤ), 0] 2 = 0 := by
  decide +kernel

end Geomc.Flt
