import Verif.Float.LerpModel
import Verif.Float.Box
import Verif.Util.Model

/-! # Property C124: interpolation in floating point -/

namespace Geomc.Flt

variable {K : Type} [Field K] [LinearOrder K] [IsStrictOrderedRing K] [FloorRing K] {n p q : ℕ} {rnd wide : K → K}

/-! ## Errors of composed operations -/

/-- `x'` is `x` up to `k` roundings of size `e` relative to `X`. -/
def Near (e : K) (k : ℕ) (x' x X : K) : Prop := |x' - x| ≤ ((1 + e) ^ k - 1) * X ∧ |x| ≤ X

section
variable {e : K} {k l : ℕ} {x x' X y y' Y : K}

theorem Near.refl (e x : K) : Near e 0 x x |x| := ⟨by simp, le_rfl⟩

theorem Near.pos (h : Near e k x' x X) : 0 ≤ X := (abs_nonneg x).trans h.2

theorem Near.mono (he : 0 ≤ e) (hk : k ≤ l) (h : Near e k x' x X) : Near e l x' x X :=
  ⟨h.1.trans (mul_le_mul_of_nonneg_right (sub_le_sub_right (pow_le_pow_right₀ (by linarith) hk) 1) h.pos), h.2⟩

theorem Near.weaken (he : 0 ≤ e) {Z : K} (hZ : X ≤ Z) (h : Near e k x' x X) : Near e k x' x Z :=
  ⟨h.1.trans (mul_le_mul_of_nonneg_left hZ (sub_nonneg.2 (one_le_pow₀ (by linarith)))), h.2.trans hZ⟩

theorem Near.size (h : Near e k x' x X) : |x'| ≤ (1 + e) ^ k * X := by
  have := abs_sub_abs_le_abs_sub x' x
  nlinarith [h.1, h.2]

/-- A further relative error. -/
theorem Near.rel (h : Near e k x' x X) {c z : K} (hc : 1 ≤ c) (hz : |z - x'| ≤ (c - 1) * |x'|) : |z - x| ≤ ((1 + e) ^ k * c - 1) * X := by
  have h1 := abs_sub_le z x' x
  have h2 := mul_le_mul_of_nonneg_left h.size (sub_nonneg.2 hc)
  have h3 := h.1
  nlinarith

theorem Near.pow (he : 0 ≤ e) (h : Near e k x' x X) {z : K} (hz : |z - x'| ≤ ((1 + e) ^ l - 1) * |x'|) : Near e (k + l) z x X :=
  ⟨by rw [pow_add]; exact h.rel (one_le_pow₀ (by linarith)) hz, h.2⟩

theorem Near.add (h : Near e k x' x X) (g : Near e k y' y Y) : Near e k (x' + y') (x + y) (X + Y) := by
  constructor
  · rw [show x' + y' - (x + y) = (x' - x) + (y' - y) by ring, mul_add]
    exact (abs_add_le _ _).trans (add_le_add h.1 g.1)
  · exact (abs_add_le _ _).trans (add_le_add h.2 g.2)

theorem Near.neg (h : Near e k x' x X) : Near e k (-x') (-x) X := by
  constructor
  · rw [show -x' - -x = -(x' - x) by ring, abs_neg]
    exact h.1
  · rw [abs_neg]
    exact h.2

theorem Near.sub (h : Near e k x' x X) (g : Near e k y' y Y) : Near e k (x' - y') (x - y) (X + Y) := by
  rw [sub_eq_add_neg, sub_eq_add_neg]
  exact h.add g.neg

theorem Near.mul (he : 0 ≤ e) (h : Near e k x' x X) (g : Near e l y' y Y) : Near e (k + l) (x' * y') (x * y) (X * Y) := by
  constructor
  · rw [show x' * y' - x * y = (x' - x) * y' + x * (y' - y) by ring]
    refine (abs_add_le _ _).trans ?_
    rw [abs_mul, abs_mul, pow_add]
    have h1 := mul_le_mul h.1 g.size (abs_nonneg _) (mul_nonneg (sub_nonneg.2 (one_le_pow₀ (by linarith))) h.pos)
    have h2 := mul_le_mul h.2 g.1 (abs_nonneg _) h.pos
    calc _ ≤ _ := add_le_add h1 h2
      _ = _ := by ring
  · rw [abs_mul]
    exact mul_le_mul h.2 g.2 (abs_nonneg _) h.pos

end

/-- One more rounding. -/
theorem Near.round (hp : 1 ≤ p) (h : IsRound p rnd) {e : K} (he : eps K p ≤ e) {k : ℕ} {x' x X : K} (hx : Near e k x' x X) : Near e (k + 1) (rnd x') x X := by
  have e0 := eps_pos (K := K) p
  refine hx.pow (by linarith) ?_
  rw [pow_one, add_sub_cancel_left]
  exact (h.rel hp x').trans (mul_le_mul_of_nonneg_right he (abs_nonneg _))

/-- Sums of two products are as good as three roundings. -/
theorem Near.sumOfProducts (hp : 1 ≤ p) (h : IsRound p rnd) {k : ℕ} {a b c d x X : K} (ha : IsFloat p a) (hb : IsFloat p b) (hc : IsFloat p c)
    (hd : IsFloat p d) (hx : Near (eps K p) k (a * b + c * d) x X) : Near (eps K p) (k + 3) (Flt.sumOfProducts rnd a b c d) x X := by
  have e0 := eps_pos (K := K) p
  refine hx.pow e0.le ((C95_relative hp h ha hb hc hd).2.trans (mul_le_mul_of_nonneg_right ?_ (abs_nonneg _)))
  have : (2 : K) ^ (-(p : ℤ)) = eps K p := rfl
  rw [this]
  nlinarith [sq_nonneg (eps K p), mul_pos e0 (mul_pos e0 e0)]

theorem sumOfProducts_float (h : IsRound p rnd) (a b c d : K) : IsFloat p (sumOfProducts rnd a b c d) := h.mem _

/-! ## Linear interpolation -/

theorem mix_near (hp : 1 ≤ p) (h : IsRound p rnd) {t : K} (ht : IsFloat p t) (t0 : 0 ≤ t) (t1 : t ≤ 1) {k : ℕ} {a a' A b b' B : K} (fa : IsFloat p a')
    (fb : IsFloat p b') (ha : Near (eps K p) k a' a A) (hb : Near (eps K p) k b' b B) :
    Near (eps K p) (k + 4) (mix rnd t a' b') (Util.mix t a b) (Util.mix t A B) := by
  have e0 := (eps_pos (K := K) p).le
  have h1 : Near (eps K p) 1 (rnd (1 - t)) (1 - t) (1 - t) := by
    have := (Near.refl (eps K p) (1 - t)).round hp h le_rfl
    rwa [abs_of_nonneg (by linarith)] at this
  have h2 : Near (eps K p) 0 t t t := by
    have := Near.refl (eps K p) t
    rwa [abs_of_nonneg t0] at this
  have h3 : Near (eps K p) (k + 1) (rnd (1 - t) * a' + t * b') ((1 - t) * a + t * b) ((1 - t) * A + t * B) := by
    refine Near.add ?_ ?_
    · have := h1.mul e0 ha
      rwa [add_comm] at this
    · exact (h2.mul e0 hb).mono e0 (by omega)
  exact h3.sumOfProducts hp h (h.mem _) fa ht fb

/-- **C124.** `mix` is within four roundings of the exact blend, in terms of the blend of the sizes. -/
theorem C124_mix (hp : 1 ≤ p) (h : IsRound p rnd) {t a b : K} (ht : IsFloat p t) (t0 : 0 ≤ t) (t1 : t ≤ 1) (ha : IsFloat p a) (hb : IsFloat p b) :
    |mix rnd t a b - ((1 - t) * a + t * b)| ≤ ((1 + eps K p) ^ 4 - 1) * ((1 - t) * |a| + t * |b|) :=
  (mix_near hp h ht t0 t1 ha hb (Near.refl _ a) (Near.refl _ b)).1

theorem linear_float (h : IsRound p rnd) (s : ℕ → K) (n : ℕ) (d : ℕ → K) : IsFloat p (interpLinear rnd s n d) := by
  match n with
  | 0 => exact h.mem _
  | 1 => exact h.mem _
  | n + 2 => exact h.mem _

theorem linear_near (hp : 1 ≤ p) (h : IsRound p rnd) {s : ℕ → K} (hs : ∀ i, IsFloat p (s i) ∧ 0 ≤ s i ∧ s i ≤ 1) :
    ∀ (n : ℕ) (d : ℕ → K), (∀ i, IsFloat p (d i)) →
      Near (eps K p) (4 * (n + 1)) (interpLinear rnd s (n + 1) d) (Util.interpLinear s (n + 1) d) (Util.interpLinear s (n + 1) fun i => |d i|)
  | 0, d, hd => mix_near hp h (hs 0).1 (hs 0).2.1 (hs 0).2.2 (hd 0) (hd 1) (Near.refl _ _) (Near.refl _ _)
  | n + 1, d, hd => mix_near hp h (hs _).1 (hs _).2.1 (hs _).2.2 (linear_float h s _ _) (linear_float h s _ _)
      (linear_near hp h hs n d hd) (linear_near hp h hs n _ fun i => hd _)

/-- **C124.** `interp_linear` over `n` axes is within `4 n` roundings of the exact blend of the samples, in terms of the blend of their
sizes. -/
theorem C124_linear (hp : 1 ≤ p) (h : IsRound p rnd) {s : ℕ → K} (hs : ∀ i, IsFloat p (s i) ∧ 0 ≤ s i ∧ s i ≤ 1) {n : ℕ} (hn : 1 ≤ n) {d : ℕ → K}
    (hd : ∀ i, IsFloat p (d i)) :
    |interpLinear rnd s n d - Util.interpLinear s n d| ≤ ((1 + eps K p) ^ (4 * n) - 1) * Util.interpLinear s n (fun i => |d i|) := by
  obtain ⟨m, rfl⟩ : ∃ m, n = m + 1 := ⟨n - 1, by omega⟩
  exact (linear_near hp h hs m d hd).1

/-- Corner number `c` of a block of `2 ^ n` samples in terms of the parameters that are one. -/
def corner (s : ℕ → Bool) : ℕ → ℕ
  | 0 => 0
  | n + 1 => corner s n + if s n then 2 ^ n else 0

/-- **C124.** At the corners the samples themselves are returned, with no rounding. -/
theorem C124_corners (hp : 1 ≤ p) (h : IsRound p rnd) (s : ℕ → Bool) {n : ℕ} (hn : 1 ≤ n) {d : ℕ → K} (hd : ∀ i, IsFloat p (d i)) :
    interpLinear rnd (fun i => if s i then 1 else 0) n d = d (corner s n) := by
  obtain ⟨m, rfl⟩ : ∃ m, n = m + 1 := ⟨n - 1, by omega⟩
  have ends : ∀ (c : Bool) {a b : K}, IsFloat p a → IsFloat p b → mix rnd (if c then 1 else 0) a b = if c then b else a := by
    intro c a b ha hb
    cases c
    · exact (C95_mix hp h ha hb).1
    · exact (C95_mix hp h ha hb).2
  clear hn
  induction m generalizing d with
  | zero =>
    show mix rnd _ _ _ = _
    rw [ends _ (hd 0) (hd 1)]
    cases h0 : s 0 <;> simp [corner, h0]
  | succ m ih =>
    show mix rnd _ (interpLinear rnd _ (m + 1) d) (interpLinear rnd _ (m + 1) fun i => d (2 ^ (m + 1) + i)) = _
    rw [ih hd, ih (d := fun i => d (2 ^ (m + 1) + i)) fun i => hd _, ends _ (hd _) (hd _)]
    rw [show corner s (m + 1 + 1) = corner s (m + 1) + if s (m + 1) then 2 ^ (m + 1) else 0 from rfl]
    cases h0 : s (m + 1)
    · simp
    · simp [add_comm]

/-- **C124.** `Vec::mix` likewise: three roundings, and exact at both ends. -/
theorem C124_vec_mix (hp : 1 ≤ p) (h : IsRound p rnd) (u v : Fin n → K) {t : K} (t0 : 0 ≤ t) (t1 : t ≤ 1) (i : Fin n) :
    |vecMix rnd u v t i - ((1 - t) * u i + t * v i)| ≤ ((1 + eps K p) ^ 3 - 1) * ((1 - t) * |u i| + t * |v i|) := by
  have e0 := (eps_pos (K := K) p).le
  have h1 := ((((Near.refl (eps K p) (1 - t)).round hp h le_rfl).mul e0 (Near.refl _ (u i))).round hp h le_rfl).add
    ((((Near.refl (eps K p) t).mul e0 (Near.refl _ (v i))).round hp h le_rfl).mono e0 (show 0 + 0 + 1 ≤ 0 + 1 + 0 + 1 by norm_num))
  rw [abs_of_nonneg t0, abs_of_nonneg (show 0 ≤ 1 - t by linarith)] at h1
  exact (h1.round hp h le_rfl).1

theorem C124_vec_mix_ends (hp : 1 ≤ p) (h : IsRound p rnd) {u v : Fin n → K} (hu : ∀ i, IsFloat p (u i)) (hv : ∀ i, IsFloat p (v i)) :
    vecMix rnd u v 0 = u ∧ vecMix rnd u v 1 = v := by
  have h0 : rnd 0 = 0 := h.fix (float_zero p)
  have h1 : rnd 1 = 1 := h.fix (by simpa using float_pow (K := K) hp 0)
  constructor <;> funext i
  · simp [vecMix, h0, h1, h.fix (hu i)]
  · simp [vecMix, h0, h.fix (hv i)]

/-! ## Cubic interpolation -/

/-- The cubic blend with all terms taken positive. -/
def cubicSize (s : K) (p0 p1 p2 p3 : K) : K :=
  p1 + 1 / 2 * |s| * (p2 + p0 + |s| * (2 * p0 + 5 * p1 + 4 * p2 + p3 + |s| * (3 * (p1 + p2) + p3 + p0)))

/-- The same over `dim` axes. -/
def cubicSizes (s : ℕ → K) : ℕ → (ℕ → K) → K
  | 0, p => cubicSize (s 0) (p 0) (p 1) (p 2) (p 3)
  | 1, p => cubicSize (s 0) (p 0) (p 1) (p 2) (p 3)
  | n + 2, p =>
    let b := 2 ^ (2 * (n + 1))
    cubicSize (s (n + 1)) (cubicSizes s (n + 1) p) (cubicSizes s (n + 1) fun i => p (b + i))
      (cubicSizes s (n + 1) fun i => p (2 * b + i)) (cubicSizes s (n + 1) fun i => p (3 * b + i))

theorem eps_mono (hq : p ≤ q) : eps K q ≤ eps K p := zle (by omega)

theorem cubic1_near (hp : 1 ≤ p) (hq : p ≤ q) (h : IsRound p rnd) (hw : IsRound q wide) (s : K) {k : ℕ} {x0 x1 x2 x3 y0 y1 y2 y3 X0 X1 X2 X3 : K}
    (h0 : Near (eps K p) k y0 x0 X0) (h1 : Near (eps K p) k y1 x1 X1) (h2 : Near (eps K p) k y2 x2 X2) (h3 : Near (eps K p) k y3 x3 X3) :
    Near (eps K p) (k + 12) (interpCubic1 rnd wide s y0 y1 y2 y3) (Util.interpCubic1 s x0 x1 x2 x3) (cubicSize s X0 X1 X2 X3) := by
  have e0 := (eps_pos (K := K) p).le
  have he := eps_mono (K := K) hq
  have hq1 : 1 ≤ q := hp.trans hq
  have lit : ∀ (c : K) {k : ℕ} {x y X : K}, 0 ≤ c → Near (eps K p) k y x X → Near (eps K p) (k + 1) (wide (c * y)) (c * x) (c * X) := by
    intro c k x y X hc hx
    have := ((Near.refl (eps K p) c).mul e0 hx).round hq1 hw he
    rwa [abs_of_nonneg hc, zero_add] at this
  have c1 : Near (eps K p) (k + 1) (rnd (y2 - y0)) (x2 - x0) (X2 + X0) := (h2.sub h0).round hp h le_rfl
  have c2 := ((((((lit 2 (by norm_num) h0).sub (lit 5 (by norm_num) h1)).round hq1 hw he).add
    ((lit 4 (by norm_num) h2).mono e0 (by omega))).round hq1 hw he).sub (h3.mono e0 (by omega))).round hq1 hw he
  have c3 := ((((lit 3 (by norm_num) ((h1.sub h2).round hp h le_rfl)).add (h3.mono e0 (by omega))).round hq1 hw he).sub
    (h0.mono e0 (by omega))).round hq1 hw he
  have d3 := ((Near.refl (eps K p) s).mul e0 c3).round hq1 hw he
  have d2 := ((c2.mono e0 (by omega)).add d3).round hq1 hw he
  have e2 := ((Near.refl (eps K p) s).mul e0 d2).round hq1 hw he
  have d1 := ((c1.mono e0 (by omega)).add e2).round hq1 hw he
  have g := ((lit (1 / 2) (by norm_num) (Near.refl (eps K p) s)).mul e0 d1).round hq1 hw he
  have r := (((h1.mono e0 (by omega)).add g).round hq1 hw he).round hp h le_rfl
  refine Near.mono e0 ?_ r
  omega

theorem cubic_near (hp : 1 ≤ p) (hq : p ≤ q) (h : IsRound p rnd) (hw : IsRound q wide) (s : ℕ → K) :
    ∀ (n : ℕ) (d : ℕ → K), Near (eps K p) (12 * (n + 1)) (interpCubic rnd wide s (n + 1) d) (Util.interpCubic s (n + 1) d)
      (cubicSizes s (n + 1) fun i => |d i|)
  | 0, d => cubic1_near hp hq h hw (s 0) (Near.refl _ _) (Near.refl _ _) (Near.refl _ _) (Near.refl _ _)
  | n + 1, d => cubic1_near hp hq h hw (s (n + 1)) (cubic_near hp hq h hw s n d) (cubic_near hp hq h hw s n _) (cubic_near hp hq h hw s n _)
      (cubic_near hp hq h hw s n _)

/-- **C124.** `interp_cubic` over `n` axes is within `12 n` roundings of the exact blend, in terms of the sizes of its terms; for samples
of type `double` (`q = p`) and for narrower ones (`p < q`). -/
theorem C124_cubic (hp : 1 ≤ p) (hq : p ≤ q) (h : IsRound p rnd) (hw : IsRound q wide) (s : ℕ → K) {n : ℕ} (hn : 1 ≤ n) (d : ℕ → K) :
    |interpCubic rnd wide s n d - Util.interpCubic s n d| ≤ ((1 + eps K p) ^ (12 * n) - 1) * cubicSizes s n (fun i => |d i|) := by
  obtain ⟨m, rfl⟩ : ∃ m, n = m + 1 := ⟨n - 1, by omega⟩
  exact (cubic_near hp hq h hw s m d).1

theorem float_wider (hq : p ≤ q) {x : K} (h : IsFloat p x) : IsFloat q x := by
  obtain ⟨m, e, hm, rfl⟩ := h
  exact ⟨m, e, hm.trans_le (pow_le_pow_right₀ (by norm_num) hq), rfl⟩

/-- **C124.** At parameter zero the cubic blend is the second sample, with no rounding. -/
theorem C124_cubic_start (hq : p ≤ q) (h : IsRound p rnd) (hw : IsRound q wide) {p1 : K} (h1 : IsFloat p p1) (p0 p2 p3 : K) :
    interpCubic1 rnd wide 0 p0 p1 p2 p3 = p1 := by
  have z : wide 0 = 0 := hw.fix (float_zero q)
  simp only [interpCubic1, zero_mul, mul_zero, z, add_zero]
  rw [hw.fix (float_wider hq h1), h.fix h1]

/-- Rounding mirrored. -/
theorem IsRound.flip (h : IsRound p rnd) : IsRound p fun x => -rnd (-x) := by
  refine ⟨fun x => float_neg (h.mem _), fun x y hy => ?_⟩
  have := h.near (-x) (-y) (float_neg hy)
  rw [show -rnd (-x) - x = -(rnd (-x) - -x) by ring, abs_neg, show y - x = -(-y - -x) by ring, abs_neg]
  exact this

/-- **C124** refuted for the other end: in every format with two bits or more there are samples such that the cubic blend at parameter one
is half of the third sample.  So neighbouring cells of a raster disagree about the sample they share. -/
theorem C124_cubic_end_refuted (hp : 2 ≤ p) (hq : p ≤ q) (h : IsRound p rnd) (hw : IsRound q wide) :
    ∃ p0 p1 p2 p3 : K, IsFloat p p0 ∧ IsFloat p p1 ∧ IsFloat p p2 ∧ IsFloat p p3 ∧ 0 < p2 ∧ interpCubic1 rnd wide 1 p0 p1 p2 p3 = p2 / 2 := by
  have hp1 : 1 ≤ p := by omega
  have hq1 : 1 ≤ q := by omega
  set δ : K := 2 ^ (-(q : ℤ) - 3) with hδ
  have δ0 : 0 < δ := two_zpow_pos _
  have hu : (2 : K) ^ (-(q : ℤ)) = 8 * δ := by
    rw [hδ, show (-(q : ℤ) - 3) = -q + -3 by ring, zadd]
    norm_num
    ring
  have fδ : IsFloat p δ := float_pow hp1 _
  have f1 : IsFloat p (1 : K) := by simpa using float_pow (K := K) hp1 0
  have z : wide 0 = 0 := hw.fix (float_zero q)
  have w1 : wide 1 = 1 := hw.fix (float_wider hq f1)
  have r1 : rnd (0 - δ) = -δ := by
    rw [zero_sub]
    exact h.fix (float_neg fδ)
  have r2 : rnd (δ - 0) = δ := by
    rw [sub_zero]
    exact h.fix fδ
  have w4 : wide (4 * δ) = 4 * δ := hw.fix (by
    rw [show 4 * δ = δ * 2 * 2 by ring]
    exact float_wider hq (float_double (float_double fδ)))
  have w3 : wide (3 * -δ) = -(3 * δ) := by
    rw [mul_neg]
    refine hw.fix (float_neg (float_wider hq ⟨3, -(q : ℤ) - 3, ?_, ?_⟩))
    · have : (2 : ℤ) ^ 2 ≤ 2 ^ p := pow_le_pow_right₀ (by norm_num) hp
      rw [abs_of_nonneg (by norm_num)]
      omega
    · rw [← hδ]
      norm_num
  have w5 : wide (4 * δ + 1) = 1 := by
    rw [add_comm]
    exact absorb hq1 hw (by linarith) (by linarith)
  have w6 : wide (-(3 * δ) + -1) = -1 := by
    have := absorb hq1 hw.flip (δ := 3 * δ) (by linarith) (by linarith)
    rw [show -(3 * δ) + -1 = -(1 + 3 * δ) by ring]
    linarith
  have wm : wide (-1) = -1 := hw.fix (float_neg (float_wider hq f1))
  have wh : wide (1 / 2) = 1 / 2 := hw.fix (float_half (float_wider hq f1))
  have wd : wide δ = δ := hw.fix (float_wider hq fδ)
  have wdh : wide (1 / 2 * δ) = 1 / 2 * δ := hw.fix (by
    rw [show 1 / 2 * δ = δ / 2 by ring]
    exact float_wider hq (float_half fδ))
  refine ⟨0, 0, δ, -1, float_zero p, float_zero p, fδ, float_neg f1, δ0, ?_⟩
  simp only [interpCubic1, r1, r2, mul_zero, z, sub_zero, zero_add, w4, w3, mul_one, one_mul, w6, wm, sub_neg_eq_add, w5, wh]
  rw [show (1 : K) + -1 = 0 by ring, z, z, add_zero, h.fix fδ, wd, wdh, wdh, h.fix (by
    rw [show 1 / 2 * δ = δ / 2 by ring]
    exact float_half fδ)]
  ring

/-! ## Blends of a value with itself -/

theorem float_int (hp : 1 ≤ p) {k : ℤ} (hk : |k| ≤ 2 ^ p) : IsFloat p (k : K) := by
  have := mem_le (K := K) hp k 0 hk
  simpa using this

/-- **C124** refuted for the range: in every format with four bits or more, some blend of a positive number with itself is another number,
so that a blend may lie outside of the range of its ends. -/
theorem C124_range_refuted (hp : 4 ≤ p) (h : IsRound p rnd) :
    ∃ t a : K, IsFloat p t ∧ IsFloat p a ∧ 0 < t ∧ t < 1 ∧ 0 < a ∧ mix rnd t a a ≠ a := by
  have hp1 : 1 ≤ p := by omega
  set u : K := 2 ^ (-(p : ℤ)) with hu
  have u0 : 0 < u := two_zpow_pos _
  have u16 : u ≤ 1 / 16 := by
    rw [hu, show (1 / 16 : K) = 2 ^ (-4 : ℤ) by norm_num]
    exact zle (by omega)
  obtain ⟨m, rfl⟩ : ∃ m, p = m + 4 := ⟨p - 4, by omega⟩
  set Q : ℤ := 2 ^ m with hQ
  have Q1 : 1 ≤ Q := one_le_pow₀ (by norm_num)
  have hP : (2 : ℤ) ^ (m + 4) = 16 * Q := by
    rw [hQ, pow_add]
    ring
  have hQu : 16 * (Q : K) * u = 1 := by
    rw [hu, show 16 * (Q : K) = ((2 ^ (m + 4) : ℤ) : K) by rw [hP]; push_cast; ring]
    rw [Int.cast_pow, Int.cast_ofNat, ← zpow_natCast, ← zadd, add_neg_cancel, zpow_zero]
  have Q1' : (1 : K) ≤ Q := by exact_mod_cast Q1
  -- grids
  have hE1 : (2 : K) ^ ((m : ℤ) + 3) = 8 * Q := by
    rw [hQ, zadd, zpow_natCast]
    push_cast
    norm_num
    ring
  have hE2 : (2 : K) ^ ((m : ℤ) + 2) = 4 * Q := by
    rw [hQ, zadd, zpow_natCast]
    push_cast
    norm_num
    ring
  have top : ∀ (x : K) (k : ℤ), 8 * (Q : K) ≤ x → |k| ≤ 16 * Q → |x - k| < 1 / 2 → rnd x = k := by
    intro x k hx hk hn
    have e : ((m : ℤ) + 3) + 1 - ((m + 4 : ℕ) : ℤ) = 0 := by push_cast; ring
    have := h.eq_of_near hp1 (x := x) (E := m + 3) k (by rw [hE1]; exact hx) (by
      rw [e, zpow_zero, mul_one]
      exact float_int hp1 (by rw [hP]; exact hk)) (by
      rw [e, zpow_zero, mul_one, show ((m : ℤ) + 3) - ((m + 4 : ℕ) : ℤ) = -1 by push_cast; ring]
      norm_num
      linarith)
    rw [this, e, zpow_zero, mul_one]
  have mid : ∀ (x : K) (k : ℤ), 4 * (Q : K) ≤ x → |k| ≤ 16 * Q → |x - k / 2| < 1 / 4 → rnd x = k / 2 := by
    intro x k hx hk hn
    have e : ((m : ℤ) + 2) + 1 - ((m + 4 : ℕ) : ℤ) = -1 := by push_cast; ring
    have e' : (k : K) * 2 ^ (-1 : ℤ) = k / 2 := by
      rw [zpow_neg_one]
      ring
    have := h.eq_of_near hp1 (x := x) (E := m + 2) k (by rw [hE2]; exact hx) (by
      rw [e]
      exact mem_le hp1 _ _ (by rw [hP]; exact hk)) (by
      rw [e, e', show ((m : ℤ) + 2) - ((m + 4 : ℕ) : ℤ) = -2 by push_cast; ring]
      norm_num
      linarith)
    rw [this, e, e']
  have ft : IsFloat (m + 4) (1 / 4 + 3 / 2 * u) := by
    have e : (1 / 4 + 3 / 2 * u : K) = ((8 * Q + 3 : ℤ) : K) * 2 ^ (-((m + 4 : ℕ) : ℤ) - 1) := by
      rw [show (-((m + 4 : ℕ) : ℤ) - 1) = -((m + 4 : ℕ) : ℤ) + -1 by ring, zadd, ← hu, zpow_neg_one]
      push_cast
      linear_combination (-1 / 4 : K) * hQu
    rw [e]
    exact mem_le hp1 _ _ (by rw [hP, abs_of_nonneg (by omega)]; omega)
  have quarter : IsFloat (m + 4) (1 / 4 : K) := by
    rw [show (1 / 4 : K) = 2 ^ (-2 : ℤ) by norm_num]
    exact float_pow hp1 _
  -- the weight of the first number is a tie
  obtain ⟨k, hk⟩ := grid_of_float (p := m + 4) (y := rnd (1 - (1 / 4 + 3 / 2 * u))) (h.mem _) (E := -1) (by
    refine le_trans ?_ (le_abs_self _)
    refine h.ge_of_ge (float_pow hp1 _) ?_
    norm_num
    linarith)
  have herr := round_err (p := m + 4) hp1 (h.near (1 - (1 / 4 + 3 / 2 * u))) (E := -1) (by
    rw [abs_of_nonneg (by linarith)]
    norm_num
    linarith)
  rw [show (-1 : ℤ) + 1 - ((m + 4 : ℕ) : ℤ) = -((m + 4 : ℕ) : ℤ) by ring, ← hu] at hk
  rw [show (-1 : ℤ) - ((m + 4 : ℕ) : ℤ) = -((m + 4 : ℕ) : ℤ) + -1 by ring, zadd, ← hu, zpow_neg_one] at herr
  have hcase : k = 12 * Q - 2 ∨ k = 12 * Q - 1 := by
    rw [hk, show (1 : K) - (1 / 4 + 3 / 2 * u) = (12 * Q - 3 / 2) * u by linear_combination (-3 / 4 : K) * hQu, ← sub_mul, abs_mul,
      abs_of_pos u0, mul_comm u] at herr
    have := le_of_mul_le_mul_right herr u0
    rw [abs_le] at this
    have a1 : ((12 * Q - 2 : ℤ) : K) ≤ (k : ℤ) := by push_cast; linarith [this.1]
    have a2 : ((k : ℤ) : K) ≤ (12 * Q - 1 : ℤ) := by push_cast; linarith [this.2]
    have b1 := Int.cast_le.1 a1
    have b2 := Int.cast_le.1 a2
    omega
  have hPu : (Q : K) * u = 1 / 16 := by linear_combination hQu / 16
  rcases hcase with rfl | rfl
  · refine ⟨1 / 4 + 3 / 2 * u, ((16 * Q - 1 : ℤ) : K), ft, float_int hp1 (by rw [hP, abs_of_nonneg (by omega)]; omega), by linarith, by linarith,
      by push_cast; linarith, ?_⟩
    have cd : rnd ((1 / 4 + 3 / 2 * u) * ((16 * Q - 1 : ℤ) : K)) = ((8 * Q + 2 : ℤ) : K) / 2 := by
      have e : (1 / 4 + 3 / 2 * u) * ((16 * Q - 1 : ℤ) : K) = 4 * Q + 5 / 4 - 3 / 2 * u := by
        push_cast
        linear_combination 24 * hPu
      rw [e]
      refine mid _ _ (by linarith) (by rw [abs_of_nonneg (by omega)]; omega) ?_
      push_cast
      rw [abs_lt]
      constructor <;> linarith
    have hx : rnd (((12 * Q - 2 : ℤ) : K) * u * ((16 * Q - 1 : ℤ) : K) + ((8 * Q + 2 : ℤ) : K) / 2) = ((16 * Q - 2 : ℤ) : K) := by
      have e : ((12 * Q - 2 : ℤ) : K) * u * ((16 * Q - 1 : ℤ) : K) + ((8 * Q + 2 : ℤ) : K) / 2 = 16 * Q - 7 / 4 + 2 * u := by
        push_cast
        linear_combination (192 * (Q : K) - 44) * hPu
      rw [e]
      refine top _ _ (by linarith) (by rw [abs_of_nonneg (by omega)]; omega) ?_
      push_cast
      rw [abs_lt]
      constructor <;> linarith
    rw [mix, sumOfProducts, hk, cd, hx]
    set err := rnd ((1 / 4 + 3 / 2 * u) * ((16 * Q - 1 : ℤ) : K) + -(((8 * Q + 2 : ℤ) : K) / 2)) with herr'
    have e : (1 / 4 + 3 / 2 * u) * ((16 * Q - 1 : ℤ) : K) + -(((8 * Q + 2 : ℤ) : K) / 2) = 1 / 4 - 3 / 2 * u := by
      push_cast
      linear_combination 24 * hPu
    have b0 : 0 ≤ err := by
      rw [herr', e]
      exact h.ge_of_ge (float_zero _) (by linarith)
    have b1 : err ≤ 1 / 4 := by
      rw [herr', e]
      exact h.le_of_le quarter (by linarith)
    rw [top (((16 * Q - 2 : ℤ) : K) + err) (16 * Q - 2) (by push_cast; linarith) (by rw [abs_of_nonneg (by omega)]; omega) (by
      rw [add_sub_cancel_left, abs_of_nonneg b0]
      linarith)]
    intro hc
    have := Int.cast_injective hc
    omega
  · refine ⟨1 / 4 + 3 / 2 * u, ((16 * Q - 2 : ℤ) : K), ft, float_int hp1 (by rw [hP, abs_of_nonneg (by omega)]; omega), by linarith, by linarith,
      by push_cast; linarith, ?_⟩
    have cd : rnd ((1 / 4 + 3 / 2 * u) * ((16 * Q - 2 : ℤ) : K)) = ((8 * Q + 2 : ℤ) : K) / 2 := by
      have e : (1 / 4 + 3 / 2 * u) * ((16 * Q - 2 : ℤ) : K) = 4 * Q + 1 - 3 * u := by
        push_cast
        linear_combination 24 * hPu
      rw [e]
      refine mid _ _ (by linarith) (by rw [abs_of_nonneg (by omega)]; omega) ?_
      push_cast
      rw [abs_lt]
      constructor <;> linarith
    have hx : rnd (((12 * Q - 1 : ℤ) : K) * u * ((16 * Q - 2 : ℤ) : K) + ((8 * Q + 2 : ℤ) : K) / 2) = ((16 * Q - 1 : ℤ) : K) := by
      have e : ((12 * Q - 1 : ℤ) : K) * u * ((16 * Q - 2 : ℤ) : K) + ((8 * Q + 2 : ℤ) : K) / 2 = 16 * Q - 3 / 2 + 2 * u := by
        push_cast
        linear_combination (192 * (Q : K) - 40) * hPu
      rw [e]
      refine top _ _ (by linarith) (by rw [abs_of_nonneg (by omega)]; omega) ?_
      push_cast
      rw [abs_lt]
      constructor <;> linarith
    rw [mix, sumOfProducts, hk, cd, hx]
    set err := rnd ((1 / 4 + 3 / 2 * u) * ((16 * Q - 2 : ℤ) : K) + -(((8 * Q + 2 : ℤ) : K) / 2)) with herr'
    have e : (1 / 4 + 3 / 2 * u) * ((16 * Q - 2 : ℤ) : K) + -(((8 * Q + 2 : ℤ) : K) / 2) = -(3 * u) := by
      push_cast
      linear_combination 24 * hPu
    have b0 : err ≤ 0 := by
      rw [herr', e]
      exact h.le_of_le (float_zero _) (by linarith)
    have b1 : -(1 / 4) ≤ err := by
      rw [herr', e]
      exact h.ge_of_ge (float_neg quarter) (by linarith)
    rw [top (((16 * Q - 1 : ℤ) : K) + err) (16 * Q - 1) (by push_cast; linarith) (by rw [abs_of_nonneg (by omega)]; omega) (by
      rw [add_sub_cancel_left, abs_of_nonpos b0]
      linarith)]
    intro hc
    have := Int.cast_injective hc
    omega

/-- With four bits, a blend of 14 with itself is 15. -/
example : mix (nearest 4 : ℚ → ℚ) (11 / 32) 14 14 = 15 ∧ interpLinear (nearest 4 : ℚ → ℚ) (fun _ => 1 / 2) 2 (fun i => i) = 3 / 2 ∧
    interpCubic1 (nearest 4 : ℚ → ℚ) (nearest 6) (1 / 2) 0 1 2 3 = 3 / 2 := by
  decide +kernel

end Geomc.Flt
