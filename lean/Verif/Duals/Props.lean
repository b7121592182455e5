import Verif.Duals.Model
import Mathlib.Analysis.SpecialFunctions.Trigonometric.Deriv
import Mathlib.Analysis.SpecialFunctions.Trigonometric.ArctanDeriv
import Mathlib.Analysis.SpecialFunctions.Trigonometric.InverseDeriv
import Mathlib.Analysis.SpecialFunctions.Pow.Deriv
import Mathlib.Analysis.SpecialFunctions.Sqrt
import Mathlib.Analysis.SpecialFunctions.Complex.LogDeriv
import Mathlib.Analysis.Complex.RealDeriv

/-! # Properties C61, C62, C63: automatic differentiation -/

namespace Geomc.Duals

/-- `d` is the value and the derivative of `f` at `t`. -/
def Tracks (f : ℝ → ℝ) (t : ℝ) (d : Dual ℝ) : Prop := d.x = f t ∧ HasDerivAt f d.dx t

theorem Tracks.unique {f : ℝ → ℝ} {t : ℝ} {d e : Dual ℝ} (h : Tracks f t d) (h' : Tracks f t e) : d = e := by
  ext
  · rw [h.1, h'.1]
  · exact h.2.unique h'.2

theorem sumOfProducts_eq {K : Type} [Field K] (a b c d : K) : sumOfProducts a b c d = a * b + c * d := by
  simp only [sumOfProducts]; ring

theorem diffOfProducts_eq {K : Type} [Field K] (a b c d : K) : diffOfProducts a b c d = a * b - c * d := by
  simp only [diffOfProducts]; ring

section
variable {f g h k : ℝ → ℝ} {t : ℝ} {a b c d : Dual ℝ}

/-- Rewrite the derivative component. -/
theorem tracks_of {f : ℝ → ℝ} {t x v w : ℝ} (hx : x = f t) (hd : HasDerivAt f v t) (e : w = v) :
    Tracks f t ⟨x, w⟩ := ⟨hx, by rw [show (⟨x, w⟩ : Dual ℝ).dx = v from e]; exact hd⟩

/-- **C61.** All arithmetic operators except `scalar - Dual` return the value and derivative of the combined
function. -/
theorem C61_arithmetic (ha : Tracks f t a) (hb : Tracks g t b) (s : ℝ) :
    Tracks (fun t => f t + g t) t (add a b) ∧
    Tracks (fun t => f t - g t) t (sub a b) ∧
    Tracks (fun t => f t * g t) t (mul a b) ∧
    Tracks (fun t => f t * g t) t (mulAssign a b) ∧
    Tracks (fun t => -f t) t (neg a) ∧
    Tracks (fun t => f t + s) t (addS a s) ∧
    Tracks (fun t => s + f t) t (sadd s a) ∧
    Tracks (fun t => f t - s) t (subS a s) ∧
    Tracks (fun t => f t * s) t (mulS a s) ∧
    Tracks (fun t => s * f t) t (smul s a) ∧
    Tracks (fun t => f t / s) t (divS a s) ∧
    Tracks (fun t => f t + 1) t (incr a) ∧
    Tracks (fun t => f t - 1) t (decr a) ∧
    Tracks (fun _ => s) t (const s) := by
  obtain ⟨ax, ad⟩ := ha
  obtain ⟨bx, bd⟩ := hb
  refine ⟨⟨by simp [add, ax, bx], ad.add bd⟩, ⟨by simp [sub, ax, bx], ad.sub bd⟩, ?_, ?_,
    ⟨by simp [neg, ax], ad.neg⟩, ⟨by simp [addS, ax], ad.add_const s⟩, ⟨by simp [sadd, ax], ad.const_add s⟩,
    ⟨by simp [subS, ax], ad.sub_const s⟩, ⟨by simp [mulS, ax], ad.mul_const s⟩,
    ⟨by simp [smul, ax], ad.const_mul s⟩, ⟨by simp [divS, ax], ad.div_const s⟩,
    ⟨by simp [incr, ax], ad.add_const 1⟩, ⟨by simp [decr, ax], ad.sub_const 1⟩, ⟨rfl, hasDerivAt_const t s⟩⟩
  · refine tracks_of (by simp [ax, bx]) (ad.mul bd) ?_
    rw [sumOfProducts_eq, ax, bx]; ring
  · refine tracks_of (by simp [ax, bx]) (ad.mul bd) ?_
    simp only [sumOfProducts_eq, ax, bx]; ring

/-- **C61.** Division, away from a zero denominator. -/
theorem C61_division (ha : Tracks f t a) (hb : Tracks g t b) (h0 : g t ≠ 0) (s : ℝ) :
    Tracks (fun t => f t / g t) t (div a b) ∧
    Tracks (fun t => f t / g t) t (divAssign a b) ∧
    Tracks (fun t => s / g t) t (sdiv s b) := by
  obtain ⟨ax, ad⟩ := ha
  obtain ⟨bx, bd⟩ := hb
  refine ⟨?_, ?_, ?_⟩
  · refine tracks_of (by simp [ax, bx]) (ad.div bd h0) ?_
    rw [diffOfProducts_eq, ax, bx]; ring
  · refine tracks_of (by simp [ax, bx]) (ad.div bd h0) ?_
    simp only [diffOfProducts_eq, ax, bx]; ring
  · refine tracks_of (by simp [bx]) ((hasDerivAt_const t s).div bd h0) ?_
    rw [bx]; ring

/-- **C61.** Fused operations. -/
theorem C61_fused (ha : Tracks f t a) (hb : Tracks g t b) (hc : Tracks h t c) (hd : Tracks k t d) :
    Tracks (fun t => f t * g t + h t) t (fma a b c) ∧
    Tracks (fun t => f t * g t + h t * k t) t (sumOfProductsD a b c d) := by
  obtain ⟨ax, ad⟩ := ha
  obtain ⟨bx, bd⟩ := hb
  obtain ⟨cx, cd⟩ := hc
  obtain ⟨dx, dd⟩ := hd
  refine ⟨?_, ?_⟩
  · refine tracks_of (by simp [ax, bx, cx]) ((ad.mul bd).add cd) ?_
    rw [sumOfProducts_eq, ax, bx]; ring
  · refine tracks_of (by simp [sumOfProducts_eq, ax, bx, cx, dx]) ((ad.mul bd).add (cd.mul dd)) ?_
    simp only [sumOfProducts_eq, ax, bx, cx, dx]; ring

/-- **C61 refuted for `scalar - Dual`.** The derivative keeps the sign of the operand's: it is right only
where the operand's derivative vanishes. -/
theorem C61_scalar_minus_refuted (ha : Tracks f t a) (s : ℝ) :
    Tracks (fun t => s - f t) t (ssub s a) ↔ a.dx = 0 := by
  have hd : HasDerivAt (fun t => s - f t) (-a.dx) t := ha.2.const_sub s
  constructor
  · intro h
    have : a.dx = -a.dx := h.2.unique hd
    linarith
  · intro h
    exact tracks_of (by simp [ha.1]) hd (by rw [h]; simp)

/-- On the identity function at any point, `s - x` is reported to have derivative `+1`. -/
example (s t : ℝ) : (ssub s (⟨t, 1⟩ : Dual ℝ)).dx = 1 ∧ HasDerivAt (fun t => s - t) (-1) t :=
  ⟨rfl, (hasDerivAt_id t).const_sub s⟩

/-! ## C62 -/

/-- **C62.** Functions smooth on all of ℝ. -/
theorem C62_entire (ha : Tracks f t a) :
    Tracks (fun t => Real.sin (f t)) t (sin a) ∧
    Tracks (fun t => Real.cos (f t)) t (cos a) ∧
    Tracks (fun t => Real.arctan (f t)) t (atan a) := by
  obtain ⟨ax, ad⟩ := ha
  refine ⟨?_, ?_, ?_⟩
  · exact tracks_of (by simp [ax]) ad.sin (by rw [ax]; ring)
  · exact tracks_of (by simp [ax]) ad.cos (by rw [ax]; ring)
  · exact tracks_of (by simp [ax]) ad.arctan (by rw [ax, add_comm, ← pow_two]; field_simp)

/-- **C62.** `log`, `sqrt`, `asin`, `acos`, `pow(Dual, scalar)` inside their domains. -/
theorem C62_domain (ha : Tracks f t a) (e : ℝ) :
    (0 < f t → Tracks (fun t => Real.log (f t)) t (log a)) ∧
    (0 < f t → Tracks (fun t => Real.sqrt (f t)) t (sqrt a)) ∧
    (0 < f t → Tracks (fun t => f t ^ e) t (powDS a e)) ∧
    (-1 < f t ∧ f t < 1 → Tracks (fun t => Real.arcsin (f t)) t (asin a)) ∧
    (-1 < f t ∧ f t < 1 → Tracks (fun t => Real.arccos (f t)) t (acos a)) := by
  obtain ⟨ax, ad⟩ := ha
  refine ⟨fun h0 => ?_, fun h0 => ?_, fun h0 => ?_, fun h0 => ?_, fun h0 => ?_⟩
  · exact tracks_of (by simp [ax]) (ad.log h0.ne') (by rw [ax])
  · exact tracks_of (by simp [ax]) (ad.sqrt h0.ne') (by rw [ax])
  · refine tracks_of (by simp [ax]) (ad.rpow_const (Or.inl h0.ne')) ?_
    rw [ax, Real.rpow_sub_one h0.ne']; ring
  · refine tracks_of (by simp [ax]) ((Real.hasDerivAt_arcsin h0.1.ne' h0.2.ne).comp t ad) ?_
    rw [ax, pow_two]; ring
  · refine tracks_of (by simp [ax]) ((Real.hasDerivAt_arccos h0.1.ne' h0.2.ne).comp t ad) ?_
    rw [ax, pow_two]; ring

/-- **C62.** `atan2`, off the negative `x` axis (its branch cut) and the origin. -/
theorem C62_atan2 (ha : Tracks f t a) (hb : Tracks g t b) (h0 : 0 < g t ∨ f t ≠ 0) :
    Tracks (fun t => ratan2 (f t) (g t)) t (atan2 a b) := by
  obtain ⟨ax, ad⟩ := ha
  obtain ⟨bx, bd⟩ := hb
  have hz : HasDerivAt (fun t => ((g t : ℂ) + (f t : ℂ) * Complex.I)) ((b.dx : ℂ) + (a.dx : ℂ) * Complex.I) t :=
    bd.ofReal_comp.add (ad.ofReal_comp.mul_const Complex.I)
  have hs : ((g t : ℂ) + (f t : ℂ) * Complex.I) ∈ Complex.slitPlane := by
    rw [Complex.mem_slitPlane_iff]
    simpa using h0
  have hl := hz.clog_real hs
  have him : HasDerivAt (fun t => (Complex.log ((g t : ℂ) + (f t : ℂ) * Complex.I)).im)
      ((((b.dx : ℂ) + (a.dx : ℂ) * Complex.I) / ((g t : ℂ) + (f t : ℂ) * Complex.I)).im) t := by
    exact (Complex.imCLM.hasFDerivAt.comp_hasDerivAt t hl)
  simp only [Complex.log_im] at him
  refine tracks_of (by simp [ax, bx]) him ?_
  rw [ax, bx, Complex.div_im]
  simp [Complex.normSq_apply]
  ring

/-- **C62 refuted for `tan`.** The sign is wrong: right only where the inner derivative is zero. -/
theorem C62_tan_refuted (ha : Tracks f t a) (h0 : Real.cos (f t) ≠ 0) :
    Tracks (fun t => Real.tan (f t)) t (tan a) ↔ a.dx = 0 := by
  obtain ⟨ax, ad⟩ := ha
  have hd : HasDerivAt (fun t => Real.tan (f t)) (1 / Real.cos (f t) ^ 2 * a.dx) t :=
    (Real.hasDerivAt_tan h0).comp t ad
  have hc : Real.cos (f t) * Real.cos (f t) ≠ 0 := mul_ne_zero h0 h0
  constructor
  · intro h
    have : -a.dx / (Real.cos a.x * Real.cos a.x) = 1 / Real.cos (f t) ^ 2 * a.dx := h.2.unique hd
    rw [ax] at this
    field_simp at this
    linarith
  · intro h
    exact tracks_of (by simp [ax]) hd (by rw [h]; simp)

/-- **C62 refuted for `exp`.** The sign is wrong: right only where the inner derivative is zero. -/
theorem C62_exp_refuted (ha : Tracks f t a) :
    Tracks (fun t => Real.exp (f t)) t (exp a) ↔ a.dx = 0 := by
  obtain ⟨ax, ad⟩ := ha
  have hd := ad.exp
  have hp := Real.exp_pos (f t)
  constructor
  · intro h
    have : -a.dx * Real.exp a.x = Real.exp (f t) * a.dx := h.2.unique hd
    rw [ax] at this
    nlinarith
  · intro h
    exact tracks_of (by simp [ax]) hd (by rw [h]; simp)

/-- **C62 refuted for `pow(Dual, Dual)`.** For a positive base and a non-zero exponent the derivative is
right exactly when the base is constant to first order or base and exponent coincide. -/
theorem C62_pow_refuted (ha : Tracks f t a) (hb : Tracks g t b) (h0 : 0 < f t) (h1 : g t ≠ 0) :
    Tracks (fun t => f t ^ g t) t (powDD a b) ↔ a.dx = 0 ∨ g t = f t := by
  obtain ⟨ax, ad⟩ := ha
  obtain ⟨bx, bd⟩ := hb
  have hd : HasDerivAt (fun t => f t ^ g t) _ t := ad.rpow bd h0
  have hp : 0 < f t ^ g t := Real.rpow_pos_of_pos h0 _
  rw [Real.rpow_sub_one h0.ne'] at hd
  constructor
  · intro h
    have := h.2.unique hd
    simp only [powDD, ax, bx] at this
    have h2 : a.dx * f t ^ g t * (f t - g t) = 0 := by
      field_simp at this
      linear_combination (f t ^ g t) * this
    rcases mul_eq_zero.1 h2 with h3 | h3
    · rcases mul_eq_zero.1 h3 with h4 | h4
      · exact Or.inl h4
      · exact absurd h4 hp.ne'
    · exact Or.inr (by linarith)
  · intro h
    refine tracks_of (by simp [ax, bx]) hd ?_
    rw [ax, bx]
    rcases h with h | h
    · rw [h]; ring
    · rw [h]; ring

/-- `x ^ 2` at `3`: reported derivative `9`, true derivative `6`. -/
example : (powDD ⟨3, 1⟩ ⟨2, 0⟩).dx = 9 := by simp [powDD]; norm_num

/-- **C62, abs.** Away from zero, for every policy. -/
theorem C62_abs (P : Policy) (ha : Tracks f t a) (h0 : f t ≠ 0) :
    ∃ v, abs P a = ⟨.fin |f t|, .fin v⟩ ∧ HasDerivAt (fun t => |f t|) v t := by
  obtain ⟨ax, ad⟩ := ha
  unfold abs
  rw [ax]
  simp only [h0, if_false]
  rcases lt_or_gt_of_ne h0 with h | h
  · refine ⟨-a.dx, ?_, ?_⟩
    · simp [h, abs_of_neg h]
    · refine (ad.neg).congr_of_eventuallyEq ?_
      filter_upwards [ad.continuousAt.eventually_lt continuousAt_const h] with s hs
      exact abs_of_neg hs
  · refine ⟨a.dx, ?_, ?_⟩
    · simp [not_lt.2 h.le, abs_of_pos h]
    · refine ad.congr_of_eventuallyEq ?_
      filter_upwards [continuousAt_const.eventually_lt ad.continuousAt h] with s hs
      exact abs_of_pos hs

/-- **C62, min and max, distinct arguments.** Every policy for `min`; only policy `Right` for `max` (see
`C62_max_policy_refuted`). -/
theorem C62_min_ne (P : Policy) (ha : Tracks f t a) (hb : Tracks g t b) (h0 : f t ≠ g t) :
    ∃ v, min P a b = ⟨.fin (Min.min (f t) (g t)), .fin v⟩ ∧
      HasDerivAt (fun t => Min.min (f t) (g t)) v t := by
  obtain ⟨ax, ad⟩ := ha
  obtain ⟨bx, bd⟩ := hb
  unfold min
  rw [ax, bx]
  simp only [h0, if_false]
  rcases lt_or_gt_of_ne h0 with h | h
  · refine ⟨a.dx, by simp [h.le], ?_⟩
    refine ad.congr_of_eventuallyEq ?_
    filter_upwards [ad.continuousAt.eventually_lt bd.continuousAt h] with s hs
    exact min_eq_left hs.le
  · refine ⟨b.dx, by simp [not_le.2 h, min_eq_right h.le], ?_⟩
    refine bd.congr_of_eventuallyEq ?_
    filter_upwards [bd.continuousAt.eventually_lt ad.continuousAt h] with s hs
    exact min_eq_right hs.le

theorem C62_max_ne (ha : Tracks f t a) (hb : Tracks g t b) (h0 : f t ≠ g t) :
    ∃ v, max .right a b = ⟨.fin (Max.max (f t) (g t)), .fin v⟩ ∧
      HasDerivAt (fun t => Max.max (f t) (g t)) v t := by
  obtain ⟨ax, ad⟩ := ha
  obtain ⟨bx, bd⟩ := hb
  unfold max
  rw [ax, bx]
  simp only [h0, if_false, asPolicy, if_true]
  rcases lt_or_gt_of_ne h0 with h | h
  · refine ⟨b.dx, by simp [not_le.2 h, max_eq_right h.le], ?_⟩
    refine bd.congr_of_eventuallyEq ?_
    filter_upwards [ad.continuousAt.eventually_lt bd.continuousAt h] with s hs
    exact max_eq_right hs.le
  · refine ⟨a.dx, by simp [h.le], ?_⟩
    refine ad.congr_of_eventuallyEq ?_
    filter_upwards [bd.continuousAt.eventually_lt ad.continuousAt h] with s hs
    exact max_eq_left hs.le

/-- **C62 refuted for `max`.** With every policy but the default, `max` returns the derivative in place of
the value. -/
theorem C62_max_policy_refuted (P : Policy) (hP : P ≠ .right) (a b : Dual ℝ) (h : b.x < a.x) :
    max P a b = ⟨.fin a.dx, .fin a.dx⟩ := by
  simp [max, asPolicy, hP, h.ne', h.le]

/-- **C62 refuted for `pow(scalar, Dual)`** with every policy but the default; with the default it is right. -/
theorem C62_powSD (ha : Tracks f t a) (s : ℝ) (hs : 0 < s) :
    ∃ v, powSD .right s a = ⟨.fin (s ^ f t), .fin v⟩ ∧ HasDerivAt (fun t => s ^ f t) v t := by
  obtain ⟨ax, ad⟩ := ha
  refine ⟨a.dx * s ^ f t * Real.log s, by simp [powSD, asPolicy, ax], ?_⟩
  have := (hasDerivAt_const t s).rpow ad hs
  convert this using 1
  ring

theorem C62_powSD_policy_refuted (P : Policy) (hP : P ≠ .right) (s : ℝ) (a : Dual ℝ) :
    (powSD P s a).x = .fin (a.dx * s ^ a.x * Real.log s) := by
  simp [powSD, asPolicy, hP]

/-- **C62, floor and ceil** have derivative zero between integers, for every policy. -/
theorem C62_floor (P : Policy) (ha : Tracks f t a) (h0 : (⌊f t⌋ : ℝ) ≠ f t) :
    floor P a = ⟨.fin ⌊f t⌋, .fin 0⟩ ∧ HasDerivAt (fun t => (⌊f t⌋ : ℝ)) 0 t := by
  obtain ⟨ax, ad⟩ := ha
  constructor
  · simp [floor, ax, h0]
  · refine (hasDerivAt_const t (⌊f t⌋ : ℝ)).congr_of_eventuallyEq ?_
    filter_upwards [continuousAt_const.eventually_lt ad.continuousAt
      (lt_of_le_of_ne (Int.floor_le (f t)) h0), ad.continuousAt.eventually_lt continuousAt_const
      (Int.lt_floor_add_one (f t))] with s h1 h2
    have : ⌊f s⌋ = ⌊f t⌋ := Int.floor_eq_iff.2 ⟨h1.le, h2⟩
    rw [this]

theorem C62_ceil (P : Policy) (ha : Tracks f t a) (h0 : (⌈f t⌉ : ℝ) ≠ f t) :
    ceil P a = ⟨.fin ⌈f t⌉, .fin 0⟩ ∧ HasDerivAt (fun t => (⌈f t⌉ : ℝ)) 0 t := by
  obtain ⟨ax, ad⟩ := ha
  constructor
  · simp [ceil, ax, h0]
  · refine (hasDerivAt_const t (⌈f t⌉ : ℝ)).congr_of_eventuallyEq ?_
    filter_upwards [ad.continuousAt.eventually_lt continuousAt_const
      (lt_of_le_of_ne (Int.le_ceil (f t)) h0.symm), continuousAt_const.eventually_lt ad.continuousAt
      (show (⌈f t⌉ : ℝ) - 1 < f t by linarith [Int.ceil_lt_add_one (f t)])] with s h1 h2
    have : ⌈f s⌉ = ⌈f t⌉ := Int.ceil_eq_iff.2 ⟨h2, h1.le⟩
    rw [this]

end

/-! ### One-sided derivatives at a tie -/

theorem slope_tendsto {f : ℝ → ℝ} {t v : ℝ} {s : Set ℝ} :
    HasDerivWithinAt f v s t ↔ Filter.Tendsto (slope f t) (nhdsWithin t (s \ {t})) (nhds v) :=
  hasDerivWithinAt_iff_tendsto_slope

/-- **C62, ties.** Where the arguments of `min` agree, policy `Left` (`Right`) returns the derivative of the
minimum from the left (right). -/
theorem C62_min_tie {f g : ℝ → ℝ} {t : ℝ} {a b : Dual ℝ} (ha : Tracks f t a) (hb : Tracks g t b) (he : f t = g t) :
    (∃ v, min .left a b = ⟨.fin (f t), .fin v⟩ ∧
      HasDerivWithinAt (fun t => Min.min (f t) (g t)) v (Set.Iio t) t) ∧
    (∃ v, min .right a b = ⟨.fin (f t), .fin v⟩ ∧
      HasDerivWithinAt (fun t => Min.min (f t) (g t)) v (Set.Ioi t) t) := by
  obtain ⟨ax, ad⟩ := ha
  obtain ⟨bx, bd⟩ := hb
  constructor
  · refine ⟨Max.max a.dx b.dx, by simp [min, ax, bx, he, resolve], ?_⟩
    have h1 := (ad.hasDerivWithinAt (s := Set.Iio t))
    have h2 := (bd.hasDerivWithinAt (s := Set.Iio t))
    rw [slope_tendsto] at h1 h2 ⊢
    refine (h1.max h2).congr' ?_
    filter_upwards [self_mem_nhdsWithin] with s hs
    have hlt : s - t < 0 := sub_neg.2 hs.1
    simp only [slope_def_field, he, min_self]
    have hneg : ∀ x y : ℝ, x ≤ y → y / (s - t) ≤ x / (s - t) := fun x y h =>
      div_le_div_of_nonpos_of_le hlt.le h
    rcases le_total (f s) (g s) with h | h
    · rw [min_eq_left h, max_eq_left (hneg _ _ (by linarith))]
    · rw [min_eq_right h, max_eq_right (hneg _ _ (by linarith))]
  · refine ⟨Min.min a.dx b.dx, by simp [min, ax, bx, he, resolve], ?_⟩
    have h1 := (ad.hasDerivWithinAt (s := Set.Ioi t))
    have h2 := (bd.hasDerivWithinAt (s := Set.Ioi t))
    rw [slope_tendsto] at h1 h2 ⊢
    refine (h1.min h2).congr' ?_
    filter_upwards [self_mem_nhdsWithin] with s hs
    have hlt : 0 < s - t := sub_pos.2 hs.1
    simp only [slope_def_field, he, min_self]
    have hpos : ∀ x y : ℝ, x ≤ y → x / (s - t) ≤ y / (s - t) := fun x y h =>
      div_le_div_of_nonneg_right h hlt.le
    rcases le_total (f s) (g s) with h | h
    · rw [min_eq_left h, min_eq_left (hpos _ _ (by linarith))]
    · rw [min_eq_right h, min_eq_right (hpos _ _ (by linarith))]

/-- **C62, ties of `max`**, policy `Right`. -/
theorem C62_max_tie {f g : ℝ → ℝ} {t : ℝ} {a b : Dual ℝ} (ha : Tracks f t a) (hb : Tracks g t b) (he : f t = g t) :
    ∃ v, max .right a b = ⟨.fin (f t), .fin v⟩ ∧
      HasDerivWithinAt (fun t => Max.max (f t) (g t)) v (Set.Ioi t) t := by
  obtain ⟨ax, ad⟩ := ha
  obtain ⟨bx, bd⟩ := hb
  refine ⟨Max.max a.dx b.dx, by simp [max, asPolicy, ax, bx, he, resolve], ?_⟩
  have h1 := (ad.hasDerivWithinAt (s := Set.Ioi t))
  have h2 := (bd.hasDerivWithinAt (s := Set.Ioi t))
  rw [slope_tendsto] at h1 h2 ⊢
  refine (h1.max h2).congr' ?_
  filter_upwards [self_mem_nhdsWithin] with s hs
  have hlt : 0 < s - t := sub_pos.2 hs.1
  simp only [slope_def_field, he, max_self]
  have hpos : ∀ x y : ℝ, x ≤ y → x / (s - t) ≤ y / (s - t) := fun x y h =>
    div_le_div_of_nonneg_right h hlt.le
  rcases le_total (f s) (g s) with h | h
  · rw [max_eq_right h, max_eq_right (hpos _ _ (by linarith))]
  · rw [max_eq_left h, max_eq_left (hpos _ _ (by linarith))]

/-- **C62, abs at zero.** Policy `Right` returns the derivative from the right exactly when the argument's
derivative is not negative: the code takes the sides of the argument, not of the parameter (unlike `min` and
`max`). -/
theorem C62_abs_zero_refuted {f : ℝ → ℝ} {t : ℝ} {a : Dual ℝ} (ha : Tracks f t a) (h0 : f t = 0) :
    abs .right a = ⟨.fin 0, .fin a.dx⟩ ∧
      (HasDerivWithinAt (fun t => |f t|) a.dx (Set.Ioi t) t ↔ 0 ≤ a.dx) := by
  obtain ⟨ax, ad⟩ := ha
  refine ⟨by simp [abs, ax, h0, resolve], ?_⟩
  have h1 := (ad.hasDerivWithinAt (s := Set.Ioi t))
  have h2 : HasDerivWithinAt (fun t => |f t|) |a.dx| (Set.Ioi t) t := by
    rw [slope_tendsto] at h1 ⊢
    refine h1.abs.congr' ?_
    filter_upwards [self_mem_nhdsWithin] with s hs
    have hlt : 0 < s - t := sub_pos.2 hs.1
    simp only [slope_def_field, h0, abs_zero, sub_zero]
    rw [abs_div, abs_of_pos hlt]
  constructor
  · intro h
    have : a.dx = |a.dx| := (uniqueDiffWithinAt_Ioi t).eq_deriv _ h h2
    rw [this]; exact abs_nonneg _
  · intro h
    rw [abs_of_nonneg h] at h2; exact h2

/-- **C62, the remaining policies at a tie.** `Average` returns the mean of what `Left` and `Right` return,
`NaN` returns NaN, and `Inf` returns an infinity signed like the jump from the left to the right derivative, or
the derivative itself when the two sides agree. -/
theorem C62_min_tie_policies (a b : Dual ℝ) (he : a.x = b.x) (l r : ℝ)
    (hl : (min .left a b).dx = .fin l) (hr : (min .right a b).dx = .fin r) :
    (min .average a b).dx = .fin ((l + r) / 2) ∧ (min .nan a b).dx = .nan ∧
      (l = r → (min .inf a b).dx = .fin l) ∧ (l < r → (min .inf a b).dx = .pinf) ∧
      (r < l → (min .inf a b).dx = .ninf) := by
  simp only [min, he, if_true, resolve, Ext.fin.injEq] at hl hr ⊢
  subst hl hr
  refine ⟨rfl, trivial, fun h => by simp [h], fun h => by simp [h, h.ne'], fun h => by simp [h.ne, h.le]⟩

/-- The same for `abs` at zero. -/
theorem C62_abs_tie_policies (a : Dual ℝ) (he : a.x = 0) (l r : ℝ)
    (hl : (abs .left a).dx = .fin l) (hr : (abs .right a).dx = .fin r) :
    l = -a.dx ∧ r = a.dx ∧
    (abs .average a).dx = .fin ((l + r) / 2) ∧ (abs .nan a).dx = .nan ∧
      (l = r → (abs .inf a).dx = .fin l) ∧ (l < r → (abs .inf a).dx = .pinf) ∧
      (r < l → (abs .inf a).dx = .ninf) := by
  simp only [abs, he, if_true, resolve, Ext.fin.injEq] at hl hr ⊢
  subst hl hr
  refine ⟨rfl, rfl, rfl, trivial, fun h => by simp [h], fun h => ?_, fun h => ?_⟩
  · rw [if_neg h.ne', if_pos h]
  · rw [if_neg h.ne, if_neg (not_lt.2 h.le)]

/-- **C62, floor and ceil at an integer.** Only the policies `NaN` and `Inf` report the jump. -/
theorem C62_step_policies (P : Policy) (n : ℤ) (v : ℝ) :
    floor P ⟨n, v⟩ = ⟨.fin n, if P = .nan then .nan else if P = .inf then (if v < 0 then .ninf else .pinf)
      else .fin 0⟩ ∧ ceil P ⟨n, v⟩ = floor P ⟨n, v⟩ := by
  cases P <;> simp [floor, ceil, infLike]

/-! ### Whole programs -/

/-- Programs over one variable built from the operations proved right above. -/
inductive Prog where
  | var
  | lit (c : ℝ)
  | add (p q : Prog)
  | sub (p q : Prog)
  | mul (p q : Prog)
  | div (p q : Prog)
  | neg (p : Prog)
  | fma (p q r : Prog)
  | sin (p : Prog)
  | cos (p : Prog)
  | atan (p : Prog)
  | asin (p : Prog)
  | acos (p : Prog)
  | log (p : Prog)
  | sqrt (p : Prog)
  | pow (p : Prog) (e : ℝ)
  | atan2 (p q : Prog)

/-- The program run on numbers. -/
noncomputable def Prog.run : Prog → ℝ → ℝ
  | var, t => t
  | lit c, _ => c
  | add p q, t => p.run t + q.run t
  | sub p q, t => p.run t - q.run t
  | mul p q, t => p.run t * q.run t
  | div p q, t => p.run t / q.run t
  | neg p, t => -p.run t
  | fma p q r, t => p.run t * q.run t + r.run t
  | sin p, t => Real.sin (p.run t)
  | cos p, t => Real.cos (p.run t)
  | atan p, t => Real.arctan (p.run t)
  | asin p, t => Real.arcsin (p.run t)
  | acos p, t => Real.arccos (p.run t)
  | log p, t => Real.log (p.run t)
  | sqrt p, t => Real.sqrt (p.run t)
  | pow p e, t => p.run t ^ e
  | atan2 p q, t => ratan2 (p.run t) (q.run t)

/-- The program run on duals. -/
noncomputable def Prog.runD : Prog → Dual ℝ → Dual ℝ
  | var, d => d
  | lit c, _ => Duals.const c
  | add p q, d => Duals.add (p.runD d) (q.runD d)
  | sub p q, d => Duals.sub (p.runD d) (q.runD d)
  | mul p q, d => Duals.mul (p.runD d) (q.runD d)
  | div p q, d => Duals.div (p.runD d) (q.runD d)
  | neg p, d => Duals.neg (p.runD d)
  | fma p q r, d => Duals.fma (p.runD d) (q.runD d) (r.runD d)
  | sin p, d => Duals.sin (p.runD d)
  | cos p, d => Duals.cos (p.runD d)
  | atan p, d => Duals.atan (p.runD d)
  | asin p, d => Duals.asin (p.runD d)
  | acos p, d => Duals.acos (p.runD d)
  | log p, d => Duals.log (p.runD d)
  | sqrt p, d => Duals.sqrt (p.runD d)
  | pow p e, d => Duals.powDS (p.runD d) e
  | atan2 p q, d => Duals.atan2 (p.runD d) (q.runD d)

/-- Every operation is applied inside its domain of differentiability. -/
def Prog.Defined : Prog → ℝ → Prop
  | var, _ => True
  | lit _, _ => True
  | add p q, t => p.Defined t ∧ q.Defined t
  | sub p q, t => p.Defined t ∧ q.Defined t
  | mul p q, t => p.Defined t ∧ q.Defined t
  | div p q, t => p.Defined t ∧ q.Defined t ∧ q.run t ≠ 0
  | neg p, t => p.Defined t
  | fma p q r, t => p.Defined t ∧ q.Defined t ∧ r.Defined t
  | sin p, t => p.Defined t
  | cos p, t => p.Defined t
  | atan p, t => p.Defined t
  | asin p, t => p.Defined t ∧ -1 < p.run t ∧ p.run t < 1
  | acos p, t => p.Defined t ∧ -1 < p.run t ∧ p.run t < 1
  | log p, t => p.Defined t ∧ 0 < p.run t
  | sqrt p, t => p.Defined t ∧ 0 < p.run t
  | pow p _, t => p.Defined t ∧ 0 < p.run t
  | atan2 p q, t => p.Defined t ∧ q.Defined t ∧ (0 < q.run t ∨ p.run t ≠ 0)

/-- **C62.** Running any such program on `Dual(t, 1)` yields its value and its derivative at `t`. -/
theorem C62_programs (p : Prog) (t : ℝ) (h : p.Defined t) : Tracks p.run t (p.runD ⟨t, 1⟩) := by
  induction p with
  | var => exact ⟨rfl, hasDerivAt_id t⟩
  | lit c => exact ⟨rfl, hasDerivAt_const t c⟩
  | add p q ihp ihq => exact (C61_arithmetic (ihp h.1) (ihq h.2) 0).1
  | sub p q ihp ihq => exact (C61_arithmetic (ihp h.1) (ihq h.2) 0).2.1
  | mul p q ihp ihq => exact (C61_arithmetic (ihp h.1) (ihq h.2) 0).2.2.1
  | div p q ihp ihq => exact (C61_division (ihp h.1) (ihq h.2.1) h.2.2 0).1
  | neg p ih => exact (C61_arithmetic (ih h) (ih h) 0).2.2.2.2.1
  | fma p q r ihp ihq ihr => exact (C61_fused (ihp h.1) (ihq h.2.1) (ihr h.2.2) (ihr h.2.2)).1
  | sin p ih => exact (C62_entire (ih h)).1
  | cos p ih => exact (C62_entire (ih h)).2.1
  | atan p ih => exact (C62_entire (ih h)).2.2
  | asin p ih => exact (C62_domain (ih h.1) 0).2.2.2.1 h.2
  | acos p ih => exact (C62_domain (ih h.1) 0).2.2.2.2 h.2
  | log p ih => exact (C62_domain (ih h.1) 0).1 h.2
  | sqrt p ih => exact (C62_domain (ih h.1) 0).2.1 h.2
  | pow p e ih => exact (C62_domain (ih h.1) e).2.2.1 h.2
  | atan2 p q ihp ihq => exact C62_atan2 (ihp h.1) (ihq h.2.1) h.2.2

/-- `sin(x)·x / (x² + 1)` is such a program, at every point. -/
example (t : ℝ) : (Prog.div (.mul (.sin .var) .var) (.add (.mul .var .var) (.lit 1))).Defined t := by
  refine ⟨⟨trivial, trivial⟩, ⟨⟨trivial, trivial⟩, trivial⟩, ?_⟩
  simp only [Prog.run]
  nlinarith [mul_self_nonneg t]

/-! ## C63 -/

/-- **C63, comparisons** look at values only. -/
theorem C63_compare {K : Type} [LinearOrder K] (a b : Dual K) :
    (eq a b = true ↔ a.x = b.x) ∧ (lt a b = true ↔ a.x < b.x) ∧ (le a b = true ↔ a.x ≤ b.x) := by
  simp [eq, lt, le]

/-- **C63, element conversion** keeps both components. -/
theorem C63_element {K L : Type} (cast : K → L) (d : Dual K) :
    (convertElem cast d).x = cast d.x ∧ (convertElem cast d).dx = cast d.dx := ⟨rfl, rfl⟩

/-- **C63 refuted.** Converting to another discontinuity policy replaces the value by the derivative: it
preserves exactly the duals whose two components already agree. -/
theorem C63_policy_refuted {K : Type} (d : Dual K) : convertPolicy d = d ↔ d.x = d.dx := by
  cases d with
  | mk x dx => simp [convertPolicy]; tauto

example : convertPolicy (⟨3, 0⟩ : Dual ℚ) = ⟨0, 0⟩ := rfl
example : eq (⟨3, 1⟩ : Dual ℚ) ⟨3, 2⟩ = true := by decide +kernel

end Geomc.Duals
