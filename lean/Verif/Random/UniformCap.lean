import Mathlib.Analysis.SpecialFunctions.PolarCoord
import Mathlib.MeasureTheory.Integral.IntervalIntegral.Periodic
import Mathlib.MeasureTheory.Function.JacobianOneDim
import Verif.Random.Uniform

/-!
# C83: uniform caps, disks and arcs

The area of a part of the unit sphere is three times the volume of the cone over it.
-/

namespace Geomc.Sampler

open Geomc.Vec MeasureTheory
open scoped ENNReal

theorem polar_lintegral (F : ℝ × ℝ → ℝ≥0∞) (hF : Measurable F) :
    ∫⁻ p, F p = ∫⁻ θ in Set.Ioo (-Real.pi) Real.pi, ∫⁻ r in Set.Ioi (0 : ℝ),
      ENNReal.ofReal r * F (r * Real.cos θ, r * Real.sin θ) := by
  rw [← lintegral_comp_polarCoord_symm, polarCoord_target, Measure.volume_eq_prod, ← Measure.prod_restrict,
    lintegral_prod_symm]
  · rfl
  · refine Measurable.aemeasurable ?_
    simp only [polarCoord_symm_apply, smul_eq_mul]
    fun_prop

theorem measurable_vec3 {X : Type} [MeasurableSpace X] {a b c : X → ℝ} (ha : Measurable a) (hb : Measurable b)
    (hc : Measurable c) : Measurable fun x => ![a x, b x, c x] := by
  refine measurable_pi_lambda _ fun i => ?_
  fin_cases i
  · exact ha
  · exact hb
  · exact hc

theorem split_lintegral (f : (Fin 3 → ℝ) → ℝ≥0∞) (hf : Measurable f) :
    ∫⁻ x, f x = ∫⁻ z : ℝ, ∫⁻ p : ℝ × ℝ, f ![p.1, p.2, z] := by
  have h1 := (volume_preserving_piFinSuccAbove (fun _ : Fin 3 => ℝ) 2).symm.lintegral_comp hf
  rw [← h1, Measure.volume_eq_prod, lintegral_prod _ (by
    exact (hf.comp (MeasurableEquiv.measurable _)).aemeasurable)]
  refine lintegral_congr fun z => ?_
  have h2 := (volume_preserving_finTwoArrow ℝ).lintegral_comp
    (f := fun p : ℝ × ℝ => f ![p.1, p.2, z]) (hf.comp (measurable_vec3 measurable_fst measurable_snd measurable_const))
  rw [← h2]
  refine lintegral_congr fun w => ?_
  congr 1
  ext i
  fin_cases i <;> rfl

/-- Spherical coordinates. -/
theorem spherical (f : (Fin 3 → ℝ) → ℝ≥0∞) (hf : Measurable f) :
    ∫⁻ x, f x = ∫⁻ θ in Set.Ioo (-Real.pi) Real.pi, ∫⁻ φ in Set.Ioo 0 Real.pi, ∫⁻ t in Set.Ioi (0 : ℝ),
      ENNReal.ofReal (t ^ 2 * Real.sin φ) *
        f ![t * Real.sin φ * Real.cos θ, t * Real.sin φ * Real.sin θ, t * Real.cos φ] := by
  have hg : ∀ {X : Type} [MeasurableSpace X] {a b c : X → ℝ}, Measurable a → Measurable b → Measurable c →
      Measurable fun x => f ![a x, b x, c x] := fun ha hb hc => hf.comp (measurable_vec3 ha hb hc)
  have s1 : ∀ z : ℝ, ∫⁻ p : ℝ × ℝ, f ![p.1, p.2, z] = ∫⁻ θ in Set.Ioo (-Real.pi) Real.pi,
      ∫⁻ r in Set.Ioi (0 : ℝ), ENNReal.ofReal r * f ![r * Real.cos θ, r * Real.sin θ, z] := by
    intro z
    exact polar_lintegral (fun p => f ![p.1, p.2, z]) (hg measurable_fst measurable_snd measurable_const)
  rw [split_lintegral f hf]
  simp only [s1]
  rw [lintegral_lintegral_swap]
  swap
  · refine Measurable.aemeasurable ?_
    unfold Function.uncurry
    refine Measurable.lintegral_prod_right' (f := fun w : (ℝ × ℝ) × ℝ => ENNReal.ofReal w.2 *
      f ![w.2 * Real.cos w.1.2, w.2 * Real.sin w.1.2, w.1.1]) ?_
    exact Measurable.mul (by fun_prop) (hg (by fun_prop) (by fun_prop) (by fun_prop))
  refine lintegral_congr fun θ => ?_
  let H : ℝ × ℝ → ℝ≥0∞ := fun p => (Set.Ioi (0 : ℝ)).indicator
    (fun r => ENNReal.ofReal r * f ![r * Real.cos θ, r * Real.sin θ, p.1]) p.2
  have hH : Measurable H := by
    have : H = (Set.univ ×ˢ Set.Ioi (0 : ℝ)).indicator fun p : ℝ × ℝ => ENNReal.ofReal p.2 *
        f ![p.2 * Real.cos θ, p.2 * Real.sin θ, p.1] := by
      funext p
      by_cases hp : p.2 ∈ Set.Ioi (0 : ℝ)
      · rw [Set.indicator_of_mem (show p ∈ Set.univ ×ˢ Set.Ioi (0 : ℝ) from ⟨trivial, hp⟩)]
        exact Set.indicator_of_mem hp _
      · rw [Set.indicator_of_notMem (fun h : p ∈ Set.univ ×ˢ Set.Ioi (0 : ℝ) => hp h.2)]
        exact Set.indicator_of_notMem hp _
    rw [this]
    refine Measurable.indicator ?_ (MeasurableSet.univ.prod measurableSet_Ioi)
    exact Measurable.mul (by fun_prop) (hg (by fun_prop) (by fun_prop) (by fun_prop))
  have s2 : ∫⁻ z : ℝ, ∫⁻ r in Set.Ioi (0 : ℝ), ENNReal.ofReal r * f ![r * Real.cos θ, r * Real.sin θ, z] =
      ∫⁻ p : ℝ × ℝ, H p := by
    rw [Measure.volume_eq_prod, lintegral_prod _ hH.aemeasurable]
    refine lintegral_congr fun z => ?_
    rw [← lintegral_indicator measurableSet_Ioi]
  rw [s2, polar_lintegral H hH]
  have s3 : ∀ φ ∈ Set.Ioo (-Real.pi) Real.pi,
      (∫⁻ t in Set.Ioi (0 : ℝ), ENNReal.ofReal t * H (t * Real.cos φ, t * Real.sin φ)) =
      (Set.Ioo 0 Real.pi).indicator (fun φ => ∫⁻ t in Set.Ioi (0 : ℝ), ENNReal.ofReal (t ^ 2 * Real.sin φ) *
        f ![t * Real.sin φ * Real.cos θ, t * Real.sin φ * Real.sin θ, t * Real.cos φ]) φ := by
    intro φ hφ
    by_cases h0 : 0 < φ
    · rw [Set.indicator_of_mem (show φ ∈ Set.Ioo 0 Real.pi from ⟨h0, hφ.2⟩)]
      have hs := Real.sin_pos_of_pos_of_lt_pi h0 hφ.2
      refine setLIntegral_congr_fun measurableSet_Ioi fun t ht => ?_
      have ht : 0 < t := ht
      simp only [H]
      rw [Set.indicator_of_mem (show t * Real.sin φ ∈ Set.Ioi (0 : ℝ) from mul_pos ht hs), ← mul_assoc,
        ← ENNReal.ofReal_mul ht.le]
      congr 2
      ring
    · rw [Set.indicator_of_notMem (fun h => h0 h.1)]
      have hs : Real.sin φ ≤ 0 := Real.sin_nonpos_of_nonpos_of_neg_pi_le (not_lt.1 h0) hφ.1.le
      rw [setLIntegral_congr_fun (g := fun _ => 0) measurableSet_Ioi]
      · simp
      · intro t ht
        have ht : 0 < t := ht
        simp only [H]
        rw [Set.indicator_of_notMem (show t * Real.sin φ ∉ Set.Ioi (0 : ℝ) from
          not_lt.2 (mul_nonpos_of_nonneg_of_nonpos ht.le hs)), mul_zero]
  rw [setLIntegral_congr_fun measurableSet_Ioo s3, lintegral_indicator measurableSet_Ioo,
    Measure.restrict_restrict measurableSet_Ioo]
  congr 2
  ext φ
  simp only [Set.mem_inter_iff, Set.mem_Ioo]
  exact ⟨fun h => h.1, fun h => ⟨h, by linarith [h.1, Real.pi_pos], h.2⟩⟩

/-- The point of the unit sphere at a height and a longitude. -/
noncomputable def onSphere (h θ : ℝ) : Fin 3 → ℝ :=
  ![Real.sqrt (1 - h * h) * Real.cos θ, Real.sqrt (1 - h * h) * Real.sin θ, h]

theorem measurable_onSphere : Measurable fun p : ℝ × ℝ => onSphere p.1 p.2 := by
  unfold onSphere
  exact measurable_vec3 (by fun_prop) (by fun_prop) (by fun_prop)

theorem mag2_onSphere {h θ : ℝ} (hh : h * h ≤ 1) : mag2 (onSphere h θ) = 1 := by
  rw [mag2_eq]
  simp only [dotProduct, Fin.sum_univ_three, onSphere, Matrix.cons_val_zero, Matrix.cons_val_one, Matrix.cons_val]
  have := Real.mul_self_sqrt (sub_nonneg.2 hh)
  have h2 := Real.sin_sq_add_cos_sq θ
  have : Real.sqrt (1 - h * h) * Real.cos θ * (Real.sqrt (1 - h * h) * Real.cos θ) +
      Real.sqrt (1 - h * h) * Real.sin θ * (Real.sqrt (1 - h * h) * Real.sin θ) + h * h =
      (Real.sqrt (1 - h * h) * Real.sqrt (1 - h * h)) * (Real.sin θ ^ 2 + Real.cos θ ^ 2) + h * h := by ring
  rw [this, h2, Real.mul_self_sqrt (sub_nonneg.2 hh)]
  ring

theorem onSphere_cos {φ : ℝ} (h : 0 ≤ Real.sin φ) (θ : ℝ) :
    onSphere (Real.cos φ) θ = ![Real.sin φ * Real.cos θ, Real.sin φ * Real.sin θ, Real.cos φ] := by
  unfold onSphere
  have : Real.sqrt (1 - Real.cos φ * Real.cos φ) = Real.sin φ := by
    rw [← Real.sqrt_sq h]
    congr 1
    linarith [Real.sin_sq_add_cos_sq φ]
  rw [this]

theorem mem_cone_ray (A : Set (Fin 3 → ℝ)) {s : Fin 3 → ℝ} (hs : mag2 s = 1) {t : ℝ} (ht : 0 < t) :
    (fun i => t * s i) ∈ Cone A ↔ t ≤ 1 ∧ s ∈ A := by
  have hm : mag2 (fun i => t * s i) = t ^ 2 := by
    rw [mag2_eq] at hs ⊢
    simp only [dotProduct] at hs ⊢
    have : ∀ i, t * s i * (t * s i) = t ^ 2 * (s i * s i) := fun i => by ring
    simp only [this, ← Finset.mul_sum, hs, mul_one]
  have h0 : (fun i => t * s i) ≠ 0 := by
    intro h
    rw [h] at hm
    have : mag2 (0 : Fin 3 → ℝ) = 0 := by rw [mag2_eq, zero_dotProduct]
    rw [this] at hm
    exact (pow_pos ht 2).ne hm
  have h1 : (fun i => t * s i / Real.sqrt (mag2 fun i => t * s i)) = s := by
    rw [hm, Real.sqrt_sq ht.le]
    funext i
    rw [mul_comm, mul_div_assoc, div_self ht.ne', mul_one]
  unfold Cone
  rw [Set.mem_setOf_eq, h1, hm]
  constructor
  · rintro ⟨⟨a, -⟩, b⟩
    exact ⟨by nlinarith, b⟩
  · rintro ⟨a, b⟩
    exact ⟨⟨by nlinarith, h0⟩, b⟩

/-- Archimedes: the area of a part of the sphere is that of its projection onto the cylinder around it. -/
theorem cone_volume (A : Set (Fin 3 → ℝ)) (hA : MeasurableSet A) :
    3 * volume (Cone A) = ∫⁻ θ in Set.Ioo (-Real.pi) Real.pi, ∫⁻ h in Set.Ioo (-1 : ℝ) 1,
      A.indicator 1 (onSphere h θ) := by
  have hc := measurable_cone A hA
  have third : ∫⁻ t in Set.Ioi (0 : ℝ), (Set.Iic (1 : ℝ)).indicator (fun t => ENNReal.ofReal (t ^ 2)) t =
      ENNReal.ofReal (1 / 3) := by
    rw [lintegral_indicator measurableSet_Iic, Measure.restrict_restrict measurableSet_Iic, Set.inter_comm,
      Set.Ioi_inter_Iic, ← ofReal_integral_eq_lintegral_ofReal]
    · rw [← intervalIntegral.integral_of_le zero_le_one, integral_pow]
      norm_num
    · exact ((continuous_pow 2).integrableOn_Icc (a := (0 : ℝ)) (b := 1)).mono_set Set.Ioc_subset_Icc_self
    · exact Filter.Eventually.of_forall fun t => sq_nonneg t
  rw [← lintegral_indicator_one hc, spherical _ (measurable_one.indicator hc), ← lintegral_const_mul' _ _ (by simp)]
  refine lintegral_congr fun θ => ?_
  have himg : Real.cos '' Set.Ioo 0 Real.pi = Set.Ioo (-1) 1 := by
    ext h
    constructor
    · rintro ⟨φ, hφ, rfl⟩
      constructor
      · rw [← Real.cos_pi]
        exact Real.cos_lt_cos_of_nonneg_of_le_pi hφ.1.le le_rfl hφ.2
      · rw [← Real.cos_zero]
        exact Real.cos_lt_cos_of_nonneg_of_le_pi le_rfl hφ.2.le hφ.1
    · rintro ⟨a, b⟩
      exact ⟨Real.arccos h, ⟨Real.arccos_pos.2 b, lt_of_le_of_ne (Real.arccos_le_pi h)
        (fun e => by rw [Real.arccos_eq_pi] at e; linarith)⟩, Real.cos_arccos a.le b.le⟩
  rw [← himg, lintegral_image_eq_lintegral_abs_deriv_mul measurableSet_Ioo (f' := fun φ => -Real.sin φ)
    (fun φ _ => (Real.hasDerivAt_cos φ).hasDerivWithinAt)
    (Real.injOn_cos.mono Set.Ioo_subset_Icc_self), ← lintegral_const_mul' _ _ (by simp)]
  refine setLIntegral_congr_fun measurableSet_Ioo fun φ hφ => ?_
  have hs := Real.sin_pos_of_pos_of_lt_pi hφ.1 hφ.2
  rw [abs_neg, abs_of_pos hs]
  have hu : mag2 (onSphere (Real.cos φ) θ) = 1 := mag2_onSphere (by nlinarith [Real.sin_sq_add_cos_sq φ])
  have e : ∀ t ∈ Set.Ioi (0 : ℝ), ENNReal.ofReal (t ^ 2 * Real.sin φ) * (Cone A).indicator 1
      ![t * Real.sin φ * Real.cos θ, t * Real.sin φ * Real.sin θ, t * Real.cos φ] =
      (ENNReal.ofReal (Real.sin φ) * A.indicator 1 (onSphere (Real.cos φ) θ)) *
        (Set.Iic (1 : ℝ)).indicator (fun t => ENNReal.ofReal (t ^ 2)) t := by
    intro t ht
    have ht : 0 < t := ht
    have hv : ![t * Real.sin φ * Real.cos θ, t * Real.sin φ * Real.sin θ, t * Real.cos φ] =
        fun i => t * onSphere (Real.cos φ) θ i := by
      rw [onSphere_cos hs.le]
      funext i
      fin_cases i
      · exact mul_assoc _ _ _
      · exact mul_assoc _ _ _
      · rfl
    have hiff := mem_cone_ray A hu ht
    rw [hv]
    by_cases h1 : t ≤ 1
    · rw [Set.indicator_of_mem (show t ∈ Set.Iic (1 : ℝ) from h1)]
      by_cases h2 : onSphere (Real.cos φ) θ ∈ A
      · rw [Set.indicator_of_mem (hiff.2 ⟨h1, h2⟩), Set.indicator_of_mem h2, Pi.one_apply, Pi.one_apply, mul_one,
          mul_one, mul_comm, ← ENNReal.ofReal_mul hs.le, mul_comm]
      · rw [Set.indicator_of_notMem (fun h => h2 (hiff.1 h).2), Set.indicator_of_notMem h2]
        simp
    · rw [Set.indicator_of_notMem (fun h => h1 (hiff.1 h).1),
        Set.indicator_of_notMem (show t ∉ Set.Iic (1 : ℝ) from h1)]
      simp
  rw [setLIntegral_congr_fun measurableSet_Ioi e, lintegral_const_mul, third, mul_comm _ (ENNReal.ofReal (1 / 3)),
    ← mul_assoc]
  · have : (3 : ℝ≥0∞) * ENNReal.ofReal (1 / 3) = 1 := by
      rw [show (3 : ℝ≥0∞) = ENNReal.ofReal 3 by simp, ← ENNReal.ofReal_mul (by norm_num)]
      norm_num
    rw [this, one_mul]
  · exact (by fun_prop : Measurable fun t : ℝ => ENNReal.ofReal (t ^ 2)).indicator measurableSet_Iic

theorem onSphere_periodic (h θ : ℝ) (k : ℤ) : onSphere h (k * (2 * Real.pi) + θ) = onSphere h θ := by
  unfold onSphere
  rw [add_comm, Real.cos_add_int_mul_two_pi, Real.sin_add_int_mul_two_pi]

theorem full_turn (G : ℝ → ℝ≥0∞) (hG : ∀ (k : ℤ) θ, G (k * (2 * Real.pi) + θ) = G θ) :
    ∫⁻ θ in Set.Ioo (-Real.pi) Real.pi, G θ = ∫⁻ θ in Set.Icc 0 (2 * Real.pi), G θ := by
  have hT : 0 < 2 * Real.pi := Real.two_pi_pos
  have h1 := (isAddFundamentalDomain_Ioc hT (-Real.pi)).setLIntegral_eq (isAddFundamentalDomain_Ioc hT 0) G (by
    rintro ⟨g, k, rfl⟩ x
    show G (k • (2 * Real.pi) + x) = G x
    rw [zsmul_eq_mul]
    exact hG k x)
  rw [zero_add, show -Real.pi + 2 * Real.pi = Real.pi by ring] at h1
  rw [setLIntegral_congr Ioo_ae_eq_Ioc, h1, setLIntegral_congr Ioc_ae_eq_Icc]

theorem cap_draws (half : ℝ) (A : Set (Fin 3 → ℝ)) (w : Fin 2 → ℝ) :
    w ∈ Draws (cap half) 2 A ↔ (∀ i, 0 ≤ w i ∧ w i ≤ 1) ∧
      onSphere ((1 - Real.cos half) * w 0 + Real.cos half) (2 * Real.pi * w 1) ∈ A := by
  refine and_congr_right fun _ => ?_
  have e : cap half (List.ofFn w) =
      some (onSphere ((1 - Real.cos half) * w 0 + Real.cos half) (2 * Real.pi * w 1), []) := by
    simp only [List.ofFn_succ, List.ofFn_zero, cap, randIn, randTo, rand, Option.bind_eq_bind, Option.bind_some, onSphere]
    rfl
  rw [e]
  constructor
  · rintro ⟨x, hx, t, h⟩
    rw [Option.some.injEq, Prod.mk.injEq] at h
    exact h.1 ▸ hx
  · intro h
    exact ⟨_, h, [], rfl⟩

/-- **C83**: `cap(half_angle)` is uniform: the probability of a part of the cap is its area over that of the cap,
`2 π (1 - cos half_angle)`. -/
theorem C83_cap (half : ℝ) (hc : Real.cos half < 1) (A : Set (Fin 3 → ℝ)) (hA : MeasurableSet A)
    (hsub : ∀ x ∈ A, mag2 x = 1 ∧ Real.cos half ≤ x 2) :
    volume (Draws (cap half) 2 A) * ENNReal.ofReal (2 * Real.pi * (1 - Real.cos half)) = 3 * volume (Cone A) := by
  set c := Real.cos half with hcd
  have hc1 : -1 ≤ c := Real.neg_one_le_cos half
  have hd : 0 < 1 - c := by linarith
  have hT : 0 < 2 * Real.pi := Real.two_pi_pos
  -- the right side
  have r1 : ∀ θ, ∫⁻ h in Set.Ioo (-1 : ℝ) 1, A.indicator (1 : (Fin 3 → ℝ) → ℝ≥0∞) (onSphere h θ) =
      ∫⁻ h in Set.Icc c 1, A.indicator 1 (onSphere h θ) := by
    intro θ
    have : ∀ h, A.indicator (1 : (Fin 3 → ℝ) → ℝ≥0∞) (onSphere h θ) =
        (Set.Ici c).indicator (fun h => A.indicator 1 (onSphere h θ)) h := by
      intro h
      by_cases hh : c ≤ h
      · rw [Set.indicator_of_mem (show h ∈ Set.Ici c from hh)]
      · rw [Set.indicator_of_notMem (show h ∉ Set.Ici c from hh), Set.indicator_of_notMem]
        exact fun hx => hh (hsub _ hx).2
    rw [setLIntegral_congr Ioo_ae_eq_Icc]
    conv_lhs => arg 2; intro h; rw [this h]
    rw [lintegral_indicator measurableSet_Ici, Measure.restrict_restrict measurableSet_Ici]
    congr 2
    ext h
    simp only [Set.mem_inter_iff, Set.mem_Ici, Set.mem_Icc]
    exact ⟨fun x => ⟨x.1, x.2.2⟩, fun x => ⟨x.1, hc1.trans x.1, x.2⟩⟩
  rw [cone_volume A hA]
  simp only [r1]
  rw [full_turn _ fun k θ => by simp only [onSphere_periodic]]
  -- the left side
  let E : Set (Fin 2 → ℝ) := {p | (p 0 ∈ Set.Icc c 1 ∧ p 1 ∈ Set.Icc 0 (2 * Real.pi)) ∧ onSphere (p 0) (p 1) ∈ A}
  have hE : (fun (w : Fin 2 → ℝ) (i : Fin 2) => ![1 - c, 2 * Real.pi] i * w i + ![c, 0] i) '' Draws (cap half) 2 A = E := by
    ext p
    constructor
    · rintro ⟨w, hw, rfl⟩
      rw [cap_draws] at hw
      obtain ⟨hw, hA⟩ := hw
      have a := hw 0
      have b := hw 1
      simp only [E, Set.mem_setOf_eq, Matrix.cons_val_zero, Matrix.cons_val_one, add_zero, Set.mem_Icc]
      refine ⟨⟨⟨?_, ?_⟩, ?_, ?_⟩, hA⟩ <;> nlinarith
    · rintro ⟨⟨⟨a1, a2⟩, b1, b2⟩, hx⟩
      have e0 : (1 - c) * ((p 0 - c) / (1 - c)) + c = p 0 := by field_simp; ring
      have e1 : 2 * Real.pi * (p 1 / (2 * Real.pi)) = p 1 := by field_simp
      refine ⟨![(p 0 - c) / (1 - c), p 1 / (2 * Real.pi)], ?_, ?_⟩
      · rw [cap_draws]
        refine ⟨fun i => ?_, ?_⟩
        · fin_cases i
          · exact ⟨div_nonneg (by linarith) hd.le, (div_le_one hd).2 (by linarith)⟩
          · exact ⟨div_nonneg b1 hT.le, (div_le_one hT).2 b2⟩
        · simp only [Matrix.cons_val_zero, Matrix.cons_val_one]
          rw [← hcd, e0, e1]
          exact hx
      · funext i
        fin_cases i
        · exact e0
        · exact (add_zero _).trans e1
  have hv := volume_stretch ![1 - c, 2 * Real.pi] ![c, 0] (Draws (cap half) 2 A)
  rw [hE, Fin.prod_univ_two] at hv
  simp only [Matrix.cons_val_zero, Matrix.cons_val_one] at hv
  rw [abs_of_pos (mul_pos hd hT)] at hv
  rw [mul_comm, mul_comm (2 * Real.pi), ← hv]
  let E' : Set (ℝ × ℝ) := (Set.Icc c 1 ×ˢ Set.Icc 0 (2 * Real.pi)) ∩ (fun p => onSphere p.1 p.2) ⁻¹' A
  have hm : MeasurableSet E' := (measurableSet_Icc.prod measurableSet_Icc).inter (measurable_onSphere hA)
  have hEE : E = MeasurableEquiv.finTwoArrow ⁻¹' E' := by
    ext p
    rfl
  rw [hEE, (volume_preserving_finTwoArrow ℝ).measure_preimage_equiv]
  have hi : volume E' = ∫⁻ p in Set.Icc c 1 ×ˢ Set.Icc 0 (2 * Real.pi), A.indicator 1 (onSphere p.1 p.2) := by
    rw [← lintegral_indicator_one hm, ← lintegral_indicator (measurableSet_Icc.prod measurableSet_Icc)]
    refine lintegral_congr fun p => ?_
    by_cases h1 : p ∈ Set.Icc c 1 ×ˢ Set.Icc 0 (2 * Real.pi)
    · rw [Set.indicator_of_mem h1]
      by_cases h2 : onSphere p.1 p.2 ∈ A
      · rw [Set.indicator_of_mem h2, Set.indicator_of_mem (show p ∈ E' from ⟨h1, h2⟩)]
        rfl
      · rw [Set.indicator_of_notMem h2, Set.indicator_of_notMem (fun h : p ∈ E' => h2 h.2)]
    · rw [Set.indicator_of_notMem h1, Set.indicator_of_notMem (fun h : p ∈ E' => h1 h.1)]
  rw [hi, Measure.volume_eq_prod, ← Measure.prod_restrict, lintegral_prod_symm]
  exact ((measurable_one.indicator hA).comp measurable_onSphere).aemeasurable

/-- The cap itself is certain, and its area is as stated. -/
theorem C83_cap_area (half : ℝ) (hc : Real.cos half < 1) :
    3 * volume (Cone {x : Fin 3 → ℝ | mag2 x = 1 ∧ Real.cos half ≤ x 2}) = ENNReal.ofReal (2 * Real.pi * (1 - Real.cos half)) := by
  have hm : MeasurableSet {x : Fin 3 → ℝ | mag2 x = 1 ∧ Real.cos half ≤ x 2} :=
    (measurableSet_eq_fun measurable_mag2 measurable_const).inter
      (measurableSet_le measurable_const (measurable_pi_apply 2))
  rw [← C83_cap half hc _ hm fun x hx => hx]
  have : Draws (cap half) 2 {x | mag2 x = 1 ∧ Real.cos half ≤ x 2} = Set.Icc (fun _ => 0) (fun _ => 1) := by
    ext w
    rw [cap_draws]
    constructor
    · intro h
      exact ⟨fun i => (h.1 i).1, fun i => (h.1 i).2⟩
    · intro h
      have h0 : 0 ≤ w 0 := h.1 0
      have h1 : w 0 ≤ 1 := h.2 0
      have hl := Real.neg_one_le_cos half
      have b1 : Real.cos half ≤ (1 - Real.cos half) * w 0 + Real.cos half := by nlinarith
      have b2 : (1 - Real.cos half) * w 0 + Real.cos half ≤ 1 := by nlinarith
      exact ⟨fun i => ⟨h.1 i, h.2 i⟩, mag2_onSphere (by nlinarith), b1⟩
  rw [this, Real.volume_Icc_pi]
  simp

theorem orthogonal_of_dot (f : (Fin 3 → ℝ) → (Fin 3 → ℝ)) (hp : ∀ v w, f v ⬝ᵥ f w = v ⬝ᵥ w) :
    ∃ Q : Matrix (Fin 3) (Fin 3) ℝ, Q.transpose * Q = 1 ∧ ∀ v, f v = Q.mulVec v := by
  let Q : Matrix (Fin 3) (Fin 3) ℝ := fun i j => f (Pi.single j 1) i
  have hQ : Q.transpose * Q = 1 := by
    ext i j
    have := hp (Pi.single i 1) (Pi.single j 1)
    rw [Matrix.mul_apply]
    refine this.trans ?_
    rw [single_dotProduct, one_mul, Matrix.one_apply]
    by_cases h : i = j
    · rw [h, Pi.single_eq_same, if_pos rfl]
    · rw [Pi.single_eq_of_ne h, if_neg h]
  refine ⟨Q, hQ, fun v => ?_⟩
  have h1 : Q.transpose.mulVec (f v) = v := by
    funext j
    have := hp (Pi.single j 1) v
    rw [single_dotProduct, one_mul] at this
    exact this
  have h2 : Q * Q.transpose = 1 := mul_eq_one_comm.1 hQ
  rw [← Matrix.one_mulVec (f v), ← h2, ← Matrix.mulVec_mulVec, h1]

/-- **C83**: `cap(dir, half_angle)` is uniform on the cap about `dir`, unless `dir` is along the negative z-axis
(where it is the wrong cap, C68). -/
theorem C83_cap_dir (dir : Fin 3 → ℝ) (h : dir 0 ≠ 0 ∨ dir 1 ≠ 0 ∨ 0 < dir 2) (half : ℝ) (hc : Real.cos half < 1)
    (A : Set (Fin 3 → ℝ)) (hA : MeasurableSet A)
    (hsub : ∀ x ∈ A, mag2 x = 1 ∧ Real.cos half * Real.sqrt (mag2 dir) ≤ x ⬝ᵥ dir) :
    volume (Draws (capDir dir half) 2 A) * ENNReal.ofReal (2 * Real.pi * (1 - Real.cos half)) = 3 * volume (Cone A) := by
  obtain ⟨f, hf, hp, -, hd⟩ := turn_spec dir h
  obtain ⟨Q, hQ, hfQ⟩ := orthogonal_of_dot f hp
  have hm : 0 < Real.sqrt (mag2 dir) := by
    refine lt_of_le_of_ne (Real.sqrt_nonneg _) fun h0 => ?_
    rw [← h0, zero_smul] at hd
    rcases h with h | h | h <;> simp [← hd] at h
  have hmA : MeasurableSet {x : Fin 3 → ℝ | Q.mulVec x ∈ A} :=
    ((Matrix.toLin' Q).continuous_of_finiteDimensional.measurable hA :)
  have e : Draws (capDir dir half) 2 A = Draws (cap half) 2 {x | Q.mulVec x ∈ A} := by
    ext w
    refine and_congr_right fun _ => ?_
    simp only [capDir]
    rcases cap half (List.ofFn w) with _ | ⟨v, s'⟩
    · simp
    · simp only [Option.bind_eq_bind, Option.bind_some, hf, Option.some.injEq, Prod.mk.injEq, Set.mem_setOf_eq]
      constructor
      · rintro ⟨x, hx, t, rfl, -⟩
        exact ⟨v, by rwa [← hfQ], s', rfl, rfl⟩
      · rintro ⟨x, hx, t, rfl, -⟩
        exact ⟨f v, by rwa [hfQ], s', rfl, rfl⟩
  rw [e, ← cone_turn A Q hQ]
  refine C83_cap half hc _ hmA fun x hx => ?_
  obtain ⟨h1, h2⟩ := hsub _ hx
  rw [← hfQ] at h1 h2
  rw [mag2_eq, hp, ← mag2_eq] at h1
  refine ⟨h1, ?_⟩
  rw [show f x ⬝ᵥ dir = Real.sqrt (mag2 dir) * x 2 by
    conv_lhs => rw [← hd]
    rw [dotProduct_smul, hp, smul_eq_mul]
    simp [dotProduct, Fin.sum_univ_three]] at h2
  rw [mul_comm] at h2
  exact le_of_mul_le_mul_left h2 hm

/-- **C83**: `disk(radius)` is uniform. -/
theorem C83_disk (r : ℝ) (hr : 0 < r) (A : Set (Fin 2 → ℝ)) (hA : ∀ x ∈ A, mag2 x ≤ r ^ 2) (hm : MeasurableSet A)
    (k : ℕ) : ENNReal.ofReal (r ^ 2) * (2 ^ 2 * volume (Blocks (disk r) 2 k A)) =
      volume A * ∑ j ∈ Finset.range k, reject 2 ^ j := by
  have hmf : Measurable fun (x : Fin 2 → ℝ) i => x i * r :=
    measurable_pi_lambda _ fun i => Measurable.mul_const (f := fun x : Fin 2 → ℝ => x i) (measurable_pi_apply i) r
  have e : Blocks (disk r) 2 k A = Blocks (solidball 2) 2 k ((fun (x : Fin 2 → ℝ) i => x i * r) ⁻¹' A) := by
    ext W
    refine and_congr_right fun _ => ?_
    simp only [disk]
    rcases solidball 2 (List.ofFn fun j => List.ofFn (W j)).flatten with _ | ⟨v, s'⟩
    · simp
    · simp only [Option.bind_eq_bind, Option.bind_some, Option.some.injEq, Prod.mk.injEq, Set.mem_preimage]
      constructor
      · rintro ⟨x, hx, t, rfl, -⟩
        exact ⟨v, hx, s', rfl, rfl⟩
      · rintro ⟨x, hx, t, rfl, -⟩
        exact ⟨_, hx, s', rfl, rfl⟩
  have hv : volume A = ENNReal.ofReal (r ^ 2) * volume ((fun (x : Fin 2 → ℝ) i => x i * r) ⁻¹' A) := by
    have h1 := volume_stretch (fun _ => r) 0 ((fun (x : Fin 2 → ℝ) i => x i * r) ⁻¹' A)
    have h2 : (fun (w : Fin 2 → ℝ) (i : Fin 2) => r * w i + (0 : Fin 2 → ℝ) i) =
        fun (w : Fin 2 → ℝ) (i : Fin 2) => w i * r := by
      funext w i
      rw [Pi.zero_apply, add_zero, mul_comm]
    rw [h2, Set.image_preimage_eq] at h1
    · rw [h1, Fin.prod_univ_two, ← sq, abs_of_nonneg (sq_nonneg r)]
    · intro x
      exact ⟨fun i => x i / r, by funext i; exact div_mul_cancel₀ _ hr.ne'⟩
  rw [e, hv, C83_ball (by norm_num) _ _ (hmf hm), mul_assoc]
  intro x hx
  have := hA _ hx
  rw [mag2_eq] at this ⊢
  simp only [dotProduct, Fin.sum_univ_two] at this ⊢
  have hr2 := pow_pos hr 2
  have h3 : r ^ 2 * (x 0 * x 0 + x 1 * x 1) ≤ r ^ 2 * 1 := by nlinarith
  exact le_of_mul_le_mul_left h3 hr2

/-- **C83**: `arc` is uniform in the angle, so in the length of the arc. -/
theorem C83_arc (lo hi : ℝ) (h : lo < hi) (A : Set (Fin 2 → ℝ)) :
    ENNReal.ofReal (hi - lo) * volume (Draws (arc lo hi) 1 A) =
      volume {a : ℝ | (lo ≤ a ∧ a ≤ hi) ∧ ![Real.cos a, Real.sin a] ∈ A} := by
  have hd : 0 < hi - lo := by linarith
  have h1 := volume_stretch (fun _ : Fin 1 => hi - lo) (fun _ => lo) (Draws (arc lo hi) 1 A)
  rw [Fin.prod_univ_one, abs_of_pos hd] at h1
  rw [← h1, ← (volume_preserving_funUnique (Fin 1) ℝ).measure_preimage_equiv]
  congr 1
  have hmem : ∀ w : Fin 1 → ℝ, w ∈ Draws (arc lo hi) 1 A ↔ (0 ≤ w 0 ∧ w 0 ≤ 1) ∧
      ![Real.cos ((hi - lo) * w 0 + lo), Real.sin ((hi - lo) * w 0 + lo)] ∈ A := by
    intro w
    refine and_congr ⟨fun h => h 0, fun h i => by rwa [Subsingleton.elim i 0]⟩ ?_
    have e : arc lo hi (List.ofFn w) =
        some (![Real.cos ((hi - lo) * w 0 + lo), Real.sin ((hi - lo) * w 0 + lo)], []) := by
      simp only [List.ofFn_succ, List.ofFn_zero, arc, randIn, rand, Option.bind_eq_bind, Option.bind_some]
    rw [e]
    constructor
    · rintro ⟨x, hx, t, h⟩
      rw [Option.some.injEq, Prod.mk.injEq] at h
      exact h.1 ▸ hx
    · intro h
      exact ⟨_, h, [], rfl⟩
  ext p
  show _ ↔ (lo ≤ p 0 ∧ p 0 ≤ hi) ∧ ![Real.cos (p 0), Real.sin (p 0)] ∈ A
  constructor
  · rintro ⟨w, hw, rfl⟩
    rw [hmem] at hw
    exact ⟨⟨by nlinarith [hw.1.1], by nlinarith [hw.1.2]⟩, hw.2⟩
  · rintro ⟨⟨a, b⟩, hx⟩
    have e : (hi - lo) * ((p 0 - lo) / (hi - lo)) + lo = p 0 := by field_simp; ring
    refine ⟨fun _ => (p 0 - lo) / (hi - lo), ?_, ?_⟩
    · rw [hmem, e]
      exact ⟨⟨div_nonneg (by linarith) hd.le, (div_le_one hd).2 (by linarith)⟩, hx⟩
    · funext i
      rw [Subsingleton.elim i 0]
      exact e

/-- The hemisphere has half the area of the sphere, so `cap(π)` returns something with `z ≥ 0` half of the time. -/
example : volume (Draws (cap Real.pi) 2 {x | mag2 x = 1 ∧ 0 ≤ x 2}) = 1 / 2 := by
  have h1 := C83_cap_area (Real.pi / 2) (by simp)
  have h2 := C83_cap Real.pi (by simp) {x | mag2 x = 1 ∧ 0 ≤ x 2}
    ((measurableSet_eq_fun measurable_mag2 measurable_const).inter
      (measurableSet_le measurable_const (measurable_pi_apply 2))) (fun x hx => ⟨hx.1, by
        have := hx.2
        simp only [Real.cos_pi]
        linarith⟩)
  rw [Real.cos_pi_div_two] at h1
  rw [h1, Real.cos_pi, show 2 * Real.pi * (1 - -1) = 2 * Real.pi * (1 - 0) * 2 by ring,
    ENNReal.ofReal_mul (by positivity), mul_comm _ (ENNReal.ofReal 2), ← mul_assoc] at h2
  have h3 : ENNReal.ofReal (2 * Real.pi * (1 - 0)) ≠ 0 := by
    rw [Ne, ENNReal.ofReal_eq_zero, not_le]
    positivity
  have h4 := (ENNReal.mul_eq_right h3 ENNReal.ofReal_ne_top).1 h2
  rw [ENNReal.eq_div_iff (by simp) (by simp), mul_comm]
  simpa using h4

end Geomc.Sampler
