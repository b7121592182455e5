import Verif.SH.Convolve
import Verif.SH.Zonal

/-! # Property C107: inner products and best approximations on the sphere -/

namespace Geomc.SH

open Polynomial Basis

/-- The integral over the sphere of a function of the cosine of the polar angle and the azimuth. -/
noncomputable def sphereInt (F : ℝ → ℝ → ℝ) : ℝ := ∫ t in (0 : ℝ)..2 * Real.pi, ∫ x in (-1 : ℝ)..1, F x t

/-- **C107.** `dot` is the inner product of the functions: the integral of their product over the sphere,
also for functions with different numbers of bands. -/
theorem C107_dot (s o : SH ℝ) (f g : ℝ → ℝ → ℝ) (hf : ∀ x t, s.eval realFns x t = some (f x t))
    (hg : ∀ x t, o.eval realFns x t = some (g x t)) :
    s.dot o = some (∫ t in (0 : ℝ)..2 * Real.pi, ∫ x in (-1 : ℝ)..1, f x t * g x t) := by
  have ef : ∀ x t, f x t = _ := fun x t => Option.some.inj ((hf x t).symm.trans (C70_eval realFns s x t))
  have eg : ∀ x t, g x t = _ := fun x t => Option.some.inj ((hg x t).symm.trans (C70_eval realFns o x t))
  simp only [ef, eg]
  rw [C24_dot, inner_bands s.bands o.bands (fun l m => s.c (idx l m)) (fun l m => o.c (idx l m))]

theorem sq_bands_zero (B : ℕ) (d : ℕ → ℤ → ℝ)
    (h : ∑ l ∈ Finset.range B, ∑ m ∈ Finset.Icc (-(l : ℤ)) l, d l m * d l m = 0) (l : ℕ) (m : ℤ) (hl : l < B)
    (hm : |m| ≤ l) : d l m = 0 := by
  have h1 := (Finset.sum_eq_zero_iff_of_nonneg fun l _ => Finset.sum_nonneg fun m _ => mul_self_nonneg (d l m)).1 h l
    (Finset.mem_range.2 hl)
  have h2 := (Finset.sum_eq_zero_iff_of_nonneg fun m _ => mul_self_nonneg (d l m)).1 h1 m
    (Finset.mem_Icc.2 (abs_le.1 hm))
  exact mul_self_eq_zero.1 h2

theorem sphere_congr (F G : ℝ → ℝ → ℝ) (h : ∀ x t, -1 ≤ x → x ≤ 1 → F x t = G x t) : sphereInt F = sphereInt G := by
  unfold sphereInt
  refine intervalIntegral.integral_congr fun t _ => ?_
  refine intervalIntegral.integral_congr fun x hx => ?_
  rw [Set.uIcc_of_le (by norm_num)] at hx
  exact h x t hx.1 hx.2

/-- **C107.** The coefficients are determined by the values: functions of equally many bands which agree in each
direction have the same coefficients. -/
theorem C107_unique (s o : SH ℝ) (hb : s.bands = o.bands)
    (h : ∀ x t, -1 ≤ x → x ≤ 1 → s.eval realFns x t = o.eval realFns x t) (l : ℕ) (m : ℤ) (hl : l < s.bands)
    (hm : |m| ≤ l) : s.coeff l m = o.coeff l m := by
  have hi := inner_bands s.bands s.bands (fun l m => s.c (idx l m) - o.c (idx l m)) (fun l m => s.c (idx l m) - o.c (idx l m))
  have h0 : ∀ x t, -1 ≤ x → x ≤ 1 → (∑ l ∈ Finset.range s.bands, ∑ m ∈ Finset.Icc (-(l : ℤ)) l,
      (s.c (idx l m) - o.c (idx l m)) * shCoeff realFns l m x t) = 0 := by
    intro x t h1 h2
    have e := h x t h1 h2
    rw [C70_eval, C70_eval, ← hb] at e
    have e := Option.some.inj e
    rw [← sub_eq_zero, ← Finset.sum_sub_distrib] at e
    simp only [← Finset.sum_sub_distrib, ← sub_mul] at e
    exact e
  have hz : sphereInt (fun x t => (∑ l ∈ Finset.range s.bands, ∑ m ∈ Finset.Icc (-(l : ℤ)) l,
      (s.c (idx l m) - o.c (idx l m)) * shCoeff realFns l m x t) * (∑ l ∈ Finset.range s.bands, ∑ m ∈ Finset.Icc (-(l : ℤ)) l,
      (s.c (idx l m) - o.c (idx l m)) * shCoeff realFns l m x t)) = sphereInt fun _ _ => 0 := by
    refine sphere_congr _ _ fun x t h1 h2 => ?_
    rw [h0 x t h1 h2, mul_zero]
  unfold sphereInt at hz
  rw [hi, min_self] at hz
  have hz : _ = (0 : ℝ) := hz.trans (by simp)
  have := sq_bands_zero s.bands (fun l m => s.c (idx l m) - o.c (idx l m)) hz l m hl hm
  have e : s.c (idx l m) = o.c (idx l m) := sub_eq_zero.1 this
  rw [C24_access s l m hl hm, C24_access o l m (hb ▸ hl) hm, e]

/-- **C107.** `dot` of a function with itself is positive unless the function vanishes. -/
theorem C107_norm (s : SH ℝ) : ∃ q, s.dot s = some q ∧ 0 ≤ q ∧
    (q = 0 ↔ ∀ x t, -1 ≤ x → x ≤ 1 → s.eval realFns x t = some 0) := by
  refine ⟨_, C24_dot s s, Finset.sum_nonneg fun l _ => Finset.sum_nonneg fun m _ => mul_self_nonneg _, ?_⟩
  rw [min_self]
  constructor
  · intro h x t _ _
    rw [C70_eval]
    congr 1
    refine Finset.sum_eq_zero fun l hl => Finset.sum_eq_zero fun m hm => ?_
    rw [sq_bands_zero s.bands (fun l m => s.c (idx l m)) h l m (Finset.mem_range.1 hl) (abs_le.2 (Finset.mem_Icc.1 hm)),
      zero_mul]
  · intro h
    refine Finset.sum_eq_zero fun l hl => Finset.sum_eq_zero fun m hm => ?_
    have hn : ∀ x t, (SH.new s.bands : SH ℝ).eval realFns x t = some 0 := by
      intro x t
      rw [C70_eval]
      congr 1
      refine Finset.sum_eq_zero fun l hl => Finset.sum_eq_zero fun m hm => ?_
      simp [SH.new]
    have hl := Finset.mem_range.1 hl
    have hm := abs_le.2 (Finset.mem_Icc.1 hm)
    have e := C107_unique s (SH.new s.bands) rfl (fun x t h1 h2 => (h x t h1 h2).trans (hn x t).symm) l m hl hm
    rw [C24_access s l m hl hm, C24_access (SH.new s.bands) l m hl hm] at e
    have e : s.c (idx l m) = 0 := Option.some.inj e
    rw [e, mul_zero]

/-! ## Projection -/

theorem sphere_inner_cont {F : ℝ → ℝ → ℝ} (h : Continuous (Function.uncurry F)) :
    Continuous fun t => ∫ x in (-1 : ℝ)..1, F x t :=
  intervalIntegral.continuous_parametric_intervalIntegral_of_continuous' (f := fun t x => F x t)
    (h.comp continuous_swap) _ _

theorem sphere_slice {F : ℝ → ℝ → ℝ} (h : Continuous (Function.uncurry F)) (t : ℝ) : Continuous fun x => F x t :=
  h.comp (continuous_id.prodMk continuous_const)

theorem sphere_add {F G : ℝ → ℝ → ℝ} (hF : Continuous (Function.uncurry F)) (hG : Continuous (Function.uncurry G)) :
    sphereInt (fun x t => F x t + G x t) = sphereInt F + sphereInt G := by
  unfold sphereInt
  rw [← intervalIntegral.integral_add ((sphere_inner_cont hF).intervalIntegrable _ _)
    ((sphere_inner_cont hG).intervalIntegrable _ _)]
  refine intervalIntegral.integral_congr fun t _ => ?_
  exact intervalIntegral.integral_add ((sphere_slice hF t).intervalIntegrable _ _)
    ((sphere_slice hG t).intervalIntegrable _ _)

theorem sphere_mul (c : ℝ) (F : ℝ → ℝ → ℝ) : sphereInt (fun x t => c * F x t) = c * sphereInt F := by
  unfold sphereInt
  simp only [intervalIntegral.integral_const_mul]

theorem sphere_sum {ι : Type} (S : Finset ι) (F : ι → ℝ → ℝ → ℝ) (hF : ∀ i ∈ S, Continuous (Function.uncurry (F i))) :
    sphereInt (fun x t => ∑ i ∈ S, F i x t) = ∑ i ∈ S, sphereInt (F i) := by
  classical
  induction S using Finset.induction_on with
  | empty => simp [sphereInt]
  | insert a S ha ih =>
    have hS : ∀ i ∈ S, Continuous (Function.uncurry (F i)) := fun i hi => hF i (Finset.mem_insert_of_mem hi)
    simp only [Finset.sum_insert ha]
    rw [sphere_add (hF a (Finset.mem_insert_self _ _)), ih hS]
    exact continuous_finset_sum S hS

theorem sphere_nonneg {F : ℝ → ℝ → ℝ} (h : ∀ x t, 0 ≤ F x t) : 0 ≤ sphereInt F := by
  unfold sphereInt
  refine intervalIntegral.integral_nonneg Real.two_pi_pos.le fun t _ => ?_
  exact intervalIntegral.integral_nonneg (by norm_num) fun x _ => h x t

theorem basis_cont (l : ℕ) (m : ℤ) (h : |m| ≤ l) : Continuous (Function.uncurry fun x t => shCoeff realFns l m x t) := by
  have hm : m.natAbs ≤ l := by have := abs_le.1 h; omega
  simp only [shCoeff_split]
  unfold Function.uncurry
  exact (((azim_cont m).comp continuous_snd).mul (continuous_const.mul ((assoc_cont l m.natAbs hm).comp continuous_fst)))

/-- The function with coefficients `b`. -/
noncomputable def series (B : ℕ) (b : ℕ → ℤ → ℝ) (x t : ℝ) : ℝ :=
  ∑ i ∈ bandIdx B, b i.1 i.2 * shCoeff realFns i.1 i.2 x t

theorem series_cont (B : ℕ) (b : ℕ → ℤ → ℝ) : Continuous (Function.uncurry (series B b)) := by
  unfold series Function.uncurry
  refine continuous_finset_sum _ fun i hi => ?_
  exact continuous_const.mul (basis_cont i.1 i.2 (mem_bandIdx.1 hi).2)

theorem series_inner (B : ℕ) (a b : ℕ → ℤ → ℝ) :
    sphereInt (fun x t => series B a x t * series B b x t) = ∑ i ∈ bandIdx B, a i.1 i.2 * b i.1 i.2 := by
  have := inner_bands B B a b
  simp only [sum_bandIdx, min_self] at this
  exact this

theorem series_mean (B : ℕ) (b : ℕ → ℤ → ℝ) {f : ℝ → ℝ → ℝ} (hf : Continuous (Function.uncurry f)) :
    sphereInt (fun x t => f x t * series B b x t) =
      ∑ i ∈ bandIdx B, b i.1 i.2 * sphereInt fun x t => shCoeff realFns i.1 i.2 x t * f x t := by
  have e : (fun x t => f x t * series B b x t) = fun x t => ∑ i ∈ bandIdx B,
      b i.1 i.2 * (shCoeff realFns i.1 i.2 x t * f x t) := by
    funext x t
    unfold series
    rw [Finset.mul_sum]
    exact Finset.sum_congr rfl fun i _ => by ring
  rw [e, sphere_sum]
  · exact Finset.sum_congr rfl fun i _ => sphere_mul _ _
  · intro i hi
    have := (basis_cont i.1 i.2 (mem_bandIdx.1 hi).2).mul hf
    exact continuous_const.mul this

theorem error_split (B : ℕ) (b : ℕ → ℤ → ℝ) {f : ℝ → ℝ → ℝ} (hf : Continuous (Function.uncurry f)) :
    sphereInt (fun x t => (f x t - series B b x t) ^ 2) = sphereInt (fun x t => f x t ^ 2) -
      2 * ∑ i ∈ bandIdx B, b i.1 i.2 * (sphereInt fun x t => shCoeff realFns i.1 i.2 x t * f x t) +
      ∑ i ∈ bandIdx B, b i.1 i.2 * b i.1 i.2 := by
  have e : (fun x t => (f x t - series B b x t) ^ 2) = fun x t => f x t ^ 2 +
      (-2 * (f x t * series B b x t) + series B b x t * series B b x t) := by
    funext x t
    ring
  have hs := series_cont B b
  have c1 : Continuous (Function.uncurry fun x t => f x t ^ 2) := hf.pow 2
  have c2 : Continuous (Function.uncurry fun x t => -2 * (f x t * series B b x t)) := continuous_const.mul (hf.mul hs)
  have c3 : Continuous (Function.uncurry fun x t => series B b x t * series B b x t) := hs.mul hs
  have c4 : Continuous (Function.uncurry fun x t => -2 * (f x t * series B b x t) + series B b x t * series B b x t) :=
    c2.add c3
  rw [e, sphere_add c1 c4, sphere_add c2 c3, sphere_mul, series_mean B b hf, series_inner]
  ring

theorem eval_series (s : SH ℝ) (g : ℝ → ℝ → ℝ) (hg : ∀ x t, s.eval realFns x t = some (g x t)) :
    g = series s.bands fun l m => s.c (idx l m) := by
  funext x t
  have := Option.some.inj ((hg x t).symm.trans (C70_eval realFns s x t))
  rw [this, sum_bandIdx s.bands fun l m => s.c (idx l m) * shCoeff realFns l m x t]
  rfl

/-- **C107.** Projecting the values of a continuous function in all directions (the integral over the sphere of the
coefficients that `project(d, f(d))` adds) gives the best approximation of the function with that many bands: the
squared error of any other function `g` is larger by the squared distance of `g` to the projection `p`. -/
theorem C107_best {f : ℝ → ℝ → ℝ} (hf : Continuous (Function.uncurry f)) (s q : SH ℝ) (hb : q.bands = s.bands)
    (P : ℝ → ℝ → SH ℝ) (hP : ∀ x t, (SH.new s.bands).project realFns x t (f x t) = some (P x t))
    (hs : ∀ (l : ℕ) (m : ℤ), l < s.bands → |m| ≤ l →
      s.c (idx l m) = ∫ t in (0 : ℝ)..2 * Real.pi, ∫ x in (-1 : ℝ)..1, (P x t).c (idx l m))
    (p g : ℝ → ℝ → ℝ) (hp : ∀ x t, s.eval realFns x t = some (p x t)) (hg : ∀ x t, q.eval realFns x t = some (g x t)) :
    sphereInt (fun x t => (f x t - g x t) ^ 2) =
      sphereInt (fun x t => (f x t - p x t) ^ 2) + sphereInt (fun x t => (p x t - g x t) ^ 2) ∧
    sphereInt (fun x t => (f x t - p x t) ^ 2) ≤ sphereInt (fun x t => (f x t - g x t) ^ 2) := by
  have hc : ∀ i ∈ bandIdx s.bands, sphereInt (fun x t => shCoeff realFns i.1 i.2 x t * f x t) = s.c (idx i.1 i.2) := by
    intro i hi
    obtain ⟨hl, hm⟩ := mem_bandIdx.1 hi
    rw [hs i.1 i.2 hl hm]
    refine sphere_congr _ _ fun x t _ _ => ?_
    obtain ⟨u, hu, -, h⟩ := C70_project realFns (SH.new s.bands) x t (f x t)
    rw [hP x t] at hu
    rw [Option.some.inj hu, h i.1 i.2 hl hm]
    simp [SH.new]
  have e1 : sphereInt (fun x t => (f x t - g x t) ^ 2) =
      sphereInt (fun x t => (f x t - p x t) ^ 2) + sphereInt (fun x t => (p x t - g x t) ^ 2) := by
    have hps := eval_series s p hp
    have hgs := eval_series q g hg
    rw [hb] at hgs
    have hpc : Continuous (Function.uncurry p) := by rw [hps]; exact series_cont _ _
    rw [hgs, error_split _ _ hf, error_split _ _ hpc, hps, error_split _ _ hf]
    have a1 : ∀ b : ℕ → ℤ → ℝ, ∑ i ∈ bandIdx s.bands, b i.1 i.2 * (sphereInt fun x t => shCoeff realFns i.1 i.2 x t * f x t) =
        ∑ i ∈ bandIdx s.bands, b i.1 i.2 * s.c (idx i.1 i.2) :=
      fun b => Finset.sum_congr rfl fun i hi => by rw [hc i hi]
    have a2 : ∀ i ∈ bandIdx s.bands, (sphereInt fun x t => shCoeff realFns i.1 i.2 x t *
        series s.bands (fun l m => s.c (idx l m)) x t) = s.c (idx i.1 i.2) := by
      intro i hi
      rw [series_mean _ _ (basis_cont i.1 i.2 (mem_bandIdx.1 hi).2), Finset.sum_eq_single i]
      · have := C70_orthonormal i.1 i.1 i.2 i.2 (mem_bandIdx.1 hi).2 (mem_bandIdx.1 hi).2
        rw [if_pos ⟨rfl, rfl⟩] at this
        unfold sphereInt
        rw [this, mul_one]
      · intro j hj hji
        have := C70_orthonormal j.1 i.1 j.2 i.2 (mem_bandIdx.1 hj).2 (mem_bandIdx.1 hi).2
        rw [if_neg (fun h => hji (Sigma.ext h.1 (heq_of_eq h.2)))] at this
        unfold sphereInt
        rw [this, mul_zero]
      · intro h
        exact absurd hi h
    have a3 : sphereInt (fun x t => series s.bands (fun l m => s.c (idx l m)) x t ^ 2) =
        ∑ i ∈ bandIdx s.bands, s.c (idx i.1 i.2) * s.c (idx i.1 i.2) := by
      simp only [sq]
      exact series_inner s.bands (fun l m => s.c (idx l m)) fun l m => s.c (idx l m)
    rw [a1 (fun l m => q.c (idx l m)), a1 (fun l m => s.c (idx l m)), a3,
      Finset.sum_congr rfl fun i hi => congrArg (q.c (idx i.1 i.2) * ·) (a2 i hi)]
    ring
  refine ⟨e1, ?_⟩
  rw [e1]
  have := sphere_nonneg (F := fun x t => (p x t - g x t) ^ 2) fun x t => sq_nonneg _
  linarith

/-- **C107.** So a function with no more bands is reproduced by projecting its values. -/
theorem C107_reproduce (s : SH ℝ) (f : ℝ → ℝ → ℝ) (hf : ∀ x t, s.eval realFns x t = some (f x t)) (n : ℕ)
    (hn : s.bands ≤ n) (P : ℝ → ℝ → SH ℝ) (hP : ∀ x t, (SH.new n).project realFns x t (f x t) = some (P x t))
    (l : ℕ) (m : ℤ) (hl : l < n) (hm : |m| ≤ l) :
    ∫ t in (0 : ℝ)..2 * Real.pi, ∫ x in (-1 : ℝ)..1, (P x t).c (idx l m) =
      if l < s.bands then s.c (idx l m) else 0 := by
  have e : sphereInt (fun x t => (P x t).c (idx l m)) = sphereInt fun x t => shCoeff realFns l m x t *
      series s.bands (fun l m => s.c (idx l m)) x t := by
    refine sphere_congr _ _ fun x t _ _ => ?_
    obtain ⟨u, hu, -, h⟩ := C70_project realFns (SH.new n) x t (f x t)
    rw [hP x t] at hu
    rw [Option.some.inj hu, h l m hl hm, ← eval_series s f hf]
    simp [SH.new]
  have e2 := series_mean s.bands (fun l m => s.c (idx l m)) (basis_cont l m hm)
  refine e.trans (e2.trans ?_)
  by_cases h : l < s.bands
  · have hi : (⟨l, m⟩ : Σ _ : ℕ, ℤ) ∈ bandIdx s.bands := mem_bandIdx.2 ⟨h, hm⟩
    rw [if_pos h, Finset.sum_eq_single (⟨l, m⟩ : Σ _ : ℕ, ℤ)]
    · have := C70_orthonormal l l m m hm hm
      rw [if_pos ⟨rfl, rfl⟩] at this
      unfold sphereInt
      rw [this, mul_one]
    · intro j hj hji
      have := C70_orthonormal j.1 l j.2 m (mem_bandIdx.1 hj).2 hm
      rw [if_neg (fun h => hji (Sigma.ext h.1 (heq_of_eq h.2)))] at this
      unfold sphereInt
      rw [this, mul_zero]
    · intro h
      exact absurd hi h
  · rw [if_neg h]
    refine Finset.sum_eq_zero fun j hj => ?_
    have := C70_orthonormal j.1 l j.2 m (mem_bandIdx.1 hj).2 hm
    rw [if_neg (fun hh : j.1 = l ∧ j.2 = m => h (hh.1 ▸ (mem_bandIdx.1 hj).1))] at this
    unfold sphereInt
    rw [this, mul_zero]

/-- **C107.** The mean of the projected samples of a function of no more bands, over directions distributed uniformly
on the sphere (`2u - 1` and `2πv` are the height and longitude of such a direction, C83), is the coefficient divided
by the area `4π` of the sphere. -/
theorem C107_samples (s : SH ℝ) (f : ℝ → ℝ → ℝ) (hf : ∀ x t, s.eval realFns x t = some (f x t)) (n : ℕ)
    (hn : s.bands ≤ n) (P : ℝ → ℝ → SH ℝ) (hP : ∀ x t, (SH.new n).project realFns x t (f x t) = some (P x t))
    (l : ℕ) (m : ℤ) (hl : l < s.bands) (hm : |m| ≤ l) :
    ∫ v in (0 : ℝ)..1, ∫ u in (0 : ℝ)..1, (P (2 * u - 1) (2 * Real.pi * v)).c (idx l m) =
      s.c (idx l m) / (4 * Real.pi) := by
  have h := C107_reproduce s f hf n hn P hP l m (by omega) hm
  rw [if_pos hl] at h
  have h1 : ∀ t, ∫ u in (0 : ℝ)..1, (P (2 * u - 1) t).c (idx l m) =
      2⁻¹ * ∫ x in (-1 : ℝ)..1, (P x t).c (idx l m) := by
    intro t
    rw [intervalIntegral.integral_comp_mul_sub (fun x => (P x t).c (idx l m)) two_ne_zero]
    norm_num
  have h2 : (2 * Real.pi) ≠ 0 := Real.two_pi_pos.ne'
  simp only [h1, intervalIntegral.integral_const_mul]
  rw [intervalIntegral.integral_comp_mul_left (fun t => ∫ x in (-1 : ℝ)..1, (P x t).c (idx l m)) h2, mul_zero, mul_one, h,
    smul_eq_mul]
  field_simp
  ring

/-- **C107 refuted for the documented recipes.** Neither dividing the sum of projected samples by their number (the
comment of `project(alt, azi, val)`) nor by `4π` times their number (that of `project(d, val)`) gives a coefficient,
unless it is zero; the sum is to be multiplied by `4π` and divided by the number. -/
theorem C107_samples_refuted (s : SH ℝ) (f : ℝ → ℝ → ℝ) (hf : ∀ x t, s.eval realFns x t = some (f x t)) (n : ℕ)
    (hn : s.bands ≤ n) (P : ℝ → ℝ → SH ℝ) (hP : ∀ x t, (SH.new n).project realFns x t (f x t) = some (P x t))
    (l : ℕ) (m : ℤ) (hl : l < s.bands) (hm : |m| ≤ l) (h0 : s.c (idx l m) ≠ 0) :
    (∫ v in (0 : ℝ)..1, ∫ u in (0 : ℝ)..1, (P (2 * u - 1) (2 * Real.pi * v)).c (idx l m)) ≠ s.c (idx l m) ∧
    (∫ v in (0 : ℝ)..1, ∫ u in (0 : ℝ)..1, (P (2 * u - 1) (2 * Real.pi * v)).c (idx l m)) / (4 * Real.pi) ≠
      s.c (idx l m) ∧
    4 * Real.pi * (∫ v in (0 : ℝ)..1, ∫ u in (0 : ℝ)..1, (P (2 * u - 1) (2 * Real.pi * v)).c (idx l m)) =
      s.c (idx l m) := by
  rw [C107_samples s f hf n hn P hP l m hl hm]
  have hpi := Real.pi_gt_three
  have h4 : (1 : ℝ) < 4 * Real.pi := by linarith
  have h40 : (4 * Real.pi) ≠ 0 := by linarith
  refine ⟨fun e => ?_, fun e => ?_, mul_div_cancel₀ _ h40⟩
  · rw [div_eq_iff h40] at e
    have : s.c (idx l m) * (4 * Real.pi - 1) = 0 := by linarith
    rcases mul_eq_zero.1 this with h | h
    · exact h0 h
    · linarith
  · rw [div_div, div_eq_iff (mul_ne_zero h40 h40)] at e
    have : s.c (idx l m) * (4 * Real.pi * (4 * Real.pi) - 1) = 0 := by linarith
    rcases mul_eq_zero.1 this with h | h
    · exact h0 h
    · nlinarith

/-! ## Zonal functions -/

/-- **C107.** The inner product of zonal functions: band `l` has the weight `4π/(2l + 1)`. -/
theorem C107_zonal (z o : ZH ℝ) (hz : 1 ≤ z.bands) (ho : 1 ≤ o.bands) (f g : ℝ → ℝ)
    (hf : ∀ x, z.eval x = some (f x)) (hg : ∀ x, o.eval x = some (g x)) :
    ∫ _ in (0 : ℝ)..2 * Real.pi, ∫ x in (-1 : ℝ)..1, f x * g x =
      ∑ l ∈ Finset.range (min z.bands o.bands), 4 * Real.pi / (2 * (l : ℝ) + 1) * (z.c l * o.c l) := by
  obtain ⟨s, hs, hsb, hsc⟩ := ofZH_spec z
  obtain ⟨u, hu, hub, huc⟩ := ofZH_spec o
  have e1 : ∀ x t, s.eval realFns x t = some (f x) := by
    intro x t
    obtain ⟨s', v, h1, -, h2, h3⟩ := C71_ofZH_eval z hz x t
    rw [hs] at h1
    rw [Option.some.inj h1, h2, ← h3, hf]
  have e2 : ∀ x t, u.eval realFns x t = some (g x) := by
    intro x t
    obtain ⟨s', v, h1, -, h2, h3⟩ := C71_ofZH_eval o ho x t
    rw [hu] at h1
    rw [Option.some.inj h1, h2, ← h3, hg]
  have h := C107_dot s u (fun x _ => f x) (fun x _ => g x) e1 e2
  rw [C24_dot] at h
  rw [← Option.some.inj h, hsb, hub]
  refine Finset.sum_congr rfl fun l hl => ?_
  have hl := Finset.mem_range.1 hl
  have h0 : (0 : ℝ) ≤ 4 * Real.pi / (2 * (l : ℝ) + 1) := by have := Real.pi_pos; positivity
  rw [Finset.sum_eq_single 0]
  · rw [hsc l 0 (by omega) (by simp), huc l 0 (by omega) (by simp), if_pos rfl, if_pos rfl]
    have := Real.mul_self_sqrt h0
    calc _ = (Real.sqrt (4 * Real.pi / (2 * (l : ℝ) + 1)) * Real.sqrt (4 * Real.pi / (2 * (l : ℝ) + 1))) *
        (z.c l * o.c l) := by ring
      _ = _ := by rw [this]
  · intro m hm hm0
    rw [hsc l m (by omega) (abs_le.2 (Finset.mem_Icc.1 hm)), if_neg hm0, zero_mul]
  · intro h
    exact absurd (Finset.mem_Icc.2 ⟨by omega, by omega⟩) h

theorem ZH.dot_eq (z o : ZH ℝ) (h : z.bands ≤ o.bands) : z.dot o = some (∑ l ∈ Finset.range z.bands, z.c l * o.c l) := by
  unfold ZH.dot
  have : ∀ n, n ≤ z.bands → (List.range n).foldlM (fun (sum : ℝ) (i : ℕ) => do
      let a ← z.get i
      let b ← o.get i
      some (sum + a * b)) 0 = some (∑ l ∈ Finset.range n, z.c l * o.c l) := by
    intro n
    induction n with
    | zero => intro _; simp
    | succ n ih =>
      intro hn
      rw [List.range_succ, List.foldlM_append, ih (by omega), Finset.sum_range_succ]
      simp only [Option.bind_eq_bind, Option.bind_some, List.foldlM_cons, List.foldlM_nil]
      simp [ZH.get, show n < z.bands by omega, show n < o.bands by omega]
  exact this _ le_rfl

/-- **C107 refuted for zonal functions.** `dot` of zonal functions sums the products of the coefficients without the
weights; it is not the inner product of any non-zero multiple of a Legendre polynomial with itself. -/
theorem C107_zonal_refuted (z : ZH ℝ) (f : ℝ → ℝ) (hf : ∀ x, z.eval x = some (f x)) (l : ℕ) (hl : l < z.bands)
    (h0 : z.c l ≠ 0) (h : ∀ k, k < z.bands → k ≠ l → z.c k = 0) :
    z.dot z ≠ some (∫ _ in (0 : ℝ)..2 * Real.pi, ∫ x in (-1 : ℝ)..1, f x * f x) := by
  rw [C107_zonal z z (by omega) (by omega) f f hf hf, ZH.dot_eq z z le_rfl, min_self]
  have hs : ∀ w : ℕ → ℝ, ∑ k ∈ Finset.range z.bands, w k * (z.c k * z.c k) = w l * (z.c l * z.c l) := by
    intro w
    rw [Finset.sum_eq_single l]
    · intro k hk hkl
      rw [h k (Finset.mem_range.1 hk) hkl, mul_zero, mul_zero]
    · intro hk
      exact absurd (Finset.mem_range.2 hl) hk
  have h1 := hs fun _ => 1
  simp only [one_mul] at h1
  rw [hs fun k => 4 * Real.pi / (2 * (k : ℝ) + 1), h1]
  intro e
  have e := Option.some.inj e
  have h2 : z.c l * z.c l ≠ 0 := mul_ne_zero h0 h0
  have h3 : 4 * Real.pi / (2 * (l : ℝ) + 1) = 1 := mul_right_cancel₀ h2 (by rw [← e, one_mul])
  have h4 : (2 * (l : ℝ) + 1) ≠ 0 := by positivity
  exact odd_ne_four_pi l ((div_eq_one_iff_eq h4).1 h3).symm

/-- The inner product of the constant zonal function 1 with itself is the area of the sphere; `dot` returns 1. -/
example : (⟨1, fun _ => 1⟩ : ZH ℝ).dot ⟨1, fun _ => 1⟩ = some 1 ∧
    ∫ _ in (0 : ℝ)..2 * Real.pi, ∫ _ in (-1 : ℝ)..1, (1 : ℝ) * 1 = 4 * Real.pi := by
  constructor
  · rw [ZH.dot_eq _ _ le_rfl]
    simp
  · rw [C107_zonal ⟨1, fun _ => 1⟩ ⟨1, fun _ => 1⟩ le_rfl le_rfl (fun _ => 1) (fun _ => 1)]
    · simp
    all_goals
      intro x
      rw [C71_eval _ le_rfl]
      simp [Basis.legendre]

/-- Functions of one and two bands: only the common band contributes to `dot`. -/
example : (⟨1, fun _ => 2⟩ : SH ℝ).dot ⟨2, fun _ => 3⟩ = some 6 := by
  rw [C24_dot]
  norm_num

end Geomc.SH
