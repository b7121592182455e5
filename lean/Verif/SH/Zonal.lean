import Verif.SH.Addition
import Verif.SH.ZonalModel
import Verif.Vec.Lemmas
import Verif.Shape.Basic
import Mathlib.Analysis.Real.Pi.Bounds
import Mathlib.Analysis.SpecialFunctions.Complex.Arg

/-! # Properties C91 (re-oriented zonal functions) and C92 (convolution) -/

namespace Geomc.SH

open Polynomial Basis

/-- The library's `atan2(y, x)`. -/
noncomputable def ratan2 (y x : ℝ) : ℝ := Complex.arg (x + y * Complex.I)

theorem foldlM_congr {α β : Type} (f g : α → β → Option α) (l : List β)
    (h : ∀ a, ∀ b ∈ l, f a b = g a b) (a : α) : l.foldlM f a = l.foldlM g a := by
  induction l generalizing a with
  | nil => rfl
  | cons b l ih =>
    rw [List.foldlM_cons, List.foldlM_cons, h a b List.mem_cons_self]
    congr 1
    funext a'
    exact ih (fun a b hb => h a b (List.mem_cons_of_mem _ hb)) a'

theorem scaleBands_eq {K : Type} [Field K] (F : Fns K) (s : SH K) (z : ZH K) (h : s.bands ≤ z.bands) :
    ∃ t, s.scaleBands F z = some t ∧ t.bands = s.bands ∧ ∀ (l : ℕ) (m : ℤ), l < s.bands → |m| ≤ l →
      t.c (idx l m) = s.c (idx l m) * (z.c l * F.sqrt (4 * F.pi / (2 * (l : K) + 1))) := by
  have e : s.scaleBands F z = s.convolve ⟨z.bands, fun l => z.c l * F.sqrt (4 * F.pi / (2 * (l : K) + 1))⟩ := by
    unfold SH.scaleBands SH.convolve
    apply foldlM_congr
    intro t l hl
    have hl' : l < z.bands := lt_of_lt_of_le (List.mem_range.1 hl) h
    apply foldlM_congr
    intro t j _
    simp only [hl', if_true]
    rw [show z.get l = some (z.c l) from if_pos hl', show ZH.get (⟨z.bands, fun l => z.c l *
      F.sqrt (4 * F.pi / (2 * (l : K) + 1))⟩ : ZH K) l = some _ from if_pos hl']
    rfl
  obtain ⟨t, h1, h2, h3⟩ := C70_convolve s (⟨z.bands, fun l => z.c l *
    F.sqrt (4 * F.pi / (2 * (l : K) + 1))⟩ : ZH K)
  refine ⟨t, by rw [e, h1], h2, ?_⟩
  intro l m hl hm
  rw [h3 l m hl hm, if_pos (show l < z.bands by omega)]

/-- The height and azimuth of two unit vectors, put together, give their dot product. -/
theorem angles_dot (a b : Fin 3 → ℝ) (ha : a ⬝ᵥ a = 1) (hb : b ⬝ᵥ b = 1) :
    a 2 * b 2 + Real.sqrt (1 - a 2 * a 2) * Real.sqrt (1 - b 2 * b 2) *
      Real.cos (ratan2 (a 1) (a 0) - ratan2 (b 1) (b 0)) = a ⬝ᵥ b := by
  have key : ∀ c : Fin 3 → ℝ, c ⬝ᵥ c = 1 →
      Real.sqrt (1 - c 2 * c 2) * Real.cos (ratan2 (c 1) (c 0)) = c 0 ∧
      Real.sqrt (1 - c 2 * c 2) * Real.sin (ratan2 (c 1) (c 0)) = c 1 := by
    intro c hc
    have hn : Real.sqrt (1 - c 2 * c 2) = ‖((c 0 : ℂ) + c 1 * Complex.I)‖ := by
      rw [Complex.norm_add_mul_I]
      congr 1
      simp only [dotProduct, Fin.sum_univ_three] at hc
      linear_combination -hc
    have h := Complex.norm_mul_exp_arg_mul_I ((c 0 : ℂ) + c 1 * Complex.I)
    rw [hn]
    constructor
    · have := congrArg Complex.re h
      rw [Complex.re_ofReal_mul, Complex.exp_ofReal_mul_I_re] at this
      simpa [ratan2] using this
    · have := congrArg Complex.im h
      rw [Complex.im_ofReal_mul, Complex.exp_ofReal_mul_I_im] at this
      simpa [ratan2] using this
  obtain ⟨a1, a2⟩ := key a ha
  obtain ⟨b1, b2⟩ := key b hb
  rw [Real.cos_sub]
  simp only [dotProduct, Fin.sum_univ_three]
  linear_combination (Real.sqrt (1 - b 2 * b 2) * Real.cos (ratan2 (b 1) (b 0))) * a1 + a 0 * b1 +
    (Real.sqrt (1 - b 2 * b 2) * Real.sin (ratan2 (b 1) (b 0))) * a2 + a 1 * b2

theorem unit_real (d : Fin 3 → ℝ) (h : d ≠ 0) :
    ∃ u, Vec.unit realFns.sqrt d = some u ∧ u ⬝ᵥ u = 1 ∧ ∀ e : Fin 3 → ℝ, u ⬝ᵥ e = d ⬝ᵥ e / Real.sqrt (d ⬝ᵥ d) := by
  have hp : 0 < d ⬝ᵥ d := Vec.self_dot_pos h
  have hs : Real.sqrt (d ⬝ᵥ d) ≠ 0 := (Real.sqrt_pos.2 hp).ne'
  have he : ∀ e : Fin 3 → ℝ, (fun i => d i / Real.sqrt (d ⬝ᵥ d)) ⬝ᵥ e = d ⬝ᵥ e / Real.sqrt (d ⬝ᵥ d) := by
    intro e
    simp only [dotProduct, Fin.sum_univ_three]
    ring
  refine ⟨fun i => d i / Real.sqrt (d ⬝ᵥ d), ?_, ?_, he⟩
  · unfold Vec.unit
    simp only [realFns, Vec.mag2_eq]
    rw [if_neg hs]
  · rw [he, dotProduct_comm, he, div_div, Real.mul_self_sqrt hp.le, div_self hp.ne']

/-- The zonal function with band `l` multiplied by `f l`. -/
def scaled (z : ZH ℝ) (f : ℕ → ℝ) : ZH ℝ := ⟨z.bands, fun l => z.c l * f l⟩

/-- **C91, what the code does.** A zonal function re-oriented about a new axis has, in every direction, the
value at the cosine of the angle between the direction and the axis of the zonal function whose band `l` is
`√((2l+1)/4π)` times the given one: for every number of bands, and every axis and direction (other than zero,
and of any length).  In particular the result is symmetric about the axis, but it is not the given function:
see `C91_axis_refuted`. -/
theorem C91_axis_partial (z : ZH ℝ) (h : 1 ≤ z.bands) (axis d : Fin 3 → ℝ) (ha : axis ≠ 0) (hd : d ≠ 0) :
    ∃ s v, SH.ofAxis realFns ratan2 z.bands z axis = some s ∧ s.bands = z.bands ∧
      s.evalDir realFns ratan2 d = some v ∧
      (scaled z fun l => Real.sqrt ((2 * l + 1) / (4 * Real.pi))).eval
        (axis ⬝ᵥ d / (Real.sqrt (axis ⬝ᵥ axis) * Real.sqrt (d ⬝ᵥ d))) = some v := by
  obtain ⟨a, ea, ua, da⟩ := unit_real axis ha
  obtain ⟨b, eb, ub, db⟩ := unit_real d hd
  obtain ⟨p, hp, hpb, hpc⟩ := C70_project realFns (SH.new z.bands : SH ℝ) (a 2) (ratan2 (a 1) (a 0)) 1
  have hpb' : p.bands = z.bands := hpb
  obtain ⟨s, hs, hsb, hsc⟩ := scaleBands_eq realFns p z (by omega)
  refine ⟨s, _, ?_, by omega, ?_, C71_eval (scaled z _) h _⟩
  · unfold SH.ofAxis SH.projectDir
    rw [ea]
    simp only [Option.bind_eq_bind, Option.bind_some]
    rw [hp]
    exact hs
  · unfold SH.evalDir
    rw [eb]
    simp only [Option.bind_eq_bind, Option.bind_some]
    rw [C70_eval, hsb, hpb']
    congr 1
    apply Finset.sum_congr rfl
    intro l hl
    have hl' := Finset.mem_range.1 hl
    have hcos : axis ⬝ᵥ d / (Real.sqrt (axis ⬝ᵥ axis) * Real.sqrt (d ⬝ᵥ d)) = a ⬝ᵥ b := by
      rw [da, dotProduct_comm axis b, db, dotProduct_comm d axis, div_div, mul_comm]
    have hle : ∀ c : Fin 3 → ℝ, c ⬝ᵥ c = 1 → c 2 * c 2 ≤ 1 := by
      intro c hc
      simp only [dotProduct, Fin.sum_univ_three] at hc
      nlinarith [mul_self_nonneg (c 0), mul_self_nonneg (c 1)]
    have had := addition l (a 2) (b 2) (ratan2 (a 1) (a 0)) (ratan2 (b 1) (b 0)) (hle a ua) (hle b ub)
    rw [angles_dot a b ua ub] at had
    rw [hcos, legendre_eq]
    have hterm : ∀ m ∈ Finset.Icc (-(l : ℤ)) l, s.c (idx l m) * shCoeff realFns l m (b 2) (ratan2 (b 1) (b 0)) =
        (z.c l * Real.sqrt (4 * Real.pi / (2 * (l : ℝ) + 1))) *
          (shCoeff realFns l m (a 2) (ratan2 (a 1) (a 0)) * shCoeff realFns l m (b 2) (ratan2 (b 1) (b 0))) := by
      intro m hm
      have hm' := abs_le.2 (Finset.mem_Icc.1 hm)
      rw [hsc l m (by omega) hm', hpc l m hl' hm']
      simp only [SH.new, realFns]
      ring
    rw [Finset.sum_congr rfl hterm, ← Finset.mul_sum, had]
    have hpi := Real.pi_pos
    have hl1 : (0 : ℝ) < 2 * l + 1 := by positivity
    have hk : Real.sqrt (4 * Real.pi / (2 * (l : ℝ) + 1)) * ((2 * l + 1) / (4 * Real.pi)) =
        Real.sqrt ((2 * l + 1) / (4 * Real.pi)) := by
      have e1 : 4 * Real.pi / (2 * (l : ℝ) + 1) = ((2 * l + 1) / (4 * Real.pi))⁻¹ := by rw [inv_div]
      rw [e1, Real.sqrt_inv]
      have hq : (0 : ℝ) < (2 * l + 1) / (4 * Real.pi) := by positivity
      have h0 : Real.sqrt ((2 * l + 1) / (4 * Real.pi)) ≠ 0 := (Real.sqrt_pos.2 hq).ne'
      rw [inv_mul_eq_iff_eq_mul₀ h0, Real.mul_self_sqrt hq.le]
    simp only [scaled]
    linear_combination (z.c l * eval (a ⬝ᵥ b) (leg l : ℝ[X])) * hk

/-- No odd whole number is `4π`. -/
theorem odd_ne_four_pi (l : ℕ) : (2 * (l : ℝ) + 1) ≠ 4 * Real.pi := by
  intro h
  have h1 := Real.pi_gt_d2
  have h2 := Real.pi_lt_d2
  have a : (12 : ℝ) < ((2 * l + 1 : ℕ) : ℝ) := by push_cast; linarith
  have b : ((2 * l + 1 : ℕ) : ℝ) < 13 := by push_cast; linarith
  have a' : 12 < 2 * l + 1 := by exact_mod_cast a
  have b' : 2 * l + 1 < 13 := by exact_mod_cast b
  omega

/-- A Legendre series which vanishes on `[-1, 1]` has no terms. -/
theorem leg_series_zero (B : ℕ) (a : ℕ → ℝ)
    (h : ∀ x, -1 ≤ x → x ≤ 1 → ∑ l ∈ Finset.range B, a l * (leg l : ℝ[X]).eval x = 0) (L : ℕ) (hL : L < B) :
    a L = 0 := by
  have e : ∫ x in (-1 : ℝ)..1, (∑ l ∈ Finset.range B, a l * (leg l : ℝ[X]).eval x) * (leg L : ℝ[X]).eval x = 0 := by
    rw [show (0 : ℝ) = ∫ x in (-1 : ℝ)..1, (0 : ℝ) by simp]
    apply intervalIntegral.integral_congr
    intro x hx
    rw [Set.uIcc_of_le (by norm_num)] at hx
    simp only
    rw [h x hx.1 hx.2, zero_mul]
  simp only [Finset.sum_mul, mul_assoc] at e
  rw [intervalIntegral.integral_finset_sum] at e
  · simp only [intervalIntegral.integral_const_mul] at e
    rw [Finset.sum_eq_single L] at e
    · have hn := norm_leg L
      rw [hn] at e
      have : (2 / (2 * (L : ℝ) + 1)) ≠ 0 := by positivity
      rcases mul_eq_zero.1 e with h0 | h0
      · exact h0
      · exact absurd h0 this
    · intro l _ hl
      rw [orth l L hl, mul_zero]
    · intro hc; exact absurd (Finset.mem_range.2 hL) hc
  · intro l _
    exact (ii (leg l) (leg L)).const_mul _

/-- **C91, refuted**: for every zonal function other than zero and every axis, the function re-oriented about
that axis differs from the zonal function in some direction. -/
theorem C91_axis_refuted (z : ZH ℝ) (L : ℕ) (hL : L < z.bands) (hc : z.c L ≠ 0) (axis : Fin 3 → ℝ)
    (ha : axis ≠ 0) :
    ∃ s, SH.ofAxis realFns ratan2 z.bands z axis = some s ∧ ∃ d : Fin 3 → ℝ, d ≠ 0 ∧ ∃ v w,
      s.evalDir realFns ratan2 d = some v ∧
      z.eval (axis ⬝ᵥ d / (Real.sqrt (axis ⬝ᵥ axis) * Real.sqrt (d ⬝ᵥ d))) = some w ∧ v ≠ w := by
  have h1 : 1 ≤ z.bands := by omega
  obtain ⟨s, _, hs, _, _, _⟩ := C91_axis_partial z h1 axis axis ha ha
  refine ⟨s, hs, ?_⟩
  by_contra hcon
  push Not at hcon
  have key := leg_series_zero z.bands
    (fun l => z.c l * Real.sqrt ((2 * l + 1) / (4 * Real.pi)) - z.c l) (by
      intro x hx1 hx2
      obtain ⟨u, eu, uu, du⟩ := unit_real axis ha
      obtain ⟨p, hp, hpa⟩ := Shape.exists_perp (sqrt := Real.sqrt) Vec.isSqrt_real (n := 3) (by norm_num) u
      have hpp : p ⬝ᵥ p = 1 := by
        have := Shape.len_mul_self Vec.isSqrt_real p
        rw [hp] at this; linarith
      have hy : 0 ≤ 1 - x * x := by nlinarith
      have hyy := Real.mul_self_sqrt hy
      set d := x • u + Real.sqrt (1 - x * x) • p with hd
      have hdd : d ⬝ᵥ d = 1 := by
        rw [hd]
        simp only [add_dotProduct, dotProduct_add, smul_dotProduct, dotProduct_smul, smul_eq_mul, uu, hpp,
          hpa, dotProduct_comm u p]
        linear_combination hyy
      have hd0 : d ≠ 0 := by rintro h0; rw [h0] at hdd; simp at hdd
      have hud : axis ⬝ᵥ d / (Real.sqrt (axis ⬝ᵥ axis) * Real.sqrt (d ⬝ᵥ d)) = x := by
        rw [hdd, Real.sqrt_one, mul_one, ← du d, hd]
        simp only [dotProduct_add, dotProduct_smul, smul_eq_mul, uu, dotProduct_comm u p, hpa]
        ring
      obtain ⟨s', v, e1, _, e2, e3⟩ := C91_axis_partial z h1 axis d ha hd0
      rw [hs] at e1
      cases e1
      have e4 := C71_eval z h1 (axis ⬝ᵥ d / (Real.sqrt (axis ⬝ᵥ axis) * Real.sqrt (d ⬝ᵥ d)))
      have e5 := hcon d hd0 v _ e2 e4
      rw [C71_eval (scaled z _) h1] at e3
      have e6 := Option.some.inj e3
      rw [hud] at e5 e6
      rw [e5] at e6
      simp only [legendre_eq, scaled] at e6
      simp only [sub_mul, Finset.sum_sub_distrib]
      rw [e6, sub_self]) L hL
  have hne : Real.sqrt ((2 * L + 1) / (4 * Real.pi)) ≠ 1 := by
    rw [Ne, Real.sqrt_eq_one, div_eq_one_iff_eq (by have := Real.pi_pos; positivity)]
    exact odd_ne_four_pi L
  apply hne
  have : z.c L * (Real.sqrt ((2 * L + 1) / (4 * Real.pi)) - 1) = 0 := by linear_combination key
  rcases mul_eq_zero.1 this with h0 | h0
  · exact absurd h0 hc
  · linarith

/-- **C91.** With its bands scaled beforehand by `√(4π/(2l+1))`, a zonal function is re-oriented exactly. -/
theorem C91_axis_scaled (z : ZH ℝ) (h : 1 ≤ z.bands) (axis d : Fin 3 → ℝ) (ha : axis ≠ 0) (hd : d ≠ 0) :
    ∃ s v, SH.ofAxis realFns ratan2 z.bands
        (scaled z fun l => Real.sqrt (4 * Real.pi / (2 * l + 1))) axis = some s ∧
      s.evalDir realFns ratan2 d = some v ∧
      z.eval (axis ⬝ᵥ d / (Real.sqrt (axis ⬝ᵥ axis) * Real.sqrt (d ⬝ᵥ d))) = some v := by
  obtain ⟨s, v, h1, _, h2, h3⟩ := C91_axis_partial
    (scaled z fun l => Real.sqrt (4 * Real.pi / (2 * l + 1))) h axis d ha hd
  refine ⟨s, v, h1, h2, ?_⟩
  rw [← h3]
  congr 1
  cases z with
  | mk b c =>
    simp only [scaled, ZH.mk.injEq, true_and]
    funext l
    have hpi := Real.pi_pos
    rw [mul_assoc, ← Real.sqrt_mul (by positivity),
      show 4 * Real.pi / (2 * (l : ℝ) + 1) * ((2 * l + 1) / (4 * Real.pi)) = 1 by field_simp, Real.sqrt_one,
      mul_one]

/-- **C91, refuted for fixed sizes**: a fixed-size result with more bands than the zonal function makes the
constructor read past the zonal function's coefficients. -/
theorem C91_fixed_refuted (z : ZH ℝ) (B : ℕ) (h : z.bands < B) (axis : Fin 3 → ℝ) :
    SH.ofAxis realFns ratan2 B z axis = none := by
  unfold SH.ofAxis SH.projectDir
  cases Vec.unit realFns.sqrt axis with
  | none => rfl
  | some a =>
    simp only [Option.bind_eq_bind, Option.bind_some]
    obtain ⟨p, hp, hpb, _⟩ := C70_project realFns (SH.new B : SH ℝ) (a 2) (ratan2 (a 1) (a 0)) 1
    rw [hp]
    simp only [Option.bind_some]
    have hpb' : p.bands = B := hpb
    unfold SH.scaleBands
    rw [hpb', show B = z.bands + (B - z.bands) by omega, List.range_add, List.foldlM_append]
    rw [show B - z.bands = (B - z.bands - 1) + 1 by omega, List.range_succ_eq_map]
    cases (List.range z.bands).foldlM (fun (t : SH ℝ) (l : ℕ) =>
        (List.range (2 * l + 1)).foldlM (fun (t : SH ℝ) (j : ℕ) => do
          let m : ℤ := (j : ℤ) - l
          let a ← t.coeff l m
          let b ← z.get l
          t.put (idx l m) (a * (b * realFns.sqrt (4 * realFns.pi / (2 * (l : ℝ) + 1))))) t) p with
    | none => rfl
    | some t =>
      simp only [List.map_cons, List.foldlM_cons, List.range_succ_eq_map, Option.bind_eq_bind, Option.bind_some]
      have hz : z.get (z.bands + 0) = none := if_neg (by omega)
      rw [hz]
      cases SH.coeff t ((z.bands + 0 : ℕ) : ℤ) (((0 : ℕ) : ℤ) - ((z.bands + 0 : ℕ) : ℤ)) <;> rfl

/-- The constant function 1, re-oriented about the x axis, is not 1 in some direction. -/
example : ∃ s, SH.ofAxis realFns ratan2 1 (⟨1, fun _ => 1⟩ : ZH ℝ) ![1, 0, 0] = some s ∧
    ∃ d : Fin 3 → ℝ, d ≠ 0 ∧ ∃ v, s.evalDir realFns ratan2 d = some v ∧ v ≠ 1 := by
  obtain ⟨s, h1, d, hd, v, w, h2, h3, h4⟩ := C91_axis_refuted (⟨1, fun _ => 1⟩ : ZH ℝ) 0 (by norm_num)
    one_ne_zero ![1, 0, 0] (fun h => by simpa using congrFun h 0)
  refine ⟨s, h1, d, hd, v, h2, ?_⟩
  rw [C71_eval _ le_rfl] at h3
  have : w = 1 := by
    rw [← Option.some.inj h3]
    simp [legendre_eq, leg_zero]
  rwa [this] at h4

end Geomc.SH
