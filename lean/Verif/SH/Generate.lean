import Verif.SH.Convolve
import Mathlib.Data.Nat.Choose.Central

/-! # Property C93: zonal generators, repeated blurring and normalisation -/

namespace Geomc.SH

open Polynomial Basis

/-! ## `generate_lambertian` -/

theorem lambertFacs_eq (c j : ℕ) :
    (List.range' 1 j).foldl (fun (f : ℝ × ℝ) (i : ℕ) => (f.1 * ((i + c : ℕ) : ℝ), f.2 * (i : ℝ))) (1, 1) =
      ((((c + 1).ascFactorial j : ℕ) : ℝ), ((j.factorial : ℕ) : ℝ)) := by
  induction j with
  | zero => simp
  | succ j ih =>
    rw [List.range'_1_concat, List.foldl_append, ih]
    simp only [List.foldl_cons, List.foldl_nil]
    rw [Nat.ascFactorial_succ, Nat.factorial_succ]
    congr 1 <;> push_cast <;> ring

theorem lambert_ratio (k : ℕ) :
    (lambertFacs (2 * k) : ℝ × ℝ).1 / (lambertFacs (2 * k) : ℝ × ℝ).2 = (k.centralBinom : ℝ) := by
  unfold lambertFacs
  rw [show 2 * k / 2 = k by omega, lambertFacs_eq]
  have := Nat.ascFactorial_eq_factorial_mul_choose k k
  simp only
  rw [this, Nat.centralBinom, two_mul]
  have hf : ((k.factorial : ℕ) : ℝ) ≠ 0 := by exact_mod_cast Nat.factorial_ne_zero k
  push_cast
  field_simp

/-- Legendre polynomials at 0. -/
theorem leg_at_zero (k : ℕ) :
    (leg (2 * k) : ℝ[X]).eval 0 = (-1) ^ k * (k.centralBinom : ℝ) / 4 ^ k ∧
    (leg (2 * k + 1) : ℝ[X]).eval 0 = 0 := by
  induction k with
  | zero => simp [leg_zero, leg_one]
  | succ k ih =>
    have h1 := congrArg (eval (0 : ℝ)) (bonnet (K := ℝ) (2 * k))
    have h2 := congrArg (eval (0 : ℝ)) (bonnet (K := ℝ) (2 * k + 1))
    simp only [eval_mul, eval_sub, eval_C, eval_X, mul_zero, zero_mul, zero_sub] at h1 h2
    rw [ih.1] at h1
    rw [ih.2, mul_zero, neg_zero] at h2
    have hb : ((k : ℝ) + 1) * ((k + 1).centralBinom : ℝ) = 2 * (2 * k + 1) * (k.centralBinom : ℝ) := by
      exact_mod_cast Nat.succ_mul_centralBinom_succ k
    push_cast at h1 h2
    constructor
    · rw [show 2 * (k + 1) = 2 * k + 2 by ring]
      have hk : (2 * (k : ℝ) + 2) ≠ 0 := by positivity
      apply mul_left_cancel₀ hk
      rw [h1]
      have h4 : ((4 : ℝ) ^ k) ≠ 0 := by positivity
      rw [pow_succ, pow_succ]
      field_simp
      linear_combination 2 * hb
    · rw [show 2 * (k + 1) + 1 = 2 * k + 1 + 2 by ring]
      have hk : (2 * (k : ℝ) + 1 + 2) ≠ 0 := by positivity
      rcases mul_eq_zero.1 h2 with h | h
      · exact absurd h hk
      · exact h

/-- The first moment of a Legendre polynomial over the half interval. -/
theorem leg_moment (n : ℕ) :
    (2 - (n : ℝ) * (n + 1)) * ∫ x in (0 : ℝ)..1, x * (leg n : ℝ[X]).eval x = (leg n : ℝ[X]).eval 0 := by
  set W : ℝ[X] := X * ((1 - X ^ 2) * derivative (leg n)) - (1 - X ^ 2) * leg n with hW
  have hi := integral_derivative W 0 1
  have ho := leg_ode (K := ℝ) n
  have hd : derivative W = C (2 - (n : ℝ) * (n + 1)) * (X * leg n) := by
    rw [derivative_mul] at ho
    rw [hW]
    simp only [derivative_mul, derivative_sub, derivative_one, derivative_X, derivative_X_pow, Nat.cast_ofNat] at ho ⊢
    simp only [C_sub, C_mul, c2] at ho ⊢
    linear_combination -X * ho
  rw [hd] at hi
  simp only [eval_mul, eval_C, eval_X] at hi
  rw [intervalIntegral.integral_const_mul] at hi
  rw [hi, hW]
  simp

theorem half_moment (n : ℕ) :
    ∫ x in (-1 : ℝ)..1, max 0 x * legendre n x = ∫ x in (0 : ℝ)..1, x * (leg n : ℝ[X]).eval x := by
  have hc : Continuous fun x : ℝ => max 0 x * (leg n : ℝ[X]).eval x :=
    (continuous_const.max continuous_id).mul (Polynomial.continuous _)
  simp only [legendre_eq]
  rw [← intervalIntegral.integral_add_adjacent_intervals (b := 0) (hc.intervalIntegrable _ _)
    (hc.intervalIntegrable _ _)]
  have h1 : ∫ x in (-1 : ℝ)..0, max 0 x * (leg n : ℝ[X]).eval x = 0 := by
    have h0 : ∫ _x in (-1 : ℝ)..0, (0 : ℝ) = 0 := by simp
    refine Eq.trans ?_ h0
    apply intervalIntegral.integral_congr
    intro x hx
    rw [Set.uIcc_of_le (by norm_num)] at hx
    simp only
    rw [max_eq_left hx.2, zero_mul]
  rw [h1, zero_add]
  apply intervalIntegral.integral_congr
  intro x hx
  rw [Set.uIcc_of_le (by norm_num)] at hx
  simp only
  rw [max_eq_right hx.1]

/-- The series coefficient of `max(0, cos)` in band `l`. -/
noncomputable def lambertSpec (l : ℕ) : ℝ := (2 * l + 1) / 2 * ∫ x in (-1 : ℝ)..1, max 0 x * legendre l x

theorem lambertSpec_zero : lambertSpec 0 = 1 / 4 := by
  have h := leg_moment 0
  rw [lambertSpec, half_moment]
  simp only [leg_zero, eval_one, mul_one, Nat.cast_zero, mul_zero, zero_mul, zero_add, sub_zero] at h ⊢
  linarith

theorem lambertSpec_one : lambertSpec 1 = 1 / 2 := by
  rw [lambertSpec, half_moment]
  simp only [leg_one, eval_X]
  have : ∫ x in (0 : ℝ)..1, x * x = 1 / 3 := by
    have := integral_pow (a := (0 : ℝ)) (b := 1) 2
    simp only [pow_two] at this
    rw [this]; norm_num
  rw [this]; norm_num

theorem lambertSpec_odd (k : ℕ) : lambertSpec (2 * k + 3) = 0 := by
  have h := leg_moment (2 * k + 3)
  rw [show 2 * k + 3 = 2 * (k + 1) + 1 by ring, (leg_at_zero (k + 1)).2] at h
  rw [lambertSpec, half_moment, show 2 * k + 3 = 2 * (k + 1) + 1 by ring]
  rcases mul_eq_zero.1 h with h | h
  · exfalso
    push_cast at h
    nlinarith [(Nat.cast_nonneg k : (0 : ℝ) ≤ k)]
  · rw [h, mul_zero]

theorem lambertSpec_even (k : ℕ) : lambertSpec (2 * k + 2) = lambertCoeff (2 * k + 2) := by
  have h := leg_moment (2 * k + 2)
  have hz := (leg_at_zero (k + 1)).1
  rw [show 2 * (k + 1) = 2 * k + 2 by ring] at hz
  rw [hz] at h
  have hr := lambert_ratio (k + 1)
  rw [show 2 * (k + 1) = 2 * k + 2 by ring] at hr
  rw [lambertSpec, half_moment]
  unfold lambertCoeff
  simp only
  rw [mul_div_assoc, hr]
  have hb : (2 * k + 2).testBit 1 = decide (k % 2 = 0) := by
    rw [Nat.testBit_eq_decide_div_mod_eq]
    congr 1
    rw [eq_iff_iff]
    omega
  have hp : (2 : ℝ) ^ (2 * k + 2) = 4 ^ (k + 1) := by
    rw [show 2 * k + 2 = 2 * (k + 1) by ring, pow_mul]; norm_num
  rw [hb, hp]
  push_cast at h ⊢
  have h4 : ((4 : ℝ) ^ (k + 1)) ≠ 0 := by positivity
  have hq : (2 - (2 * (k : ℝ) + 2) * (2 * k + 2 + 1)) = -((2 * (k : ℝ) + 2 + 2) * (2 * k + 2 - 1)) := by ring
  rw [hq] at h
  have h5 : ((2 * (k : ℝ) + 2 + 2) * (2 * k + 2 - 1)) ≠ 0 := by
    have : (0 : ℝ) ≤ k := Nat.cast_nonneg k
    have h6 : (0 : ℝ) < 2 * k + 2 - 1 := by linarith
    positivity
  have hI : (∫ x in (0 : ℝ)..1, x * (leg (2 * k + 2) : ℝ[X]).eval x) =
      (-1) ^ k * ((k + 1).centralBinom : ℝ) / 4 ^ (k + 1) / ((2 * (k : ℝ) + 2 + 2) * (2 * k + 2 - 1)) := by
    rw [eq_div_iff h5]
    rw [pow_succ] at h
    linear_combination -h
  rw [hI]
  by_cases hk : k % 2 = 0
  · rw [(Nat.even_iff.2 hk).neg_one_pow]
    simp only [hk, decide_true, if_true]
    ring
  · have hodd : Odd k := Nat.odd_iff.2 (by omega)
    rw [hodd.neg_one_pow]
    simp only [hk, decide_false, Bool.false_eq_true, if_false]
    ring

theorem lambert_eval (z : ZH ℝ) (h : 2 ≤ z.bands) (order : ℤ) (ct : ℕ)
    (hct : ct = if order < 1 then z.bands else (min order z.bands).toNat) :
    ∃ t, z.lambertian order = some t ∧ t.bands = z.bands ∧
      ∀ l < z.bands, t.c l = if l < max ct 2 then lambertSpec l else 0 := by
  have hct2 : ct ≤ z.bands := by rw [hct]; split_ifs <;> omega
  have key : ∀ n, n ≤ (ct - 1) / 2 → ∃ t : ZH ℝ, (List.range n).foldlM
      (fun (t : ZH ℝ) (k : ℕ) => t.put (2 * k + 2) (lambertCoeff (2 * k + 2)))
      ⟨z.bands, Function.update (Function.update (fun _ => 0) 0 (1 / 4)) 1 (1 / 2)⟩ = some t ∧ t.bands = z.bands ∧
      ∀ l < z.bands, t.c l = if l < 2 * n + 2 then lambertSpec l else 0 := by
    intro n
    induction n with
    | zero =>
      intro _
      refine ⟨_, rfl, rfl, ?_⟩
      intro l _
      rcases l with _ | _ | l
      · simp [lambertSpec_zero]
      · simp [lambertSpec_one]
      · simp
    | succ n ih =>
      intro hn
      obtain ⟨t, h1, h2, h3⟩ := ih (by omega)
      refine ⟨⟨t.bands, Function.update t.c (2 * n + 2) (lambertCoeff (2 * n + 2))⟩, ?_, h2, ?_⟩
      · rw [List.range_succ, List.foldlM_append, h1]
        simp only [Option.bind_eq_bind, Option.bind_some, List.foldlM_cons, List.foldlM_nil]
        rw [zput _ (by omega : 2 * n + 2 < t.bands)]
        rfl
      · intro l hl
        simp only
        by_cases e : l = 2 * n + 2
        · subst e
          rw [Function.update_self, if_pos (by omega), lambertSpec_even]
        · rw [Function.update_of_ne e, h3 l hl]
          by_cases e2 : l < 2 * n + 2
          · rw [if_pos e2, if_pos (by omega)]
          · rw [if_neg e2]
            by_cases e3 : l < 2 * (n + 1) + 2
            · rw [if_pos e3, show l = 2 * n + 3 by omega, lambertSpec_odd]
            · rw [if_neg e3]
  obtain ⟨t, h1, h2, h3⟩ := key ((ct - 1) / 2) le_rfl
  refine ⟨t, ?_, h2, ?_⟩
  · unfold ZH.lambertian
    rw [← hct]
    simp only [Option.bind_eq_bind]
    rw [zput (z := ⟨z.bands, fun _ => (0 : ℝ)⟩) _ (by show 0 < z.bands; omega)]
    simp only [Option.bind_some]
    rw [if_pos (by omega), zput _ (by show 1 < z.bands; omega)]
    exact h1
  · intro l hl
    rw [h3 l hl]
    by_cases e : l < max ct 2
    · rw [if_pos e]
      by_cases e2 : l < 2 * ((ct - 1) / 2) + 2
      · rw [if_pos e2]
      · rw [if_neg e2]
        rcases lt_max_iff.1 e with e3 | e3
        · omega
        · omega
    · rw [if_neg e]
      by_cases e2 : l < 2 * ((ct - 1) / 2) + 2
      · rw [if_pos e2]
        have e3 := not_lt.1 e
        have e4 := (max_le_iff.1 e3)
        obtain ⟨k, rfl⟩ : ∃ k, l = 2 * k + 3 := ⟨(l - 3) / 2, by omega⟩
        exact lambertSpec_odd k
      · rw [if_neg e2]

/-- **C93.** `generate_lambertian(order)` stores the Legendre series of the cosine lobe `max(0, cos)`: band
`l` is `(2l+1)/2 ∫ max(0, x) P_l(x) dx` over `[-1, 1]`, for every number of bands and every order other than 1;
an order below 1 uses every band, and bands from `order` on are cleared. -/
theorem C93_lambertian (z : ZH ℝ) (h : 1 ≤ z.bands) (order : ℤ) (ho : order ≠ 1) :
    ∃ t, z.lambertian order = some t ∧ t.bands = z.bands ∧ ∀ l < z.bands,
      t.c l = if order < 1 ∨ (l : ℤ) < order then (2 * l + 1) / 2 * ∫ x in (-1 : ℝ)..1, max 0 x * legendre l x
        else 0 := by
  rcases Nat.lt_or_ge 1 z.bands with hb | hb
  · obtain ⟨t, h1, h2, h3⟩ := lambert_eval z hb order _ rfl
    refine ⟨t, h1, h2, ?_⟩
    intro l hl
    rw [h3 l hl, lambertSpec]
    congr 1
    rw [eq_iff_iff]
    split_ifs with h4
    · simp only [h4, true_or, iff_true]; omega
    · simp only [h4, false_or]; omega
  · have hz : z.bands = 1 := by omega
    unfold ZH.lambertian
    simp only [Option.bind_eq_bind]
    rw [zput (z := ⟨z.bands, fun _ => (0 : ℝ)⟩) _ (by show 0 < z.bands; omega)]
    simp only [Option.bind_some]
    rw [if_neg (by omega)]
    refine ⟨_, rfl, rfl, ?_⟩
    intro l hl
    have : l = 0 := by omega
    subst this
    rw [if_pos (by omega)]
    simp only [Function.update_self]
    rw [← lambertSpec_zero, lambertSpec]

/-- **C93, refuted for `order = 1`**: with two or more bands, asking for one band also fills band 1. -/
theorem C93_lambertian_order_refuted (z : ZH ℝ) (h : 2 ≤ z.bands) :
    ∃ t, z.lambertian 1 = some t ∧ t.c 1 = 1 / 2 := by
  obtain ⟨t, h1, _, h3⟩ := lambert_eval z h 1 _ rfl
  refine ⟨t, h1, ?_⟩
  rw [h3 1 (by omega), if_pos (by omega), lambertSpec_one]

/-- Band 2 of the cosine lobe is `5/16`. -/
example : (lambertCoeff 2 : ℚ) = 5 / 16 ∧ (lambertCoeff 4 : ℚ) = -3 / 32 := by decide +kernel

example : (ZH.lambertian (⟨5, fun _ => 7⟩ : ZH ℚ) (-1)).map (fun t => (List.range 5).map t.c) =
    some [1 / 4, 1 / 2, 5 / 16, 0, -3 / 32] := by decide +kernel

/-! ## `diffuse` -/

/-- `detail::cpow` for real arguments: the real part of the complex power. -/
noncomputable def rcpow (m t : ℝ) : ℝ := ((m : ℂ) ^ (t : ℂ)).re

theorem diffuse_eq (z : ZH ℝ) (t : ℝ) : z.diffuse realFns rcpow t =
    some ⟨z.bands, fun l => if l < z.bands then rcpow (kfac realFns l * z.c l) t / kfac realFns l else z.c l⟩ := by
  unfold ZH.diffuse
  refine zfold (fun l a => rcpow (kfac realFns l * a) t / kfac realFns l) _ z z.bands le_rfl ?_
  intro w l hw hl
  rw [zget (by omega : l < w.bands)]
  simp only [Option.bind_eq_bind, Option.bind_some]
  rw [zput _ (by omega : l < w.bands)]

theorem rcpow_nat (m : ℝ) (n : ℕ) : rcpow m n = m ^ n := by
  unfold rcpow
  rw [Complex.ofReal_natCast, Complex.cpow_natCast, ← Complex.ofReal_pow, Complex.ofReal_re]

theorem rcpow_pos (m : ℝ) (h : 0 < m) (t : ℝ) : rcpow m t = m ^ t := by
  unfold rcpow
  rw [← Complex.ofReal_cpow h.le, Complex.ofReal_re]

/-- **C93.** `diffuse(1)` leaves a zonal function unchanged. -/
theorem C93_diffuse_one (z : ZH ℝ) : z.diffuse realFns rcpow 1 = some z := by
  rw [diffuse_eq]
  congr 1
  cases z with
  | mk b c =>
    congr 1
    funext l
    have h1 := rcpow_nat (kfac realFns l * c l) 1
    rw [Nat.cast_one, pow_one] at h1
    rw [h1, mul_div_cancel_left₀ _ (kfac_pos l).ne', ite_self]

/-- **C93.** Each further unit of `diffuse` is one more `convolve` with the original function: `diffuse(n + 2)`
is the `convolve` of `diffuse(n + 1)` with the function, whatever its coefficients (also negative or zero). -/
theorem C93_diffuse_nat (z : ZH ℝ) (n : ℕ) :
    ∃ w, z.diffuse realFns rcpow ((n + 1 : ℕ) : ℝ) = some w ∧
      w.convolve realFns z = z.diffuse realFns rcpow ((n + 2 : ℕ) : ℝ) := by
  refine ⟨_, diffuse_eq z _, ?_⟩
  rw [diffuse_eq, zconvolve_eq realFns _ z (by exact le_rfl)]
  simp only [rcpow_nat]
  congr 2
  funext l
  have hk := (kfac_pos l).ne'
  by_cases h : l < z.bands
  · simp only [h, if_true]
    field_simp
    ring
  · simp only [h, if_false]

/-- **C93.** For functions with positive coefficients, `diffuse` by `a + b` is `diffuse` by `a` convolved with
`diffuse` by `b`, for all real `a` and `b`. -/
theorem C93_diffuse_add (z : ZH ℝ) (hz : ∀ l < z.bands, 0 < z.c l) (a b : ℝ) :
    ∃ u v, z.diffuse realFns rcpow a = some u ∧ z.diffuse realFns rcpow b = some v ∧
      u.convolve realFns v = z.diffuse realFns rcpow (a + b) := by
  refine ⟨_, _, diffuse_eq z a, diffuse_eq z b, ?_⟩
  rw [diffuse_eq, zconvolve_eq realFns _ _ (by exact le_rfl)]
  congr 2
  funext l
  have hk := kfac_pos l
  by_cases h : l < z.bands
  · simp only [h, if_true]
    have hp : 0 < kfac realFns l * z.c l := mul_pos hk (hz l h)
    rw [rcpow_pos _ hp, rcpow_pos _ hp, rcpow_pos _ hp, Real.rpow_add hp]
    have := hk.ne'
    field_simp
  · simp only [h, if_false]

/-- **C93.** `diffuse(0)` of a function with no zero coefficient is the identity of `convolve`. -/
theorem C93_diffuse_zero (y z : ZH ℝ) (hb : z.bands ≤ y.bands) (hy : ∀ l < y.bands, y.c l ≠ 0) :
    ∃ u, y.diffuse realFns rcpow 0 = some u ∧ z.convolve realFns u = some z := by
  refine ⟨_, diffuse_eq y 0, ?_⟩
  rw [zconvolve_eq realFns _ _ (by exact hb)]
  congr 1
  cases z with
  | mk b c =>
    congr 1
    funext l
    have hk := (kfac_pos l).ne'
    by_cases h : l < b
    · have hl : l < y.bands := lt_of_lt_of_le h hb
      have h0 := rcpow_nat (kfac realFns l * y.c l) 0
      rw [Nat.cast_zero, pow_zero] at h0
      simp only [h, hl, if_true, h0]
      field_simp
    · simp only [h, if_false]

/-- With two bands `1, 1/2`, blurring twice by a half is blurring once. -/
example : ∃ u v, ZH.diffuse realFns rcpow (⟨2, fun l => 1 / ((l : ℝ) + 1)⟩ : ZH ℝ) (1 / 2) = some u ∧
    ZH.diffuse realFns rcpow (⟨2, fun l => 1 / ((l : ℝ) + 1)⟩ : ZH ℝ) (1 / 2) = some v ∧
    u.convolve realFns v = some ⟨2, fun l => 1 / ((l : ℝ) + 1)⟩ := by
  obtain ⟨u, v, h1, h2, h3⟩ := C93_diffuse_add (⟨2, fun l => 1 / ((l : ℝ) + 1)⟩ : ZH ℝ)
    (fun l _ => by positivity) (1 / 2) (1 / 2)
  refine ⟨u, v, h1, h2, ?_⟩
  rw [h3, show (1 / 2 + 1 / 2 : ℝ) = 1 by norm_num, C93_diffuse_one]

/-! ## `normalize` of a zonal function -/

theorem zonal_integral (z : ZH ℝ) (h : 1 ≤ z.bands) (f : ℝ → ℝ) (hf : ∀ u, z.eval u = some (f u)) :
    ∫ _t in (0 : ℝ)..2 * Real.pi, ∫ x in (-1 : ℝ)..1, f x = 4 * Real.pi * z.c 0 := by
  have hf' : ∀ u, f u = ∑ l ∈ Finset.range z.bands, z.c l * (leg l : ℝ[X]).eval u := by
    intro u
    have := hf u
    rw [C71_eval z h] at this
    rw [← Option.some.inj this]
    simp only [legendre_eq]
  have hi : ∫ x in (-1 : ℝ)..1, f x = 2 * z.c 0 := by
    simp only [hf']
    rw [intervalIntegral.integral_finset_sum]
    · simp only [intervalIntegral.integral_const_mul]
      have ho : ∀ l, ∫ x in (-1 : ℝ)..1, (leg l : ℝ[X]).eval x = if l = 0 then 2 else 0 := by
        intro l
        split_ifs with h0
        · subst h0; simp [leg_zero]; norm_num
        · have := orth l 0 h0
          simpa [leg_zero] using this
      simp only [ho]
      rw [Finset.sum_eq_single 0]
      · simp; ring
      · intro l _ hl; rw [if_neg hl, mul_zero]
      · intro hc; exact absurd (Finset.mem_range.2 (by omega)) hc
    · intro l _
      exact ((Polynomial.continuous _).intervalIntegrable _ _).const_mul _
  rw [hi]
  simp
  ring

/-- **C93, refuted for `normalize`**: when band 1 is non-zero, the integral over the sphere after `normalize`
is `4π c₀ / (c₁ √(4π/3))`; it is 1 only for functions with `4π c₀ = √(4π/3) c₁`. -/
theorem C93_normalize_refuted (z : ZH ℝ) (h : 2 ≤ z.bands) (h1 : z.c 1 ≠ 0) :
    ∃ (t : ZH ℝ) (f : ℝ → ℝ), z.normalize realFns = some t ∧ (∀ u, t.eval u = some (f u)) ∧
      ((∫ _t in (0 : ℝ)..2 * Real.pi, ∫ x in (-1 : ℝ)..1, f x) = 1 ↔
        4 * Real.pi * z.c 0 = Real.sqrt (4 * Real.pi / 3) * z.c 1) := by
  have hpi := Real.pi_pos
  have hk : Real.sqrt (4 * Real.pi / 3) ≠ 0 := (Real.sqrt_pos.2 (by positivity)).ne'
  have hnh : z.c 1 * Real.sqrt (4 * Real.pi / 3) ≠ 0 := mul_ne_zero h1 hk
  have e : z.normalize realFns = some ⟨z.bands, fun i => if i < z.bands then
      (if i = 1 then 1 / Real.sqrt (4 * Real.pi / 3) else z.c i / (z.c 1 * Real.sqrt (4 * Real.pi / 3))) else z.c i⟩ := by
    unfold ZH.normalize
    rw [zget (by omega : 1 < z.bands)]
    simp only [Option.bind_eq_bind, Option.bind_some]
    rw [show realFns.sqrt (4 * realFns.pi / 3) = Real.sqrt (4 * Real.pi / 3) from rfl, if_neg hnh,
      zput _ (by omega : 1 < z.bands)]
    simp only [Option.bind_some]
    have := zfold (fun i a => if i = 1 then a else a / (z.c 1 * Real.sqrt (4 * Real.pi / 3)))
      (fun (t : ZH ℝ) (i : ℕ) => if i = 1 then some t else (t.get i).bind fun a =>
        t.put i (a / (z.c 1 * Real.sqrt (4 * Real.pi / 3))))
      ⟨z.bands, Function.update z.c 1 (1 / Real.sqrt (4 * Real.pi / 3))⟩ z.bands le_rfl (by
        intro t l ht hl
        have ht' : t.bands = z.bands := ht
        by_cases e1 : l = 1
        · simp only [e1, if_true]
          rw [Function.update_eq_self]
        · simp only [e1, if_false]
          rw [zget (by omega : l < t.bands)]
          simp only [Option.bind_some]
          rw [zput _ (by omega : l < t.bands)])
    rw [this]
    congr 2
    funext i
    by_cases hi : i = 1
    · subst hi
      simp only [Function.update_self, if_true]
      rw [if_pos (by omega), if_pos (by omega)]
    · simp only [hi, if_false, Function.update_of_ne hi]
  refine ⟨_, _, e, fun u => C71_eval _ (by show 1 ≤ z.bands; omega) u, ?_⟩
  rw [zonal_integral _ (by show 1 ≤ z.bands; omega) _ (fun u => C71_eval _ (by show 1 ≤ z.bands; omega) u)]
  simp only
  rw [if_pos (by omega), if_neg (by norm_num), mul_div_assoc', div_eq_one_iff_eq hnh, mul_comm (z.c 1)]

/-- `1 + cos` has integral `4π` before and `√(12π)` after. -/
example : ∃ (t : ZH ℝ) (f : ℝ → ℝ), ZH.normalize realFns (⟨2, fun _ => 1⟩ : ZH ℝ) = some t ∧
    (∀ u, t.eval u = some (f u)) ∧ (∫ _t in (0 : ℝ)..2 * Real.pi, ∫ x in (-1 : ℝ)..1, f x) ≠ 1 := by
  obtain ⟨t, f, h1, h2, h3⟩ := C93_normalize_refuted (⟨2, fun _ => 1⟩ : ZH ℝ) le_rfl one_ne_zero
  refine ⟨t, f, h1, h2, ?_⟩
  rw [Ne, h3]
  intro hc
  have hpi := Real.pi_gt_three
  have hlt : Real.sqrt (4 * Real.pi / 3) < 4 * Real.pi := by
    rw [Real.sqrt_lt' (by positivity)]
    nlinarith
  simp only [mul_one] at hc
  linarith

/-- **C93, refuted for `normalize`**: a function of one band reads past its coefficients, and a function whose
band 1 is zero is left as it is, whatever its integral. -/
theorem C93_normalize_bands_refuted (z : ZH ℝ) :
    (z.bands = 1 → z.normalize realFns = none) ∧
    (2 ≤ z.bands → z.c 1 = 0 → z.normalize realFns = some z) := by
  constructor
  · intro h
    unfold ZH.normalize
    rw [show z.get 1 = none from if_neg (by omega)]
    rfl
  · intro h h1
    unfold ZH.normalize
    rw [zget (by omega : 1 < z.bands)]
    simp only [Option.bind_eq_bind, Option.bind_some]
    rw [if_pos (by rw [h1, zero_mul])]

end Geomc.SH
