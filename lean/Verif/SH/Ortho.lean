import Verif.SH.Props
import Mathlib.Analysis.SpecialFunctions.Integrals.Basic

/-! # Property C70, continued: the basis functions are orthonormal on the sphere -/

namespace Geomc.SH

open Polynomial Basis

/-- Legendre's equation differentiated `m` times. -/
theorem ode_iter (l m : ℕ) :
    (X ^ 2 - 1) * derivative^[m + 2] (leg l : ℝ[X]) + C (2 * ((m : ℝ) + 1)) * X * derivative^[m + 1] (leg l) =
      C ((l : ℝ) * (l + 1) - m * (m + 1)) * derivative^[m] (leg l) := by
  induction m with
  | zero =>
    have h := leg_ode (K := ℝ) l
    rw [derivative_mul] at h
    simp only [derivative_sub, derivative_one, sub_zero, derivative_X_pow] at h
    simp only [Function.iterate_succ_apply', Function.iterate_zero, id_eq, Nat.zero_add, CharP.cast_eq_zero,
      zero_add, mul_one, zero_mul, sub_zero]
    rw [← h]
    simp only [Nat.cast_ofNat, c2]
    ring
  | succ m ih =>
    have h := congrArg derivative ih
    simp only [derivative_mul, derivative_add, derivative_sub, derivative_one, derivative_C, derivative_X,
      derivative_X_pow, ← Function.iterate_succ_apply' (⇑derivative)] at h
    have e1 : (C (2 * (((m + 1 : ℕ) : ℝ) + 1)) : ℝ[X]) = C (2 * ((m : ℝ) + 1)) + 2 := by
      rw [← c2, ← C_add]; congr 1; push_cast; ring
    have e2 : (C ((l : ℝ) * (l + 1) - ((m + 1 : ℕ) : ℝ) * (((m + 1 : ℕ) : ℝ) + 1)) : ℝ[X]) =
        C ((l : ℝ) * (l + 1) - m * (m + 1)) - C (2 * ((m : ℝ) + 1)) := by
      rw [← C_sub]; congr 1; push_cast; ring
    rw [e1, e2]
    simp only [Nat.cast_ofNat, c2] at h
    linear_combination h

/-- The `m`-th Gram integral. -/
noncomputable def gram (m l l' : ℕ) : ℝ :=
  ∫ x in (-1 : ℝ)..1, ((1 - X ^ 2 : ℝ[X]) ^ m * derivative^[m] (leg l) * derivative^[m] (leg l')).eval x

theorem gram_succ (m l l' : ℕ) : gram (m + 1) l l' = ((l : ℝ) - m) * (l + m + 1) * gram m l l' := by
  set W : ℝ[X] := (1 - X ^ 2) ^ (m + 1) * derivative^[m + 1] (leg l) * derivative^[m] (leg l') with hW
  have hi := integral_derivative W (-1) 1
  have hz : W.eval 1 - W.eval (-1) = 0 := by simp [hW]
  rw [hz] at hi
  have ho := ode_iter l m
  have hd : derivative W = (1 - X ^ 2) ^ (m + 1) * derivative^[m + 1] (leg l) * derivative^[m + 1] (leg l') -
      C (((l : ℝ) - m) * (l + m + 1)) * ((1 - X ^ 2) ^ m * derivative^[m] (leg l) * derivative^[m] (leg l')) := by
    have e : (C (((l : ℝ) - m) * (l + m + 1)) : ℝ[X]) = C ((l : ℝ) * (l + 1) - m * (m + 1)) := by
      congr 1; ring
    rw [hW, e]
    simp only [derivative_mul, derivative_pow, derivative_sub, derivative_one, derivative_X,
      ← Function.iterate_succ_apply' (⇑derivative)]
    have e3 : (C (((m + 1 : ℕ) : ℝ)) : ℝ[X]) = C ((m : ℝ) + 1) := by push_cast; rfl
    have e4 : (C (2 * ((m : ℝ) + 1)) : ℝ[X]) = 2 * C ((m : ℝ) + 1) := by rw [C_mul, c2]
    rw [e4] at ho
    simp only [Nat.add_sub_cancel, e3, Nat.cast_ofNat, c2]
    linear_combination (-((1 - X ^ 2) ^ m * derivative^[m] (leg l'))) * ho
  rw [hd] at hi
  simp only [eval_sub, eval_mul, eval_C] at hi
  rw [intervalIntegral.integral_sub, intervalIntegral.integral_const_mul] at hi
  · have : gram (m + 1) l l' - ((l : ℝ) - m) * (l + m + 1) * gram m l l' = 0 := by
      simpa only [gram, eval_mul] using hi
    linarith
  · simp only [← eval_mul]; exact (Polynomial.continuous _).intervalIntegrable _ _
  · apply IntervalIntegrable.const_mul
    simp only [← eval_mul]; exact (Polynomial.continuous _).intervalIntegrable _ _

theorem gram_eq (m l l' : ℕ) : gram m l l' =
    if l = l' then (∏ i ∈ Finset.range m, (((l : ℝ) - i) * (l + i + 1))) * (2 / (2 * l + 1) : ℝ) else 0 := by
  induction m with
  | zero =>
    have := C64_legendre_orthogonal l l'
    simp only [legendre_eq] at this
    simp only [gram, pow_zero, one_mul, Function.iterate_zero, id_eq, eval_mul, Finset.range_zero,
      Finset.prod_empty]
    rw [this]
    split_ifs with h
    · rw [h]
    · rfl
  | succ m ih =>
    rw [gram_succ, ih]
    split_ifs
    · rw [Finset.prod_range_succ]; ring
    · ring

theorem zprod_eq (l m : ℕ) (h : m ≤ l) :
    (zprod l m : ℝ) = ∏ i ∈ Finset.range m, (((l : ℝ) - i) * (l + i + 1)) := by
  have hf : ∀ n, (List.range n).foldl (fun (z : ℝ) (k : ℕ) => z * ((((l : ℤ) - m + 1 + k : ℤ)) : ℝ)) 1 =
      ∏ k ∈ Finset.range n, ((l : ℝ) - m + 1 + k) := by
    intro n
    induction n with
    | zero => simp
    | succ n ih => rw [List.range_succ, List.foldl_append, ih, Finset.prod_range_succ]; simp
  unfold zprod
  rcases Nat.eq_zero_or_pos l with rfl | hl
  · have : m = 0 := by omega
    subst this; simp
  · rw [if_pos (by omega), hf, two_mul, Finset.prod_range_add, Finset.prod_mul_distrib]
    congr 1
    · rw [← Finset.prod_range_reflect]
      apply Finset.prod_congr rfl
      intro i hi
      have hi' := Finset.mem_range.1 hi
      have : ((m - 1 - i : ℕ) : ℝ) = m - 1 - i := by
        rw [Nat.cast_sub (by omega), Nat.cast_sub (by omega)]; simp
      rw [this]; ring
    · apply Finset.prod_congr rfl
      intro i _
      push_cast; ring

theorem zprod_pos (l m : ℕ) (h : m ≤ l) : 0 < (zprod l m : ℝ) := by
  rw [zprod_eq l m h]
  apply Finset.prod_pos
  intro i hi
  have : (i : ℝ) + 1 ≤ l := by exact_mod_cast (by have := Finset.mem_range.1 hi; omega : i + 1 ≤ l)
  have h1 : (0 : ℝ) < l - i := by linarith
  positivity

theorem assoc_integral (l l' m : ℕ) (h : m ≤ l) (h' : m ≤ l') :
    ∫ x in (-1 : ℝ)..1, assocLegendre realFns.halfPow l m x * assocLegendre realFns.halfPow l' m x =
      if l = l' then (zprod l m : ℝ) * (2 / (2 * l + 1)) else 0 := by
  rw [zprod_eq l m h, ← gram_eq, gram]
  apply intervalIntegral.integral_congr
  intro x hx
  rw [Set.uIcc_of_le (by norm_num)] at hx
  have hy : 0 ≤ 1 - x * x := by nlinarith [hx.1, hx.2]
  simp only
  rw [C64_associated realFns.halfPow l m h x (leg l) (legendre_eq l),
    C64_associated realFns.halfPow l' m h' x (leg l') (legendre_eq l')]
  have hw : ((-1 : ℝ) ^ m * (if m = 0 then 1 else realFns.halfPow m (1 - x * x))) ^ 2 = (1 - x ^ 2) ^ m := by
    rw [mul_pow, ← pow_mul, mul_comm m 2, pow_mul]
    norm_num
    split_ifs with hm
    · subst hm; simp
    · simp only [realFns]
      rw [← Real.rpow_natCast, ← Real.rpow_mul hy]
      rw [show (m : ℝ) / 2 * ((2 : ℕ) : ℝ) = m by push_cast; ring, Real.rpow_natCast]
      congr 1; ring
  simp only [eval_mul, eval_pow, eval_sub, eval_one, eval_X]
  rw [← hw]; ring

theorem int_cos (n : ℤ) : ∫ t in (0 : ℝ)..2 * Real.pi, Real.cos (n * t) = if n = 0 then 2 * Real.pi else 0 := by
  split_ifs with h
  · subst h; simp
  · have hn : (n : ℝ) ≠ 0 := by exact_mod_cast h
    rw [intervalIntegral.integral_comp_mul_left (fun t => Real.cos t) hn, integral_cos]
    have : Real.sin ((n : ℝ) * (2 * Real.pi)) = 0 := by
      rw [show (n : ℝ) * (2 * Real.pi) = ((2 * n : ℤ) : ℝ) * Real.pi by push_cast; ring]
      exact Real.sin_int_mul_pi _
    rw [this]; simp

theorem int_sin (n : ℤ) : ∫ t in (0 : ℝ)..2 * Real.pi, Real.sin (n * t) = 0 := by
  by_cases h : n = 0
  · subst h; simp
  · have hn : (n : ℝ) ≠ 0 := by exact_mod_cast h
    rw [intervalIntegral.integral_comp_mul_left (fun t => Real.sin t) hn, integral_sin]
    have : Real.cos ((n : ℝ) * (2 * Real.pi)) = 1 := Real.cos_int_mul_two_pi _
    rw [this]; simp

theorem cos_ii (n : ℤ) : IntervalIntegrable (fun t : ℝ => Real.cos (n * t)) MeasureTheory.volume 0 (2 * Real.pi) :=
  (Real.continuous_cos.comp (continuous_const.mul continuous_id)).intervalIntegrable _ _

theorem sin_ii (n : ℤ) : IntervalIntegrable (fun t : ℝ => Real.sin (n * t)) MeasureTheory.volume 0 (2 * Real.pi) :=
  (Real.continuous_sin.comp (continuous_const.mul continuous_id)).intervalIntegrable _ _

/-- The azimuthal factor of the basis function. -/
noncomputable def azim (m : ℤ) (t : ℝ) : ℝ :=
  if m > 0 then Real.sqrt 2 * Real.cos (m * t) else if m < 0 then Real.sqrt 2 * Real.sin (-m * t) else 1

theorem azim_integral (m m' : ℤ) :
    ∫ t in (0 : ℝ)..2 * Real.pi, azim m t * azim m' t = if m = m' then 2 * Real.pi else 0 := by
  have s2 : Real.sqrt 2 * Real.sqrt 2 = 2 := Real.mul_self_sqrt (by norm_num)
  have cc : ∀ a b : ℤ, ∫ t in (0 : ℝ)..2 * Real.pi, (Real.sqrt 2 * Real.cos (a * t)) * (Real.sqrt 2 * Real.cos (b * t)) =
      (if a - b = 0 then 2 * Real.pi else 0) + (if a + b = 0 then 2 * Real.pi else 0) := by
    intro a b
    rw [← int_cos, ← int_cos, ← intervalIntegral.integral_add (cos_ii _) (cos_ii _)]
    congr 1; funext t
    push_cast
    rw [sub_mul, add_mul, Real.cos_sub, Real.cos_add]
    linear_combination (Real.cos (a * t) * Real.cos (b * t)) * s2
  have ss : ∀ a b : ℤ, ∫ t in (0 : ℝ)..2 * Real.pi, (Real.sqrt 2 * Real.sin (a * t)) * (Real.sqrt 2 * Real.sin (b * t)) =
      (if a - b = 0 then 2 * Real.pi else 0) - (if a + b = 0 then 2 * Real.pi else 0) := by
    intro a b
    rw [← int_cos, ← int_cos, ← intervalIntegral.integral_sub (cos_ii _) (cos_ii _)]
    congr 1; funext t
    push_cast
    rw [sub_mul, add_mul, Real.cos_sub, Real.cos_add]
    linear_combination (Real.sin (a * t) * Real.sin (b * t)) * s2
  have sc : ∀ a b : ℤ, ∫ t in (0 : ℝ)..2 * Real.pi, (Real.sqrt 2 * Real.sin (a * t)) * (Real.sqrt 2 * Real.cos (b * t)) = 0 := by
    intro a b
    have : (∫ t in (0 : ℝ)..2 * Real.pi, (Real.sqrt 2 * Real.sin (a * t)) * (Real.sqrt 2 * Real.cos (b * t))) =
        ∫ t in (0 : ℝ)..2 * Real.pi, (Real.sin ((a - b : ℤ) * t) + Real.sin ((a + b : ℤ) * t)) := by
      congr 1; funext t
      push_cast
      rw [sub_mul, add_mul, Real.sin_sub, Real.sin_add]
      linear_combination (Real.sin (a * t) * Real.cos (b * t)) * s2
    rw [this, intervalIntegral.integral_add (sin_ii _) (sin_ii _), int_sin, int_sin, add_zero]
  have s1 : ∀ a : ℤ, ∫ t in (0 : ℝ)..2 * Real.pi, Real.sqrt 2 * Real.sin (a * t) = 0 := by
    intro a; rw [intervalIntegral.integral_const_mul, int_sin, mul_zero]
  have c1 : ∀ a : ℤ, a ≠ 0 → ∫ t in (0 : ℝ)..2 * Real.pi, Real.sqrt 2 * Real.cos (a * t) = 0 := by
    intro a ha; rw [intervalIntegral.integral_const_mul, int_cos, if_neg ha, mul_zero]
  have neg : ∀ (a : ℤ) (t : ℝ), -(a : ℝ) * t = ((-a : ℤ) : ℝ) * t := by intro a t; push_cast; ring
  unfold azim
  rcases lt_trichotomy m 0 with h | h | h <;> rcases lt_trichotomy m' 0 with h' | h' | h'
  · simp only [show ¬ m > 0 by omega, show ¬ m' > 0 by omega, h, h', if_true, if_false, neg]
    rw [ss]
    by_cases e : m = m'
    · rw [if_pos (by omega), if_neg (by omega), if_pos e, sub_zero]
    · rw [if_neg (by omega), if_neg (by omega), if_neg e, sub_zero]
  · subst h'
    simp only [show ¬ m > 0 by omega, h, if_true, if_false, lt_irrefl, gt_iff_lt, mul_one, neg]
    rw [s1, if_neg (by omega)]
  · simp only [show ¬ m > 0 by omega, h, h', if_true, if_false, gt_iff_lt, neg]
    rw [sc, if_neg (by omega)]
  · subst h
    simp only [show ¬ m' > 0 by omega, h', if_true, if_false, lt_irrefl, gt_iff_lt, one_mul, neg]
    rw [s1, if_neg (by omega)]
  · subst h h'; simp
  · subst h
    simp only [h', if_true, if_false, lt_irrefl, gt_iff_lt, one_mul]
    rw [c1 m' (by omega), if_neg (by omega)]
  · simp only [show ¬ m' > 0 by omega, h, h', if_true, if_false, gt_iff_lt, neg]
    have := sc (-m') m
    rw [if_neg (by omega)]
    rw [← this]; congr 1; funext t; ring
  · subst h'
    simp only [h, if_true, if_false, lt_irrefl, gt_iff_lt, mul_one]
    rw [c1 m (by omega), if_neg (by omega)]
  · simp only [h, h', if_true, gt_iff_lt]
    rw [cc]
    by_cases e : m = m'
    · rw [if_pos (by omega), if_neg (by omega), if_pos e, add_zero]
    · rw [if_neg (by omega), if_neg (by omega), if_neg e, add_zero]

theorem shCoeff_split (l : ℕ) (m : ℤ) (x t : ℝ) :
    shCoeff realFns l m x t = azim m t * (knorm realFns l m.natAbs *
      assocLegendre realFns.halfPow l m.natAbs x) := by
  unfold shCoeff azim knorm
  simp only [mul_div_assoc]
  rcases lt_trichotomy m 0 with h | h | h
  · simp only [show ¬ m > 0 by omega, h, if_true, if_false]
    simp only [realFns]; ring
  · subst h; simp
  · simp only [h, if_true]
    simp only [realFns]; ring

/-- **C70.** The basis functions `spherical_harmonic_coeff(l, m, ·)` are orthonormal on the unit sphere
(measure `d cos_alt d azi`), for all degrees and orders. -/
theorem C70_orthonormal (l l' : ℕ) (m m' : ℤ) (h : |m| ≤ l) (h' : |m'| ≤ l') :
    ∫ t in (0 : ℝ)..2 * Real.pi, ∫ x in (-1 : ℝ)..1,
      shCoeff realFns l m x t * shCoeff realFns l' m' x t = if l = l' ∧ m = m' then 1 else 0 := by
  have hm : m.natAbs ≤ l := by have := abs_le.1 h; omega
  have hm' : m'.natAbs ≤ l' := by have := abs_le.1 h'; omega
  have e : ∀ t x : ℝ, shCoeff realFns l m x t * shCoeff realFns l' m' x t =
      (azim m t * azim m' t) * ((knorm realFns l m.natAbs * knorm realFns l' m'.natAbs) *
        (assocLegendre realFns.halfPow l m.natAbs x * assocLegendre realFns.halfPow l' m'.natAbs x)) := by
    intro t x; rw [shCoeff_split, shCoeff_split]; ring
  simp only [e, intervalIntegral.integral_const_mul]
  rw [intervalIntegral.integral_mul_const, azim_integral]
  by_cases hmm : m = m'
  · subst hmm
    rw [if_pos rfl, assoc_integral l l' m.natAbs hm hm']
    by_cases hl : l = l'
    · subst hl
      rw [if_pos rfl, if_pos ⟨rfl, rfl⟩]
      unfold knorm
      simp only [realFns]
      have hz := zprod_pos l m.natAbs hm
      have hpi := Real.pi_pos
      rw [Real.mul_self_sqrt (by positivity)]
      have hl1 : (2 * (l : ℝ) + 1) ≠ 0 := by positivity
      field_simp
      norm_num
    · rw [if_neg hl, if_neg (fun hc => hl hc.1)]; simp
  · rw [if_neg hmm, if_neg (fun hc => hmm hc.2), zero_mul]

end Geomc.SH
