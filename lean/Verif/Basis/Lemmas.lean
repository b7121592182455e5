import Verif.Basis.Model
import Mathlib.Algebra.Polynomial.Derivative
import Mathlib.Algebra.Polynomial.Degree.Lemmas
import Mathlib.Tactic.FieldSimp
import Mathlib.Tactic.LinearCombination
import Mathlib.Tactic.Ring

/-! Legendre polynomials by Bonnet's recurrence, and their differential identities. -/

namespace Geomc.Basis

open Polynomial

variable {K : Type*} [Field K] [CharZero K]

omit [CharZero K] in
theorem c2 : (C (2 : K) : K[X]) = 2 := map_ofNat C 2
omit [CharZero K] in
theorem c3 : (C (3 : K) : K[X]) = 3 := map_ofNat C 3

omit [CharZero K] in
theorem iter_X_mul (m : ℕ) (f : K[X]) : derivative^[m + 1] (X * f) =
    X * derivative^[m + 1] f + ((m + 1 : ℕ) : K[X]) * derivative^[m] f := by
  induction m with
  | zero => simp; ring
  | succ m ih =>
    rw [Function.iterate_succ_apply' derivative (m + 1) (X * f), ih]
    simp only [derivative_add, derivative_mul, derivative_X, derivative_natCast,
      Function.iterate_succ_apply']
    push_cast; ring

/-- Consecutive pair `(P n, P (n+1))`. -/
noncomputable def legPair : ℕ → K[X] × K[X]
  | 0 => (1, X)
  | n + 1 => ((legPair n).2,
      C (((n + 2 : ℕ) : K)⁻¹) * (C ((2 * n + 3 : ℕ) : K) * X * (legPair n).2 - C ((n + 1 : ℕ) : K) * (legPair n).1))

/-- The Legendre polynomial of degree `n`. -/
noncomputable def leg (n : ℕ) : K[X] := (legPair n).1

omit [CharZero K] in
theorem legPair_snd (n : ℕ) : (legPair n : K[X] × K[X]).2 = leg (n + 1) := rfl

omit [CharZero K] in
theorem leg_zero : (leg 0 : K[X]) = 1 := rfl
omit [CharZero K] in
theorem leg_one : (leg 1 : K[X]) = X := rfl

theorem bonnet (n : ℕ) : C ((n : K) + 2) * leg (n + 2) =
    C (2 * (n : K) + 3) * X * leg (n + 1) - C ((n : K) + 1) * leg n := by
  have h : ((n : K) + 2) ≠ 0 := by exact_mod_cast Nat.succ_ne_zero (n + 1)
  have : (leg (n + 2) : K[X]) = C (((n + 2 : ℕ) : K)⁻¹) *
      (C ((2 * n + 3 : ℕ) : K) * X * leg (n + 1) - C ((n + 1 : ℕ) : K) * leg n) := rfl
  rw [this, ← mul_assoc, ← C_mul]
  push_cast
  rw [mul_inv_cancel₀ h, C_1, one_mul]

/-- `P'_{n+1} = x P'_n + (n+1) P_n` and `(x²-1) P'_{n+1} = (n+1)(x P_{n+1} - P_n)`. -/
theorem leg_deriv (n : ℕ) :
    derivative (leg (n + 1) : K[X]) = X * derivative (leg n) + C ((n : K) + 1) * leg n ∧
    (X ^ 2 - 1) * derivative (leg (n + 1) : K[X]) = C ((n : K) + 1) * (X * leg (n + 1) - leg n) ∧
    X * derivative (leg (n + 1) : K[X]) - derivative (leg n) = C ((n : K) + 1) * leg (n + 1) := by
  induction n with
  | zero => simp [leg_zero, leg_one]; ring
  | succ n ih =>
    obtain ⟨hA, hC, hB⟩ := ih
    have hb := bonnet (K := K) n
    have hd := congrArg derivative hb
    simp only [derivative_mul, derivative_sub, derivative_C, derivative_X, zero_mul, zero_add,
      mul_one] at hd
    have h2 : (C ((n : K) + 2)) ≠ 0 := by
      rw [Ne, C_eq_zero]; exact_mod_cast Nat.succ_ne_zero (n + 1)
    have e2 : (C ((n : K) + 2) : K[X]) = C (n : K) + 2 := by simp [c2]
    have e1 : (C ((n : K) + 1) : K[X]) = C (n : K) + 1 := by simp
    have e3 : (C (2 * (n : K) + 3) : K[X]) = 2 * C (n : K) + 3 := by simp [c2, c3]
    have e4 : (C (((n + 1 : ℕ) : K) + 1) : K[X]) = C (n : K) + 2 := by
      push_cast; simp only [C_add, C_1, c2, map_natCast]; ring
    rw [e4]
    rw [e2] at h2
    rw [e1, e2, e3] at hb hd
    rw [e1] at hA hB hC
    have A : derivative (leg (n + 2) : K[X]) =
        X * derivative (leg (n + 1)) + (C (n : K) + 2) * leg (n + 1) := by
      apply mul_left_cancel₀ h2
      linear_combination hd - (C (n : K) + 1) * (-1) * hB
    refine ⟨A, ?_, ?_⟩
    · rw [A]; linear_combination X * hC - X * hb
    · rw [A]; linear_combination hC - hb

omit [CharZero K] in
theorem leg_natDegree_le (n : ℕ) : (leg n : K[X]).natDegree ≤ n ∧ (leg (n + 1) : K[X]).natDegree ≤ n + 1 := by
  induction n with
  | zero => simp [leg_zero, leg_one, natDegree_X_le]
  | succ n ih =>
    refine ⟨ih.2, ?_⟩
    have : (leg (n + 2) : K[X]) = C (((n + 2 : ℕ) : K)⁻¹) *
      (C ((2 * n + 3 : ℕ) : K) * X * leg (n + 1) - C ((n + 1 : ℕ) : K) * leg n) := rfl
    rw [show n + 1 + 1 = n + 2 from rfl, this]
    refine (natDegree_C_mul_le _ _).trans ((natDegree_sub_le _ _).trans (max_le ?_ ?_))
    · rw [mul_assoc]
      refine (natDegree_C_mul_le _ _).trans ((natDegree_mul_le).trans ?_)
      have := ih.2; have := natDegree_X_le (R := K); omega
    · refine (natDegree_C_mul_le _ _).trans ?_
      have := ih.1; omega

/-- `(2n+3) P_{n+1} = P'_{n+2} - P'_n`. -/
theorem leg_deriv_diff (n : ℕ) :
    C (2 * (n : K) + 3) * leg (n + 1) = derivative (leg (n + 2)) - derivative (leg n : K[X]) := by
  obtain ⟨hA, _, _⟩ := leg_deriv (K := K) (n + 1)
  obtain ⟨_, _, hB⟩ := leg_deriv (K := K) n
  have e1 : (C ((n : K) + 1) : K[X]) = C (n : K) + 1 := by simp
  have e3 : (C (2 * (n : K) + 3) : K[X]) = 2 * C (n : K) + 3 := by simp [c2, c3]
  have e4 : (C (((n + 1 : ℕ) : K) + 1) : K[X]) = C (n : K) + 2 := by
    push_cast; simp only [C_add, C_1, c2, map_natCast]; ring
  rw [e4] at hA
  rw [e1] at hB
  rw [e3, show n + 2 = n + 1 + 1 from rfl, hA]
  linear_combination -hB

/-- Legendre's differential equation `((x²-1) P'_n)' = n(n+1) P_n`. -/
theorem leg_ode (n : ℕ) : derivative ((X ^ 2 - 1) * derivative (leg n : K[X])) =
    C ((n : K) * (n + 1)) * leg n := by
  cases n with
  | zero => simp [leg_zero]
  | succ n =>
    obtain ⟨_, hC, hB⟩ := leg_deriv (K := K) n
    rw [hC]
    simp only [derivative_mul, derivative_sub, derivative_C, derivative_X, zero_mul, zero_add, one_mul]
    have e1 : (C ((n : K) + 1) : K[X]) = C (n : K) + 1 := by simp
    have e5 : (C (((n + 1 : ℕ) : K) * ((n + 1 : ℕ) + 1)) : K[X]) = (C (n : K) + 1) * (C (n : K) + 2) := by
      push_cast; simp only [C_add, C_mul, C_1]; ring
    rw [e1] at hB ⊢
    rw [e5]
    linear_combination (C (n : K) + 1) * hB

omit [CharZero K] in
theorem iter_leg_zero (m n : ℕ) (h : n < m) : derivative^[m] (leg n : K[X]) = 0 :=
  iterate_derivative_eq_zero (lt_of_le_of_lt (leg_natDegree_le n).1 h)

/-- Recurrence of the `m`-th derivatives. -/
theorem iter_leg_rec (m n : ℕ) :
    C ((n : K) + 2 - m) * derivative^[m] (leg (n + 2)) =
      C (2 * (n : K) + 3) * X * derivative^[m] (leg (n + 1)) -
      C ((n : K) + 1 + m) * derivative^[m] (leg n) := by
  have hb := congrArg (derivative^[m]) (bonnet (K := K) n)
  rw [iterate_derivative_C_mul, iterate_derivative_sub, mul_assoc, iterate_derivative_C_mul,
    iterate_derivative_C_mul] at hb
  have e0 : (C ((n : K) + 2 - m) : K[X]) = C (n : K) + 2 - C (m : K) := by simp [c2]
  have e2 : (C ((n : K) + 2) : K[X]) = C (n : K) + 2 := by simp [c2]
  have e1 : (C ((n : K) + 1) : K[X]) = C (n : K) + 1 := by simp
  have e3 : (C (2 * (n : K) + 3) : K[X]) = 2 * C (n : K) + 3 := by simp [c2, c3]
  have e5 : (C ((n : K) + 1 + m) : K[X]) = C (n : K) + 1 + C (m : K) := by simp
  cases m with
  | zero =>
    simp only [Function.iterate_zero, id_eq] at hb ⊢
    rw [e0, e3, e5]
    rw [e1, e2, e3] at hb
    simp only [Nat.cast_zero, C_0]
    linear_combination hb
  | succ m =>
    rw [iter_X_mul] at hb
    have hd := congrArg (derivative^[m]) (leg_deriv_diff (K := K) n)
    rw [iterate_derivative_C_mul, iterate_derivative_sub, ← Function.iterate_succ_apply,
      ← Function.iterate_succ_apply] at hd
    rw [e1, e2, e3] at hb
    rw [e3] at hd
    rw [e0, e3, e5]
    have e6 : (C ((m + 1 : ℕ) : K) : K[X]) = ((m + 1 : ℕ) : K[X]) := by simp
    rw [e6]
    linear_combination hb + ((m + 1 : ℕ) : K[X]) * hd

/-- `P_m^{(m)} = (2m-1)!!` up to the sign the code folds in. -/
theorem iter_leg_diag (m : ℕ) : (derivative^[m] (leg m : K[X])) = C ((-1) ^ m * dfact (1 : K) m) ∧
    (derivative^[m + 1] (leg (m + 1) : K[X])) = C ((-1) ^ (m + 1) * dfact (1 : K) (m + 1)) := by
  induction m with
  | zero => simp [leg_zero, leg_one, dfact, c2]; norm_num
  | succ m ih =>
    refine ⟨ih.2, ?_⟩
    have hd := congrArg (derivative^[m + 1]) (leg_deriv_diff (K := K) m)
    rw [iterate_derivative_C_mul, iterate_derivative_sub, ← Function.iterate_succ_apply,
      ← Function.iterate_succ_apply, iter_leg_zero (m + 1).succ m (by omega), sub_zero, ih.2] at hd
    rw [show (m + 1).succ = m + 1 + 1 from rfl] at hd
    rw [show m + 1 + 1 = m + 2 from rfl] at *
    rw [← hd, ← C_mul]
    congr 1
    have : dfact (1 : K) (m + 2) = dfact 1 (m + 1) * (-(((m + 1 + 1 : ℕ) : K) * 2 - 1)) := rfl
    rw [this, pow_succ (-1 : K) (m + 1)]
    push_cast
    ring

theorem iter_leg_sub (m : ℕ) : (derivative^[m] (leg (m + 1) : K[X])) =
    C ((-1) ^ m * dfact (1 : K) m * (2 * m + 1)) * X := by
  cases m with
  | zero => simp [leg_one, dfact]
  | succ m =>
    have hr := iter_leg_rec (K := K) (m + 1) m
    rw [iter_leg_zero (m + 1) m (by omega), (iter_leg_diag (K := K) m).2] at hr
    have e0 : (C ((m : K) + 2 - ((m + 1 : ℕ) : K)) : K[X]) = 1 := by
      push_cast; rw [show (m : K) + 2 - (m + 1) = 1 by ring, C_1]
    rw [e0, one_mul, mul_zero, sub_zero] at hr
    rw [show m + 1 + 1 = m + 2 from rfl, hr]
    have : (C (2 * (m : K) + 3) : K[X]) * X * C ((-1) ^ (m + 1) * dfact (1 : K) (m + 1)) =
      C (2 * (m : K) + 3) * C ((-1) ^ (m + 1) * dfact (1 : K) (m + 1)) * X := by ring
    rw [this, ← C_mul]
    congr 2
    push_cast; ring

theorem leg_eval_one (n : ℕ) : (leg n : K[X]).eval 1 = 1 ∧ (leg (n + 1) : K[X]).eval 1 = 1 := by
  induction n with
  | zero => simp [leg_zero, leg_one]
  | succ n ih =>
    refine ⟨ih.2, ?_⟩
    have hb := congrArg (eval 1) (bonnet (K := K) n)
    simp only [eval_mul, eval_sub, eval_C, eval_X, ih.1, ih.2, mul_one] at hb
    have h : ((n : K) + 2) ≠ 0 := by exact_mod_cast Nat.succ_ne_zero (n + 1)
    apply mul_left_cancel₀ h
    rw [show n + 1 + 1 = n + 2 from rfl, hb]; ring

theorem leg_eval_neg_one (n : ℕ) : (leg n : K[X]).eval (-1) = (-1) ^ n ∧
    (leg (n + 1) : K[X]).eval (-1) = (-1) ^ (n + 1) := by
  induction n with
  | zero => simp [leg_zero, leg_one]
  | succ n ih =>
    refine ⟨ih.2, ?_⟩
    have hb := congrArg (eval (-1)) (bonnet (K := K) n)
    simp only [eval_mul, eval_sub, eval_C, eval_X, ih.1, ih.2] at hb
    have h : ((n : K) + 2) ≠ 0 := by exact_mod_cast Nat.succ_ne_zero (n + 1)
    apply mul_left_cancel₀ h
    rw [show n + 1 + 1 = n + 2 from rfl, hb]
    ring

theorem loop_eq (x : K) (k : ℕ) : legendreLoop x k =
    ((leg k).eval x, (leg (k + 1)).eval x, (leg (k + 1)).eval x) := by
  induction k with
  | zero => simp [legendreLoop, leg_zero, leg_one]
  | succ k ih =>
    rw [legendreLoop, ih]
    have hb := congrArg (eval x) (bonnet (K := K) k)
    simp only [eval_mul, eval_sub, eval_C, eval_X] at hb
    have h : ((k : K) + 2) ≠ 0 := by exact_mod_cast Nat.succ_ne_zero (k + 1)
    have e : ((2 * ((k + 1 : ℕ) : K) + 1) * x * (leg (k + 1)).eval x - ((k + 1 : ℕ) : K) * (leg k).eval x) /
        (((k + 1 : ℕ) : K) + 1) = (leg (k + 1 + 1)).eval x := by
      push_cast
      rw [show (k : K) + 1 + 1 = k + 2 by ring, div_eq_iff h]
      rw [show k + 1 + 1 = k + 2 from rfl]
      linear_combination -hb
    simp only [e]

end Geomc.Basis
