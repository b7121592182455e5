import Verif.Basis.Lemmas
import Mathlib.RingTheory.Polynomial.Chebyshev
import Mathlib.Analysis.SpecialFunctions.Integrals.Basic
import Mathlib.Analysis.Calculus.Deriv.Polynomial
import Mathlib.Topology.Algebra.Polynomial
import Mathlib.Algebra.CharZero.Infinite
import Mathlib.Analysis.SpecialFunctions.Trigonometric.Deriv

/-! # Property C64: Chebyshev and Legendre polynomials -/

namespace Geomc.Basis

open Polynomial

variable {K : Type*} [Field K]

theorem cheb_loop_T (x : K) (k : ℕ) : chebyshevLoop 1 x k =
    ((Chebyshev.T K k).eval x, (Chebyshev.T K (k + 1)).eval x, (Chebyshev.T K (k + 1)).eval x) := by
  induction k with
  | zero => simp [chebyshevLoop]
  | succ k ih =>
    rw [chebyshevLoop, ih]
    have h := congrArg (eval x) (Chebyshev.T_add_two K (k : ℤ))
    simp only [eval_sub, eval_mul, eval_X, eval_ofNat] at h
    push_cast
    rw [show (k : ℤ) + 1 + 1 = k + 2 by ring, h]

theorem cheb_loop_U (x : K) (k : ℕ) : chebyshevLoop 2 x k =
    ((Chebyshev.U K k).eval x, (Chebyshev.U K (k + 1)).eval x, (Chebyshev.U K (k + 1)).eval x) := by
  induction k with
  | zero => simp [chebyshevLoop]
  | succ k ih =>
    rw [chebyshevLoop, ih]
    have h := congrArg (eval x) (Chebyshev.U_add_two K (k : ℤ))
    simp only [eval_sub, eval_mul, eval_X, eval_ofNat] at h
    push_cast
    rw [show (k : ℤ) + 1 + 1 = k + 2 by ring, h]

/-- **C64.** `chebyshev(1, n, x)` and `chebyshev(2, n, x)` are the Chebyshev polynomials of the first and
second kind at `x`, for every degree. -/
theorem C64_chebyshev (n : ℕ) (x : K) :
    chebyshev 1 n x = (Chebyshev.T K n).eval x ∧ chebyshev 2 n x = (Chebyshev.U K n).eval x := by
  unfold chebyshev
  cases n with
  | zero => simp
  | succ n =>
    have h : ¬ ((n + 1 : ℕ) : ℤ) ≤ 0 := by push_cast; omega
    rw [if_neg h, if_neg h]
    simp only [Int.toNat_natCast, Nat.add_sub_cancel, Int.cast_one, Int.cast_ofNat, cheb_loop_T,
      cheb_loop_U]
    push_cast
    exact ⟨rfl, rfl⟩

theorem cheb_cos (θ : ℝ) (k : ℕ) : chebyshevLoop 1 (Real.cos θ) k =
    (Real.cos (k * θ), Real.cos ((k + 1) * θ), Real.cos ((k + 1) * θ)) := by
  induction k with
  | zero => simp [chebyshevLoop]
  | succ k ih =>
    rw [chebyshevLoop, ih]
    have h : 2 * Real.cos θ * Real.cos ((k + 1) * θ) - Real.cos (k * θ) = Real.cos ((k + 1 + 1) * θ) := by
      rw [show ((k : ℝ) + 1 + 1) * θ = (k + 1) * θ + θ by ring, show (k : ℝ) * θ = (k + 1) * θ - θ by ring,
        Real.cos_add, Real.cos_sub]
      ring
    push_cast
    rw [h]

theorem cheb_sin (θ : ℝ) (k : ℕ) :
    (chebyshevLoop 2 (Real.cos θ) k).1 * Real.sin θ = Real.sin ((k + 1) * θ) ∧
    (chebyshevLoop 2 (Real.cos θ) k).2.1 * Real.sin θ = Real.sin ((k + 2) * θ) ∧
    (chebyshevLoop 2 (Real.cos θ) k).2.2 * Real.sin θ = Real.sin ((k + 2) * θ) := by
  induction k with
  | zero =>
    simp only [chebyshevLoop]
    norm_num
    rw [Real.sin_two_mul]; ring
  | succ k ih =>
    obtain ⟨h1, h2, _⟩ := ih
    have h : 2 * Real.cos θ * Real.sin ((k + 2) * θ) - Real.sin ((k + 1) * θ) =
        Real.sin ((k + 3) * θ) := by
      rw [show ((k : ℝ) + 3) * θ = (k + 2) * θ + θ by ring,
        show ((k : ℝ) + 1) * θ = (k + 2) * θ - θ by ring, Real.sin_add, Real.sin_sub]
      ring
    have h' : (2 * Real.cos θ * (chebyshevLoop 2 (Real.cos θ) k).2.1 -
        (chebyshevLoop 2 (Real.cos θ) k).1) * Real.sin θ = Real.sin ((k + 3) * θ) := by
      rw [← h, ← h1, ← h2]; ring
    rw [chebyshevLoop]
    refine ⟨?_, ?_, ?_⟩
    · push_cast; rw [show (k : ℝ) + 1 + 1 = k + 2 by ring]; exact h2
    · push_cast; rw [show (k : ℝ) + 1 + 2 = k + 3 by ring]; exact h'
    · push_cast; rw [show (k : ℝ) + 1 + 2 = k + 3 by ring]; exact h'

/-- **C64.** The defining trigonometric identities: `T_n(cos θ) = cos nθ` and
`U_n(cos θ) sin θ = sin (n+1)θ`. -/
theorem C64_chebyshev_trig (n : ℕ) (θ : ℝ) :
    chebyshev 1 n (Real.cos θ) = Real.cos (n * θ) ∧
    chebyshev 2 n (Real.cos θ) * Real.sin θ = Real.sin ((n + 1) * θ) := by
  unfold chebyshev
  cases n with
  | zero => simp
  | succ n =>
    have h : ¬ ((n + 1 : ℕ) : ℤ) ≤ 0 := by push_cast; omega
    rw [if_neg h, if_neg h]
    simp only [Int.toNat_natCast, Nat.add_sub_cancel, Int.cast_one, Int.cast_ofNat, cheb_cos]
    refine ⟨by push_cast; rfl, ?_⟩
    rw [(cheb_sin θ n).2.2]
    push_cast; ring_nf

example : chebyshev 1 4 (3 : ℚ) = 577 ∧ chebyshev 2 3 (3 : ℚ) = 204 := by
  decide +kernel

section char
variable [CharZero K]

theorem legendre_eq (n : ℕ) (x : K) : legendre n x = (leg n).eval x := by
  unfold legendre
  cases n with
  | zero => simp [leg_zero]
  | succ n =>
    rw [if_neg (by push_cast; omega)]
    simp [loop_eq]

/-- **C64.** `legendre(n, ·)` is a polynomial function of degree at most `n` which is 1 at 1 and
`(-1)^n` at -1. -/
theorem C64_legendre_poly (n : ℕ) :
    (∃ p : K[X], p.natDegree ≤ n ∧ ∀ x, legendre n x = p.eval x) ∧
    legendre n (1 : K) = 1 ∧ legendre n (-1 : K) = (-1) ^ n :=
  ⟨⟨leg n, (leg_natDegree_le n).1, legendre_eq n⟩, by rw [legendre_eq, (leg_eval_one n).1],
    by rw [legendre_eq, (leg_eval_neg_one n).1]⟩

end char

theorem integral_derivative (p : ℝ[X]) (a b : ℝ) :
    ∫ x in a..b, (derivative p).eval x = p.eval b - p.eval a := by
  apply intervalIntegral.integral_eq_sub_of_hasDerivAt
  · intro x _; exact p.hasDerivAt x
  · exact ((derivative p).continuous).intervalIntegrable _ _

theorem orth (m n : ℕ) (h : m ≠ n) : ∫ x in (-1 : ℝ)..1, (leg m : ℝ[X]).eval x * (leg n).eval x = 0 := by
  have hm := leg_ode (K := ℝ) m
  have hn := leg_ode (K := ℝ) n
  set W : ℝ[X] := (X ^ 2 - 1) * derivative (leg m) * leg n - (X ^ 2 - 1) * derivative (leg n) * leg m
    with hW
  have hd : derivative W = C ((m : ℝ) * (m + 1) - n * (n + 1)) * (leg m * leg n) := by
    rw [hW, derivative_sub, derivative_mul, derivative_mul (f := (X ^ 2 - 1) * derivative (leg n)), hm, hn,
      C_sub]
    ring
  have hi := integral_derivative W (-1) 1
  rw [hd] at hi
  have hz : W.eval 1 - W.eval (-1) = 0 := by simp [hW]
  rw [hz] at hi
  simp only [eval_mul, eval_C] at hi
  rw [intervalIntegral.integral_const_mul] at hi
  rcases mul_eq_zero.1 hi with h0 | h0
  · exfalso
    apply h
    have : (m : ℝ) * (m + 1) - n * (n + 1) = (m - n) * (m + n + 1) := by ring
    rw [this] at h0
    rcases mul_eq_zero.1 h0 with h1 | h1
    · exact_mod_cast sub_eq_zero.1 h1
    · exfalso; have : (0 : ℝ) < m + n + 1 := by positivity
      linarith
  · exact h0

theorem ii (p q : ℝ[X]) : IntervalIntegrable (fun x => p.eval x * q.eval x) MeasureTheory.volume (-1) 1 :=
  (p.continuous.mul q.continuous).intervalIntegrable _ _

theorem norm_leg (n : ℕ) : ∫ x in (-1 : ℝ)..1, (leg n : ℝ[X]).eval x * (leg n).eval x = 2 / (2 * n + 1) := by
  have step : ∀ n : ℕ, (∫ x in (-1 : ℝ)..1, (leg (n + 2) : ℝ[X]).eval x * (leg (n + 2)).eval x) =
      (2 * n + 3) / (2 * n + 5) * ∫ x in (-1 : ℝ)..1, (leg (n + 1) : ℝ[X]).eval x * (leg (n + 1)).eval x := by
    intro n
    have b1 := bonnet (K := ℝ) n
    have b2 := bonnet (K := ℝ) (n + 1)
    have o1 := orth (n + 2) n (by omega)
    have o2 := orth (n + 1) (n + 3) (by omega)
    have e1 : ∫ x in (-1 : ℝ)..1, ((n : ℝ) + 2) * ((leg (n + 2) : ℝ[X]).eval x * (leg (n + 2)).eval x) =
        ∫ x in (-1 : ℝ)..1, ((2 * n + 3) * ((X * leg (n + 1)).eval x * (leg (n + 2)).eval x) -
          (n + 1) * ((leg (n + 2) : ℝ[X]).eval x * (leg n).eval x)) := by
      congr 1; funext x
      have := congrArg (eval x) b1
      simp only [eval_mul, eval_sub, eval_C, eval_X] at this ⊢
      linear_combination (leg (n + 2)).eval x * this
    have e2 : ∫ x in (-1 : ℝ)..1, ((n : ℝ) + 3) * ((leg (n + 1) : ℝ[X]).eval x * (leg (n + 3)).eval x) =
        ∫ x in (-1 : ℝ)..1, ((2 * n + 5) * ((X * leg (n + 1)).eval x * (leg (n + 2)).eval x) -
          (n + 2) * ((leg (n + 1) : ℝ[X]).eval x * (leg (n + 1)).eval x)) := by
      congr 1; funext x
      have := congrArg (eval x) b2
      simp only [eval_mul, eval_sub, eval_C, eval_X] at this ⊢
      push_cast at this
      rw [show n + 1 + 2 = n + 3 from rfl, show n + 1 + 1 = n + 2 from rfl] at this
      linear_combination (leg (n + 1)).eval x * this
    rw [intervalIntegral.integral_sub ((ii _ _).const_mul _) ((ii _ _).const_mul _),
      intervalIntegral.integral_const_mul, intervalIntegral.integral_const_mul,
      intervalIntegral.integral_const_mul] at e1 e2
    rw [o1] at e1
    rw [o2] at e2
    have p2 : (n : ℝ) + 2 ≠ 0 := by positivity
    have p5 : 2 * (n : ℝ) + 5 ≠ 0 := by positivity
    generalize (∫ x in (-1 : ℝ)..1, (leg (n + 2) : ℝ[X]).eval x * (leg (n + 2)).eval x) = A at *
    generalize (∫ x in (-1 : ℝ)..1, (leg (n + 1) : ℝ[X]).eval x * (leg (n + 1)).eval x) = B at *
    field_simp
    have p2' : ((n : ℝ) + 2) ≠ 0 := p2
    apply mul_left_cancel₀ p2'
    linear_combination (2 * (n : ℝ) + 5) * e1 - (2 * (n : ℝ) + 3) * e2
  have h0 : ∫ x in (-1 : ℝ)..1, (leg 0 : ℝ[X]).eval x * (leg 0).eval x = 2 := by
    simp [leg_zero]; norm_num
  have h1 : ∀ n : ℕ, ∫ x in (-1 : ℝ)..1, (leg (n + 1) : ℝ[X]).eval x * (leg (n + 1)).eval x =
      2 / (2 * n + 3) := by
    intro n
    induction n with
    | zero =>
      simp only [leg_one, eval_X, Nat.zero_add]
      have : ∀ x : ℝ, x * x = x ^ 2 := fun x => by ring
      simp only [this, integral_pow]
      norm_num
    | succ n ih =>
      rw [show n + 1 + 1 = n + 2 from rfl, step, ih]
      have : 2 * (n : ℝ) + 3 ≠ 0 := by positivity
      have : 2 * (n : ℝ) + 5 ≠ 0 := by positivity
      push_cast
      rw [show 2 * ((n : ℝ) + 1) + 3 = 2 * n + 5 by ring]
      field_simp
  cases n with
  | zero => rw [h0]; norm_num
  | succ n => rw [h1]; push_cast; ring_nf

/-- **C64.** The functions `legendre(n, ·)` are pairwise orthogonal on [-1, 1] with squared norm
`2/(2n+1)`; together with the degree bound and the value at 1 this determines the Legendre polynomials. -/
theorem C64_legendre_orthogonal (m n : ℕ) :
    ∫ x in (-1 : ℝ)..1, legendre m x * legendre n x = if m = n then (2 / (2 * n + 1) : ℝ) else 0 := by
  simp only [legendre_eq]
  split_ifs with h
  · subst h; exact norm_leg m
  · exact orth m n h

/-- **C64.** `legendre_integral(n, x)` is the integral of `legendre(n, ·)` from -1 to `x`. -/
theorem C64_legendre_integral (n : ℕ) (x : ℝ) :
    legendreIntegral n x = ∫ t in (-1 : ℝ)..x, legendre n t := by
  simp only [legendre_eq]
  cases n with
  | zero => simp [legendreIntegral, leg_zero]
  | succ n =>
    unfold legendreIntegral
    rw [if_neg (by push_cast; omega)]
    simp only [Int.toNat_natCast, Nat.add_sub_cancel, loop_eq]
    have hd := leg_deriv_diff (K := ℝ) n
    have hi := integral_derivative (leg (n + 2) - leg n) (-1) x
    rw [derivative_sub, ← hd] at hi
    simp only [eval_mul, eval_C, eval_sub] at hi
    rw [intervalIntegral.integral_const_mul, (leg_eval_neg_one (K := ℝ) n).1,
      (leg_eval_neg_one (K := ℝ) (n + 1)).2] at hi
    have hb := congrArg (eval x) (bonnet (K := ℝ) n)
    simp only [eval_mul, eval_sub, eval_C, eval_X] at hb
    have p3 : 2 * (n : ℝ) + 3 ≠ 0 := by positivity
    have p2 : (n : ℝ) + 2 ≠ 0 := by positivity
    push_cast
    rw [show (n : ℝ) + 1 + 1 = n + 2 by ring, show 2 * ((n : ℝ) + 1) + 1 = 2 * n + 3 by ring]
    rw [div_eq_iff p3, sub_eq_iff_eq_add, div_eq_iff p2]
    linear_combination (-1 : ℝ) * hb - (n + 2) * hi

section char
variable [CharZero K]

/-- **C64.** For `0 ≤ m ≤ l`, `legendre(l, m, x)` is the associated Legendre function with the
Condon-Shortley phase: `(-1)^m (1-x²)^(m/2)` times the `m`-th derivative of the Legendre polynomial. -/
theorem C64_associated (halfPow : ℕ → K → K) (l m : ℕ) (h : m ≤ l) (x : K) (p : K[X])
    (hp : ∀ x : K, legendre l x = p.eval x) :
    assocLegendre halfPow l m x =
      (-1) ^ m * (if m = 0 then 1 else halfPow m (1 - x * x)) * (derivative^[m] p).eval x := by
  haveI : Infinite K := CharZero.infinite K
  have hpl : p = leg l := by
    apply Polynomial.funext
    intro y
    rw [← hp, legendre_eq]
  subst hpl
  set w := (-1) ^ m * (if m = 0 then 1 else halfPow m (1 - x * x)) with hw
  have hs : ((-1 : K) ^ m) * (-1) ^ m = 1 := by rw [← mul_pow]; simp
  have h0 : pmm halfPow m x = w * (derivative^[m] (leg m : K[X])).eval x := by
    rw [(iter_leg_diag m).1, eval_C, hw, pmm]
    rcases Nat.eq_zero_or_pos m with rfl | hm
    · simp [dfact]
    · rw [if_pos hm, if_neg (by omega)]
      linear_combination (-(dfact (1 : K) m * halfPow m (1 - x * x))) * hs
  have h1 : x * (2 * (m : K) + 1) * pmm halfPow m x = w * (derivative^[m] (leg (m + 1) : K[X])).eval x := by
    rw [h0, (iter_leg_diag m).1, iter_leg_sub, eval_C, eval_mul, eval_C, eval_X]; ring
  have h2 : ∀ k, assocLoop m x (pmm halfPow m x) (x * (2 * (m : K) + 1) * pmm halfPow m x) k =
      (w * (derivative^[m] (leg (m + k) : K[X])).eval x,
       w * (derivative^[m] (leg (m + k + 1) : K[X])).eval x) := by
    intro k
    induction k with
    | zero => rw [assocLoop, h1, h0]; rfl
    | succ k ih =>
      rw [assocLoop, ih]
      have hr := congrArg (eval x) (iter_leg_rec (K := K) m (m + k))
      simp only [eval_mul, eval_sub, eval_C, eval_X] at hr
      have hne : ((k : K) + 2) ≠ 0 := by exact_mod_cast Nat.succ_ne_zero (k + 1)
      push_cast at hr ⊢
      rw [show m + (k + 1) = m + k + 1 from rfl]
      congr 1
      rw [show (m : K) + 2 + k - m = k + 2 by ring, div_eq_iff hne]
      rw [show m + k + 1 + 1 = m + k + 2 from rfl]
      linear_combination (-w) * hr
  unfold assocLegendre
  by_cases e0 : l = m
  · subst e0; simp only [if_true]; exact h0
  · by_cases e1 : l = m + 1
    · subst e1
      simp only [Nat.succ_ne_self, if_false, if_true]
      exact h1
    · simp only [e0, e1, if_false]
      obtain ⟨k, rfl⟩ : ∃ k, l = m + k + 1 := ⟨l - m - 1, by omega⟩
      rw [show m + k + 1 - (m + 1) = k by omega, h2]

/-- **C64.** The two overloads agree: `legendre(l, 0, x) = legendre(l, x)`. -/
theorem C64_overloads (halfPow : ℕ → K → K) (l : ℕ) (x : K) :
    assocLegendre halfPow l 0 x = legendre l x := by
  rw [C64_associated halfPow l 0 (Nat.zero_le _) x (leg l) (legendre_eq l), legendre_eq]
  simp

end char

example : legendre 3 (2 : ℚ) = 17 ∧ legendreIntegral 2 (2 : ℚ) = 3 := by
  decide +kernel

example : assocLegendre (fun m y => (y : ℚ) ^ (m / 2)) 3 2 (2 : ℚ) = 15 * 2 * (1 - 2 * 2) := by
  norm_num [assocLegendre, assocLoop, pmm, dfact]

end Geomc.Basis
