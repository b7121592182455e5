import Verif.SH.Ortho

/-! # The addition theorem: summing products of basis functions over a band gives a Legendre polynomial -/

namespace Geomc.SH

open Polynomial Basis

/-- The `m`-th derivative of the Legendre polynomial of degree `l`, at `x`. -/
noncomputable def dleg (m l : ℕ) (x : ℝ) : ℝ := (derivative^[m] (leg l : ℝ[X])).eval x

theorem dleg_zero {m l : ℕ} (h : l < m) (x : ℝ) : dleg m l x = 0 := by
  rw [dleg, iter_leg_zero m l h, eval_zero]

theorem dleg_rec (m n : ℕ) (x : ℝ) :
    (2 * (n : ℝ) + 3) * (x * dleg m (n + 1) x) =
      ((n : ℝ) + 2 - m) * dleg m (n + 2) x + ((n : ℝ) + 1 + m) * dleg m n x := by
  have h := congrArg (eval x) (iter_leg_rec (K := ℝ) m n)
  simp only [eval_mul, eval_sub, eval_C, eval_X] at h
  unfold dleg
  linear_combination -h

theorem dleg_diff (m n : ℕ) (x : ℝ) :
    (2 * (n : ℝ) + 3) * dleg m (n + 1) x = dleg (m + 1) (n + 2) x - dleg (m + 1) n x := by
  have h := congrArg (derivative^[m]) (leg_deriv_diff (K := ℝ) n)
  rw [iterate_derivative_C_mul, iterate_derivative_sub, ← Function.iterate_succ_apply,
    ← Function.iterate_succ_apply] at h
  have h := congrArg (eval x) h
  simp only [eval_mul, eval_sub, eval_C] at h
  exact h

theorem dleg_up (m n : ℕ) (x : ℝ) :
    (2 * (n : ℝ) + 3) * ((1 - x * x) * dleg (m + 1) (n + 1) x) =
      ((n : ℝ) + 1 + m) * ((n : ℝ) + 2 + m) * dleg m n x -
        ((n : ℝ) + 1 - m) * ((n : ℝ) + 2 - m) * dleg m (n + 2) x := by
  cases m with
  | zero =>
    have h := congrArg (eval x) (leg_deriv (K := ℝ) n).2.1
    have hr := dleg_rec 0 n x
    simp only [eval_mul, eval_sub, eval_C, eval_X, eval_pow, eval_one] at h
    simp only [dleg, Function.iterate_zero, id_eq, Nat.cast_zero, Function.iterate_one, zero_add] at hr ⊢
    linear_combination (-(2 * (n : ℝ) + 3)) * h - ((n : ℝ) + 1) * hr
  | succ m =>
    have h := congrArg (eval x) (ode_iter (n + 1) m)
    simp only [eval_mul, eval_add, eval_sub, eval_C, eval_X, eval_pow, eval_one] at h
    have hr := dleg_rec (m + 1) n x
    have hd := dleg_diff m n x
    unfold dleg at *
    push_cast at *
    linear_combination (-(2 * (n : ℝ) + 3)) * h + (2 * ((m : ℝ) + 1)) * hr -
      (((n : ℝ) + 1) * (n + 1 + 1) - m * (m + 1)) * hd

/-- `(l-m)! / (l+m)!`. -/
noncomputable def wt (l m : ℕ) : ℝ := (∏ i ∈ Finset.range m, (((l : ℝ) - i) * (l + i + 1)))⁻¹

theorem wt_zero (l : ℕ) : wt l 0 = 1 := by simp [wt]

theorem wt_succ (l m : ℕ) : wt l (m + 1) = wt l m / (((l : ℝ) - m) * (l + m + 1)) := by
  rw [wt, wt, Finset.prod_range_succ, mul_inv, div_eq_mul_inv]

theorem wt_up (l m : ℕ) (h : m ≤ l) : wt (l + 1) m * ((l : ℝ) + 1 + m) = wt l m * ((l : ℝ) + 1 - m) := by
  induction m with
  | zero => simp [wt_zero]
  | succ m ih =>
    have h0 := ih (by omega)
    rw [wt_succ, wt_succ]
    have hm : (m : ℝ) + 1 ≤ l := by exact_mod_cast h
    have h1 : ((l : ℝ) - m) ≠ 0 := by linarith
    have h2 : ((l : ℝ) + m + 1) ≠ 0 := by positivity
    have h3 : ((l : ℝ) + 1 - m) ≠ 0 := by linarith
    have h4 : ((l : ℝ) + 1 + m + 1) ≠ 0 := by positivity
    push_cast
    have a : wt (l + 1) m / (((l : ℝ) + 1 - m) * (l + 1 + m + 1)) * ((l : ℝ) + 1 + (m + 1)) =
        wt (l + 1) m / ((l : ℝ) + 1 - m) := by
      rw [show (l : ℝ) + 1 + (m + 1) = l + 1 + m + 1 by ring, ← div_div, div_mul_cancel₀ _ h4]
    have b : wt l m / (((l : ℝ) - m) * (l + m + 1)) * ((l : ℝ) + 1 - (m + 1)) = wt l m / ((l : ℝ) + m + 1) := by
      rw [show (l : ℝ) + 1 - (m + 1) = l - m by ring, mul_comm ((l : ℝ) - m), ← div_div, div_mul_cancel₀ _ h1]
    rw [a, b, div_eq_div_iff h3 h2]
    linear_combination h0

/-- The terms of the addition formula. -/
noncomputable def aterm (x y q : ℝ) (l m : ℕ) : ℝ := wt l m * q ^ m * (dleg m l x * dleg m l y)

theorem aterm_zero {l m : ℕ} (h : l < m) (x y q : ℝ) : aterm x y q l m = 0 := by
  rw [aterm, dleg_zero h, zero_mul, mul_zero]

theorem core (l m w U V U' V' p p' q q' r r' : ℝ)
    (hl : 2 * l + 1 ≠ 0) (h1 : l - m ≠ 0) (h2 : l + m + 1 ≠ 0)
    (hp : (2 * l + 1) * p = (l + 1 - m) * U + (l + m) * V)
    (hp' : (2 * l + 1) * p' = (l + 1 - m) * U' + (l + m) * V')
    (hq : (2 * l + 1) * q = U - V) (hq' : (2 * l + 1) * q' = U' - V')
    (hr : (2 * l + 1) * r = (l + m) * (l + m + 1) * V - (l - m) * (l + 1 - m) * U)
    (hr' : (2 * l + 1) * r' = (l + m) * (l + m + 1) * V' - (l - m) * (l + 1 - m) * U') :
    (2 * l + 1) * (w * (p * p') + 1 / 2 * (w * ((l + 1 - m) * (l + m)) * (q * q') +
      w / ((l - m) * (l + m + 1)) * (r * r'))) =
      (l + 1) * (w * (l + 1 - m) / (l + m + 1)) * (U * U') + l * (w * (l + m) / (l - m)) * (V * V') := by
  have e : ∀ {a b : ℝ}, (2 * l + 1) * a = b → a = b / (2 * l + 1) := by
    intro a b h; rw [eq_div_iff hl]; linarith
  rw [e hp, e hp', e hq, e hq', e hr, e hr']
  field_simp
  ring

/-- The identity between neighbouring terms, `m ≥ 1`. -/
theorem aterm_rec (x y s t : ℝ) (hs : s * s = 1 - x * x) (ht : t * t = 1 - y * y) (n m : ℕ) :
    (2 * (n : ℝ) + 3) * (x * y * aterm x y (s * t) (n + 1) (m + 1) +
        s * t / 2 * (aterm x y (s * t) (n + 1) m + aterm x y (s * t) (n + 1) (m + 2))) =
      ((n : ℝ) + 2) * aterm x y (s * t) (n + 2) (m + 1) + ((n : ℝ) + 1) * aterm x y (s * t) n (m + 1) := by
  have px := dleg_rec (m + 1) n x
  have py := dleg_rec (m + 1) n y
  have qx := dleg_diff m n x
  have qy := dleg_diff m n y
  have rx := dleg_up (m + 1) n x
  have ry := dleg_up (m + 1) n y
  have hq2 : (s * t) ^ (m + 2) * (s * t) = (s * t) ^ (m + 1) * ((1 - x * x) * (1 - y * y)) := by
    rw [← hs, ← ht]; ring
  have hn3 : (2 * (n : ℝ) + 3) ≠ 0 := by positivity
  rcases lt_trichotomy (m + 1) (n + 1) with h | h | h
  · -- interior
    have hmn : (m : ℝ) + 1 ≤ n := by exact_mod_cast (by omega : m + 1 ≤ n)
    have h1 : ((n : ℝ) - m) ≠ 0 := by linarith
    have h1' : ((n : ℝ) + 1 - m) ≠ 0 := by linarith
    have h2 : ((n : ℝ) + m + 2) ≠ 0 := by positivity
    have h3 : ((n : ℝ) + m + 3) ≠ 0 := by positivity
    have w0 : wt (n + 1) m = wt (n + 1) (m + 1) * (((n : ℝ) + 1 - m) * (n + m + 2)) := by
      rw [wt_succ]; push_cast
      rw [show (n : ℝ) + 1 + m + 1 = n + m + 2 by ring]
      field_simp
    have w2 : wt (n + 1) (m + 2) = wt (n + 1) (m + 1) / (((n : ℝ) - m) * (n + m + 3)) := by
      rw [wt_succ]; push_cast; congr 1; ring
    have wU : wt (n + 2) (m + 1) = wt (n + 1) (m + 1) * ((n : ℝ) + 1 - m) / (n + m + 3) := by
      have := wt_up (n + 1) (m + 1) (by omega)
      push_cast at this
      rw [eq_div_iff h3]
      rw [show n + 2 = n + 1 + 1 from rfl]
      linear_combination this
    have wV : wt n (m + 1) = wt (n + 1) (m + 1) * ((n : ℝ) + m + 2) / (n - m) := by
      have := wt_up n (m + 1) (by omega)
      push_cast at this
      rw [eq_div_iff h1]
      linear_combination -this
    have hc := core ((n : ℝ) + 1) ((m : ℝ) + 1) (wt (n + 1) (m + 1)) (dleg (m + 1) (n + 2) x) (dleg (m + 1) n x)
      (dleg (m + 1) (n + 2) y) (dleg (m + 1) n y) (x * dleg (m + 1) (n + 1) x) (y * dleg (m + 1) (n + 1) y)
      (dleg m (n + 1) x) (dleg m (n + 1) y) ((1 - x * x) * dleg (m + 2) (n + 1) x)
      ((1 - y * y) * dleg (m + 2) (n + 1) y)
      (by rw [show 2 * ((n : ℝ) + 1) + 1 = 2 * n + 3 by ring]; exact hn3)
      (by rw [show (n : ℝ) + 1 - (m + 1) = n - m by ring]; exact h1) (by positivity)
      (by push_cast at px; linear_combination px) (by push_cast at py; linear_combination py)
      (by linear_combination qx) (by linear_combination qy)
      (by push_cast at rx; linear_combination rx) (by push_cast at ry; linear_combination ry)
    simp only [aterm]
    rw [w0, w2, wU, wV]
    rw [show (n : ℝ) + 1 - (m + 1) = n - m by ring, show (n : ℝ) + 1 + (m + 1) = n + m + 2 by ring,
      show (n : ℝ) + m + 2 + 1 = n + m + 3 by ring, show (n : ℝ) + 1 + 1 - (m + 1) = n + 1 - m by ring] at hc
    linear_combination (s * t) ^ (m + 1) * hc +
      (2 * (n : ℝ) + 3) / 2 * (wt (n + 1) (m + 1) / (((n : ℝ) - m) * (n + m + 3))) *
        (dleg (m + 2) (n + 1) x * dleg (m + 2) (n + 1) y) * hq2
  · -- `m + 1 = n + 1`
    have hmn : m = n := by omega
    subst hmn
    rw [aterm_zero (by omega : m + 1 < m + 2), aterm_zero (by omega : m < m + 1)]
    simp only [aterm]
    rw [dleg_zero (by omega : m < m + 1)] at px py qx qy
    have w0 : wt (m + 1) m = wt (m + 1) (m + 1) * (2 * (m : ℝ) + 2) := by
      rw [wt_succ]; push_cast
      have : (m : ℝ) + 1 - m = 1 := by ring
      rw [this]
      have : ((m : ℝ) + 1 + m + 1) ≠ 0 := by positivity
      field_simp; ring
    have wU : wt (m + 2) (m + 1) * (2 * (m : ℝ) + 3) = wt (m + 1) (m + 1) := by
      have := wt_up (m + 1) (m + 1) le_rfl
      push_cast at this
      rw [show m + 2 = m + 1 + 1 from rfl]
      linear_combination this
    have hx : x * dleg (m + 1) (m + 1) x = dleg (m + 1) (m + 2) x / (2 * (m : ℝ) + 3) := by
      rw [eq_div_iff hn3]; push_cast at px; linear_combination px
    have hy : y * dleg (m + 1) (m + 1) y = dleg (m + 1) (m + 2) y / (2 * (m : ℝ) + 3) := by
      rw [eq_div_iff hn3]; push_cast at py; linear_combination py
    have hx2 : dleg m (m + 1) x = dleg (m + 1) (m + 2) x / (2 * (m : ℝ) + 3) := by
      rw [eq_div_iff hn3]; linear_combination qx
    have hy2 : dleg m (m + 1) y = dleg (m + 1) (m + 2) y / (2 * (m : ℝ) + 3) := by
      rw [eq_div_iff hn3]; linear_combination qy
    rw [show x * y * (wt (m + 1) (m + 1) * (s * t) ^ (m + 1) * (dleg (m + 1) (m + 1) x * dleg (m + 1) (m + 1) y)) =
      wt (m + 1) (m + 1) * (s * t) ^ (m + 1) * ((x * dleg (m + 1) (m + 1) x) * (y * dleg (m + 1) (m + 1) y)) by ring,
      hx, hy, hx2, hy2, w0, ← wU]
    field_simp
    ring
  · rw [aterm_zero (by omega : n + 1 < m + 1), aterm_zero (by omega : n + 1 < m + 2),
      aterm_zero (by omega : n < m + 1)]
    rcases Nat.lt_or_ge (n + 1) m with h' | h'
    · rw [aterm_zero h', aterm_zero (by omega : n + 2 < m + 1)]; ring
    · have hm : m = n + 1 := by omega
      subst hm
      rw [dleg_zero (by omega : n < n + 1 + 1)] at qx qy
      simp only [aterm]
      have w0 : wt (n + 2) (n + 1 + 1) * ((2 * (n : ℝ) + 3) * (2 * n + 4)) = wt (n + 1) (n + 1) := by
        have := wt_up (n + 1) (n + 1) le_rfl
        push_cast at this
        rw [wt_succ]
        push_cast
        rw [show n + 1 + 1 = n + 2 from rfl] at this
        have a1 : (n : ℝ) + 2 - (n + 1) = 1 := by ring
        have a2 : (n : ℝ) + 1 + 1 - (n + 1) = 1 := by ring
        rw [a2] at this
        rw [a1]
        have : ((n : ℝ) + 2 + (n + 1) + 1) ≠ 0 := by positivity
        field_simp
        rename_i h5
        linear_combination (2 * (n : ℝ) + 4) * h5
      rw [← w0]
      rw [sub_zero] at qx qy
      rw [show n + 2 = n + 1 + 1 from rfl, show n + 1 + 1 = n + 2 from rfl, ← qx, ← qy]
      ring

/-- The identity at `m = 0`. -/
theorem aterm_rec0 (x y s t : ℝ) (hs : s * s = 1 - x * x) (ht : t * t = 1 - y * y) (n : ℕ) :
    (2 * (n : ℝ) + 3) * (x * y * aterm x y (s * t) (n + 1) 0 + s * t * aterm x y (s * t) (n + 1) 1) =
      ((n : ℝ) + 2) * aterm x y (s * t) (n + 2) 0 + ((n : ℝ) + 1) * aterm x y (s * t) n 0 := by
  have px := dleg_rec 0 n x
  have py := dleg_rec 0 n y
  have rx := dleg_up 0 n x
  have ry := dleg_up 0 n y
  simp only [aterm, wt_zero, pow_zero, pow_one]
  rw [show wt (n + 1) 1 = _ from wt_succ (n + 1) 0, wt_zero]
  simp only [zero_add] at rx ry
  push_cast at *
  simp only [sub_zero, add_zero] at *
  have hn3 : (2 * (n : ℝ) + 3) ≠ 0 := by positivity
  have e : ∀ {a b : ℝ}, (2 * (n : ℝ) + 3) * a = b → a = b / (2 * n + 3) := by
    intro a b h; rw [eq_div_iff hn3]; linarith
  have n1 : ((n : ℝ) + 1) ≠ 0 := by positivity
  have n2 : ((n : ℝ) + 1 + 1) ≠ 0 := by positivity
  have key : s * t * (1 / (((n : ℝ) + 1) * (n + 1 + 1)) * (s * t) * (dleg 1 (n + 1) x * dleg 1 (n + 1) y)) =
      1 / (((n : ℝ) + 1) * (n + 1 + 1)) * (((1 - x * x) * dleg 1 (n + 1) x) * ((1 - y * y) * dleg 1 (n + 1) y)) := by
    rw [← hs, ← ht]; ring
  rw [key, show x * y * (1 * 1 * (dleg 0 (n + 1) x * dleg 0 (n + 1) y)) =
    (x * dleg 0 (n + 1) x) * (y * dleg 0 (n + 1) y) by ring, e px, e py, e rx, e ry]
  field_simp
  ring

/-- Partial sums of the addition formula. -/
noncomputable def asum (x y q φ : ℝ) (l M : ℕ) : ℝ :=
  aterm x y q l 0 + 2 * ∑ m ∈ Finset.range M, aterm x y q l (m + 1) * Real.cos (((m + 1 : ℕ) : ℝ) * φ)

theorem asum_rec (x y s t φ : ℝ) (hs : s * s = 1 - x * x) (ht : t * t = 1 - y * y) (n M : ℕ) :
    (2 * (n : ℝ) + 3) * ((x * y + s * t * Real.cos φ) * asum x y (s * t) φ (n + 1) M) =
      ((n : ℝ) + 2) * asum x y (s * t) φ (n + 2) M + ((n : ℝ) + 1) * asum x y (s * t) φ n M +
        (2 * (n : ℝ) + 3) * (s * t) * (aterm x y (s * t) (n + 1) M * Real.cos (((M + 1 : ℕ) : ℝ) * φ) -
          aterm x y (s * t) (n + 1) (M + 1) * Real.cos ((M : ℝ) * φ)) := by
  induction M with
  | zero =>
    have h := aterm_rec0 x y s t hs ht n
    simp only [asum, Finset.range_zero, Finset.sum_empty, mul_zero, add_zero, Nat.cast_zero, zero_mul,
      Real.cos_zero, mul_one, zero_add, Nat.cast_one, one_mul]
    linear_combination h
  | succ M ih =>
    have h := aterm_rec x y s t hs ht n M
    have hS : ∀ l, asum x y (s * t) φ l (M + 1) = asum x y (s * t) φ l M +
        2 * (aterm x y (s * t) l (M + 1) * Real.cos (((M + 1 : ℕ) : ℝ) * φ)) := by
      intro l; simp only [asum, Finset.sum_range_succ]; ring
    have hc : 2 * Real.cos φ * Real.cos (((M + 1 : ℕ) : ℝ) * φ) =
        Real.cos (((M + 1 + 1 : ℕ) : ℝ) * φ) + Real.cos ((M : ℝ) * φ) := by
      have e1 : ((M + 1 + 1 : ℕ) : ℝ) * φ = ((M + 1 : ℕ) : ℝ) * φ + φ := by push_cast; ring
      have e2 : (M : ℝ) * φ = ((M + 1 : ℕ) : ℝ) * φ - φ := by push_cast; ring
      rw [e1, e2, Real.cos_add, Real.cos_sub]; ring
    rw [hS, hS, hS]
    linear_combination ih + 2 * Real.cos (((M + 1 : ℕ) : ℝ) * φ) * h +
      (2 * (n : ℝ) + 3) * (s * t) * aterm x y (s * t) (n + 1) (M + 1) * hc

theorem asum_eq (x y s t φ : ℝ) (hs : s * s = 1 - x * x) (ht : t * t = 1 - y * y) (l : ℕ) :
    (∀ M, l ≤ M → asum x y (s * t) φ l M = (leg l : ℝ[X]).eval (x * y + s * t * Real.cos φ)) ∧
    (∀ M, l + 1 ≤ M → asum x y (s * t) φ (l + 1) M =
      (leg (l + 1) : ℝ[X]).eval (x * y + s * t * Real.cos φ)) := by
  have ext : ∀ l M, l ≤ M → asum x y (s * t) φ l M = asum x y (s * t) φ l l := by
    intro l M h
    obtain ⟨k, rfl⟩ := Nat.exists_eq_add_of_le h
    simp only [asum, Finset.sum_range_add]
    rw [Finset.sum_eq_zero (s := Finset.range k), add_zero]
    intro i _
    rw [aterm_zero (by omega), zero_mul]
  induction l with
  | zero =>
    constructor
    · intro M h
      rw [ext 0 M h]
      simp [asum, aterm, wt_zero, dleg, leg_zero]
    · intro M h
      rw [ext 1 M h]
      simp [asum, aterm, wt_zero, dleg, leg_one, wt]
      ring
  | succ l ih =>
    refine ⟨ih.2, ?_⟩
    intro M h
    have hr := asum_rec x y s t φ hs ht l M
    rw [aterm_zero (by omega : l + 1 < M), aterm_zero (by omega : l + 1 < M + 1), ih.1 M (by omega),
      ih.2 M (by omega)] at hr
    have hb := congrArg (eval (x * y + s * t * Real.cos φ)) (bonnet (K := ℝ) l)
    simp only [eval_mul, eval_sub, eval_C, eval_X] at hb
    have h2 : ((l : ℝ) + 2) ≠ 0 := by positivity
    apply mul_left_cancel₀ h2
    rw [show l + 1 + 1 = l + 2 from rfl] at *
    linear_combination -hr - hb

/-- The addition theorem for the code's basis functions. -/
theorem addition (l : ℕ) (x y t t' : ℝ) (hx : x * x ≤ 1) (hy : y * y ≤ 1) :
    ∑ m ∈ Finset.Icc (-(l : ℤ)) l, shCoeff realFns l m x t * shCoeff realFns l m y t' =
      (2 * l + 1) / (4 * Real.pi) * (leg l : ℝ[X]).eval
        (x * y + Real.sqrt (1 - x * x) * Real.sqrt (1 - y * y) * Real.cos (t - t')) := by
  have hs := Real.mul_self_sqrt (by linarith : 0 ≤ 1 - x * x)
  have ht := Real.mul_self_sqrt (by linarith : 0 ≤ 1 - y * y)
  rw [← (asum_eq x y _ _ (t - t') hs ht l).1 l le_rfl, sum_Icc_pairs, Finset.sum_range_succ', asum,
    mul_add, add_comm, Finset.mul_sum, Finset.mul_sum]
  have hpi := Real.pi_pos
  have kk : ∀ m ≤ l, knorm realFns l m * knorm realFns l m = (2 * l + 1) / (4 * Real.pi) * wt l m := by
    intro m hm
    have hz := zprod_pos l m hm
    unfold knorm
    simp only [realFns]
    rw [Real.mul_self_sqrt (by positivity), wt, ← zprod_eq l m hm]
    field_simp
  have pp : ∀ m ≤ l, assocLegendre realFns.halfPow l m x * assocLegendre realFns.halfPow l m y =
      (Real.sqrt (1 - x * x) * Real.sqrt (1 - y * y)) ^ m * (dleg m l x * dleg m l y) := by
    intro m hm
    have hh : ∀ z : ℝ, z * z ≤ 1 → (if m = 0 then 1 else realFns.halfPow m (1 - z * z)) = Real.sqrt (1 - z * z) ^ m := by
      intro z hz
      split_ifs with h0
      · subst h0; simp
      · simp only [realFns]
        rw [Real.sqrt_eq_rpow, ← Real.rpow_natCast, ← Real.rpow_mul (by linarith)]
        congr 1; ring
    rw [C64_associated realFns.halfPow l m hm x (leg l) (legendre_eq l),
      C64_associated realFns.halfPow l m hm y (leg l) (legendre_eq l), hh x hx, hh y hy]
    have h1 : ((-1 : ℝ) ^ m) * (-1) ^ m = 1 := by rw [← mul_pow]; norm_num
    unfold dleg
    rw [mul_pow]
    linear_combination (Real.sqrt (1 - x * x) ^ m * Real.sqrt (1 - y * y) ^ m *
      (eval x (derivative^[m] (leg l)) * eval y (derivative^[m] (leg l)))) * h1
  have s2 : Real.sqrt 2 * Real.sqrt 2 = 2 := Real.mul_self_sqrt (by norm_num)
  congr 1
  · rw [if_neg (by simp), shCoeff_zero, shCoeff_zero]
    have a := kk 0 (Nat.zero_le l)
    have b := pp 0 (Nat.zero_le l)
    rw [aterm]
    linear_combination (assocLegendre realFns.halfPow l 0 x * assocLegendre realFns.halfPow l 0 y) * a +
      (2 * l + 1) / (4 * Real.pi) * wt l 0 * b
  · apply Finset.sum_congr rfl
    intro m hm
    have hm' := Finset.mem_range.1 hm
    rw [if_pos (Nat.succ_ne_zero m), shCoeff_pos _ _ _ (Nat.succ_ne_zero m),
      shCoeff_pos _ _ _ (Nat.succ_ne_zero m), shCoeff_neg _ _ _ (Nat.succ_ne_zero m),
      shCoeff_neg _ _ _ (Nat.succ_ne_zero m)]
    have a := kk (m + 1) (by omega)
    have b := pp (m + 1) (by omega)
    rw [aterm, mul_sub, Real.cos_sub]
    rw [show realFns.sqrt 2 = Real.sqrt 2 from rfl, show realFns.cos = Real.cos from rfl,
      show realFns.sin = Real.sin from rfl]
    generalize Real.cos (((m + 1 : ℕ) : ℝ) * t) = c1
    generalize Real.cos (((m + 1 : ℕ) : ℝ) * t') = c2
    generalize Real.sin (((m + 1 : ℕ) : ℝ) * t) = d1
    generalize Real.sin (((m + 1 : ℕ) : ℝ) * t') = d2
    generalize assocLegendre realFns.halfPow l (m + 1) x = px at *
    generalize assocLegendre realFns.halfPow l (m + 1) y = py at *
    generalize knorm realFns l (m + 1) = k at *
    generalize Real.sqrt 2 = r at *
    linear_combination (px * py * k * k * (c1 * c2 + d1 * d2)) * s2 +
      2 * (c1 * c2 + d1 * d2) * px * py * a +
      2 * (c1 * c2 + d1 * d2) * ((2 * l + 1) / (4 * Real.pi) * wt l (m + 1)) * b

end Geomc.SH
