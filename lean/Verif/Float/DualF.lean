import Verif.Float.DualModel
import Verif.Float.Orthog
import Mathlib.Algebra.Polynomial.Derivative

/-! # Property C139: automatic differentiation in floating point -/

namespace Geomc.Flt

open Geomc.Duals (Dual)
open Polynomial

variable {K : Type} [Field K] [LinearOrder K] [IsStrictOrderedRing K] [FloorRing K] {p : ℕ} {rnd : K → K}

/-! ## What a formula means -/

/-- The polynomial that a formula stands for. -/
noncomputable def Formula.poly : Formula K → K[X]
  | .var => X
  | .con c => C c
  | .add f g => f.poly + g.poly
  | .sub f g => f.poly - g.poly
  | .mul f g => f.poly * g.poly
  | .neg f => -f.poly
  | .fma f g h => f.poly * g.poly + h.poly
  | .sum f g h k => f.poly * g.poly + h.poly * k.poly
  | .addS f s => f.poly + C s
  | .sadd s f => C s + f.poly
  | .subS f s => f.poly - C s
  | .mulS f s => f.poly * C s
  | .smul s f => C s * f.poly
  | .divS f s => f.poly * C s⁻¹

/-- The formula with every minus turned into a plus and every constant into its absolute value. -/
def Formula.abs : Formula K → Formula K
  | .var => .var
  | .con c => .con |c|
  | .add f g => .add f.abs g.abs
  | .sub f g => .add f.abs g.abs
  | .mul f g => .mul f.abs g.abs
  | .neg f => f.abs
  | .fma f g h => .fma f.abs g.abs h.abs
  | .sum f g h k => .sum f.abs g.abs h.abs k.abs
  | .addS f s => .addS f.abs |s|
  | .sadd s f => .sadd |s| f.abs
  | .subS f s => .addS f.abs |s|
  | .mulS f s => .mulS f.abs |s|
  | .smul s f => .smul |s| f.abs
  | .divS f s => .divS f.abs |s|

/-- How many roundings there are, at most, between the variable and the result. -/
def Formula.depth : Formula K → ℕ
  | .var => 0
  | .con _ => 0
  | .add f g => max f.depth g.depth + 1
  | .sub f g => max f.depth g.depth + 1
  | .mul f g => f.depth + g.depth + 3
  | .neg f => f.depth
  | .fma f g h => max (f.depth + g.depth + 3) h.depth + 1
  | .sum f g h k => max (f.depth + g.depth) (h.depth + k.depth) + 4
  | .addS f _ => f.depth + 1
  | .sadd _ f => f.depth + 1
  | .subS f _ => f.depth + 1
  | .mulS f _ => f.depth + 1
  | .smul _ f => f.depth + 1
  | .divS f _ => f.depth + 1

/-- The constants are floats, and none that is divided by is zero. -/
def Formula.Ok (p : ℕ) : Formula K → Prop
  | .var => True
  | .con c => IsFloat p c
  | .add f g => f.Ok p ∧ g.Ok p
  | .sub f g => f.Ok p ∧ g.Ok p
  | .mul f g => f.Ok p ∧ g.Ok p
  | .neg f => f.Ok p
  | .fma f g h => f.Ok p ∧ g.Ok p ∧ h.Ok p
  | .sum f g h k => f.Ok p ∧ g.Ok p ∧ h.Ok p ∧ k.Ok p
  | .addS f s => f.Ok p ∧ IsFloat p s
  | .sadd s f => f.Ok p ∧ IsFloat p s
  | .subS f s => f.Ok p ∧ IsFloat p s
  | .mulS f s => f.Ok p ∧ IsFloat p s
  | .smul s f => f.Ok p ∧ IsFloat p s
  | .divS f s => f.Ok p ∧ IsFloat p s ∧ s ≠ 0

/-! ## Values -/

omit [LinearOrder K] [IsStrictOrderedRing K] [FloorRing K] in
/-- **C139.**  The value of a formula of duals is that of the same formula of floats, to the last bit. -/
theorem C139_value (rnd : K → K) (x : Dual K) (f : Formula K) : (f.runD rnd x).x = f.run rnd x.x := by
  induction f <;> simp_all [Formula.runD, Formula.run, dualAdd, dualSub, dualMul, dualFma, dualSum, dualAddS, dualSAdd, dualSubS, dualMulS, dualSMul,
    dualDivS, Duals.const, Duals.neg]

/-! ## Derivatives -/

theorem dual_float (h : IsRound p rnd) {x : Dual K} (hx : IsFloat p x.x) (hdx : IsFloat p x.dx) {f : Formula K} (hf : f.Ok p) :
    IsFloat p (f.runD rnd x).x ∧ IsFloat p (f.runD rnd x).dx := by
  induction f with
  | var => exact ⟨hx, hdx⟩
  | con c => exact ⟨hf, float_zero p⟩
  | add f g => exact ⟨h.mem _, h.mem _⟩
  | sub f g => exact ⟨h.mem _, h.mem _⟩
  | mul f g => exact ⟨h.mem _, h.mem _⟩
  | neg f ih => exact ⟨float_neg (ih hf).1, float_neg (ih hf).2⟩
  | fma f g k => exact ⟨h.mem _, h.mem _⟩
  | sum f g k l => exact ⟨h.mem _, h.mem _⟩
  | addS f s ih => exact ⟨h.mem _, (ih hf.1).2⟩
  | sadd s f ih => exact ⟨h.mem _, (ih hf.1).2⟩
  | subS f s ih => exact ⟨h.mem _, (ih hf.1).2⟩
  | mulS f s => exact ⟨h.mem _, h.mem _⟩
  | smul s f => exact ⟨h.mem _, h.mem _⟩
  | divS f s => exact ⟨h.mem _, h.mem _⟩

omit [IsStrictOrderedRing K] [FloorRing K] in
theorem Near.cast {e : K} {k : ℕ} {x' x X y Y : K} (h : Near e k x' x X) (hx : y = x) (hX : Y = X) : Near e k x' y Y := by
  rw [hx, hX]
  exact h

/-- A computed product rule. -/
theorem rule_near (hp : 1 ≤ p) (h : IsRound p rnd) {k l : ℕ} {a b : Dual K} {u u' U D v v' V E : K} (fa : IsFloat p a.x ∧ IsFloat p a.dx)
    (fb : IsFloat p b.x ∧ IsFloat p b.dx) (ha : Near (eps K p) k a.x u U) (ha' : Near (eps K p) k a.dx u' D) (hb : Near (eps K p) l b.x v V)
    (hb' : Near (eps K p) l b.dx v' E) : Near (eps K p) (k + l + 3) (sumOfProducts rnd a.x b.dx a.dx b.x) (u * v' + u' * v) (U * E + D * V) := by
  have e0 := (eps_pos (K := K) p).le
  exact ((ha.mul e0 hb').add (ha'.mul e0 hb)).sumOfProducts hp h fa.1 fb.2 fa.2 fb.1

theorem dual_near (hp : 1 ≤ p) (h : IsRound p rnd) {x : Dual K} (hx : IsFloat p x.x) (hdx : IsFloat p x.dx) {f : Formula K} (hf : f.Ok p) :
    Near (eps K p) f.depth (f.runD rnd x).x (f.poly.eval x.x) (f.abs.poly.eval |x.x|) ∧
    Near (eps K p) f.depth (f.runD rnd x).dx (f.poly.derivative.eval x.x * x.dx) (f.abs.poly.derivative.eval |x.x| * |x.dx|) := by
  have e0 := (eps_pos (K := K) p).le
  have rd {k : ℕ} {x' x X : K} (hx : Near (eps K p) k x' x X) := hx.round hp h le_rfl
  have fl {f : Formula K} (hf : f.Ok p) := dual_float h hx hdx hf
  induction f with
  | var =>
    constructor
    · simpa [Formula.poly, Formula.abs, Formula.runD, Formula.depth] using Near.refl (eps K p) x.x
    · simpa [Formula.poly, Formula.abs, Formula.runD, Formula.depth] using Near.refl (eps K p) x.dx
  | con c =>
    constructor
    · simpa [Formula.poly, Formula.abs, Formula.runD, Formula.depth, Duals.const] using Near.refl (eps K p) c
    · simpa [Formula.poly, Formula.abs, Formula.runD, Formula.depth, Duals.const] using Near.refl (eps K p) (0 : K)
  | add f g i j =>
    obtain ⟨a, a'⟩ := i hf.1
    obtain ⟨b, b'⟩ := j hf.2
    constructor
    · simp only [Formula.poly, Formula.abs, eval_add]
      exact rd ((a.mono e0 (le_max_left _ _)).add (b.mono e0 (le_max_right _ _)))
    · simp only [Formula.poly, Formula.abs, derivative_add, eval_add, add_mul]
      exact rd ((a'.mono e0 (le_max_left _ _)).add (b'.mono e0 (le_max_right _ _)))
  | sub f g i j =>
    obtain ⟨a, a'⟩ := i hf.1
    obtain ⟨b, b'⟩ := j hf.2
    constructor
    · simp only [Formula.poly, Formula.abs, eval_add, eval_sub]
      exact rd ((a.mono e0 (le_max_left _ _)).sub (b.mono e0 (le_max_right _ _)))
    · simp only [Formula.poly, Formula.abs, derivative_add, derivative_sub, eval_add, eval_sub, add_mul, sub_mul]
      exact rd ((a'.mono e0 (le_max_left _ _)).sub (b'.mono e0 (le_max_right _ _)))
  | mul f g i j =>
    obtain ⟨a, a'⟩ := i hf.1
    obtain ⟨b, b'⟩ := j hf.2
    constructor
    · simp only [Formula.poly, Formula.abs, eval_mul]
      exact (rd (a.mul e0 b)).mono e0 (by simp only [Formula.depth]; omega)
    · have := rule_near hp h (fl hf.1) (fl hf.2) a a' b b'
      simp only [Formula.poly, Formula.abs, derivative_mul, eval_add, eval_mul]
      exact this.cast (by ring) (by ring)
  | neg f i =>
    obtain ⟨a, a'⟩ := i hf
    constructor
    · simp only [Formula.poly, Formula.abs, eval_neg]
      exact a.neg
    · simp only [Formula.poly, Formula.abs, derivative_neg, eval_neg, neg_mul]
      exact a'.neg
  | fma f g k i j l =>
    obtain ⟨a, a'⟩ := i hf.1
    obtain ⟨b, b'⟩ := j hf.2.1
    obtain ⟨c, c'⟩ := l hf.2.2
    constructor
    · simp only [Formula.poly, Formula.abs, eval_add, eval_mul]
      exact rd (((a.mul e0 b).mono e0 (by omega)).add (c.mono e0 (le_max_right _ _)))
    · have := rule_near hp h (fl hf.1) (fl hf.2.1) a a' b b'
      have := rd ((this.mono e0 (le_max_left _ _)).add (c'.mono e0 (le_max_right (f.depth + g.depth + 3) _)))
      simp only [Formula.poly, Formula.abs, derivative_add, derivative_mul, eval_add, eval_mul]
      exact this.cast (by ring) (by ring)
  | sum f g k l i j m n =>
    obtain ⟨a, a'⟩ := i hf.1
    obtain ⟨b, b'⟩ := j hf.2.1
    obtain ⟨c, c'⟩ := m hf.2.2.1
    obtain ⟨d, d'⟩ := n hf.2.2.2
    constructor
    · simp only [Formula.poly, Formula.abs, eval_add, eval_mul]
      have := (((a.mul e0 b).mono e0 (le_max_left _ _)).add ((c.mul e0 d).mono e0 (le_max_right _ _))).sumOfProducts hp h
        (fl hf.1).1 (fl hf.2.1).1 (fl hf.2.2.1).1 (fl hf.2.2.2).1
      exact this.mono e0 (by simp only [Formula.depth]; omega)
    · have r1 := rule_near hp h (fl hf.1) (fl hf.2.1) a a' b b'
      have r2 := rule_near hp h (fl hf.2.2.1) (fl hf.2.2.2) c c' d d'
      have := rd ((r1.mono e0 (show _ ≤ max (f.depth + g.depth) (k.depth + l.depth) + 3 by omega)).add (r2.mono e0 (by omega)))
      simp only [Formula.poly, Formula.abs, derivative_add, derivative_mul, eval_add, eval_mul]
      exact this.cast (by ring) (by ring)
  | addS f s i =>
    obtain ⟨a, a'⟩ := i hf.1
    constructor
    · simp only [Formula.poly, Formula.abs, eval_add, eval_C]
      exact rd (a.add ((Near.refl (eps K p) s).mono e0 (Nat.zero_le _)))
    · simp only [Formula.poly, Formula.abs, derivative_add, derivative_C, add_zero]
      exact a'.mono e0 (Nat.le_succ _)
  | sadd s f i =>
    obtain ⟨a, a'⟩ := i hf.1
    constructor
    · simp only [Formula.poly, Formula.abs, eval_add, eval_C]
      exact rd (((Near.refl (eps K p) s).mono e0 (Nat.zero_le _)).add a)
    · simp only [Formula.poly, Formula.abs, derivative_add, derivative_C, zero_add]
      exact a'.mono e0 (Nat.le_succ _)
  | subS f s i =>
    obtain ⟨a, a'⟩ := i hf.1
    constructor
    · simp only [Formula.poly, Formula.abs, eval_add, eval_sub, eval_C]
      exact rd (a.sub ((Near.refl (eps K p) s).mono e0 (Nat.zero_le _)))
    · simp only [Formula.poly, Formula.abs, derivative_add, derivative_sub, derivative_C, add_zero, sub_zero]
      exact a'.mono e0 (Nat.le_succ _)
  | mulS f s i =>
    obtain ⟨a, a'⟩ := i hf.1
    constructor
    · simp only [Formula.poly, Formula.abs, eval_mul, eval_C]
      exact rd (a.mul e0 (Near.refl (eps K p) s))
    · simp only [Formula.poly, Formula.abs, derivative_mul, derivative_C, mul_zero, add_zero, eval_mul, eval_C]
      have := rd (a'.mul e0 (Near.refl (eps K p) s))
      exact this.cast (by ring) (by ring)
  | smul s f i =>
    obtain ⟨a, a'⟩ := i hf.1
    constructor
    · simp only [Formula.poly, Formula.abs, eval_mul, eval_C]
      have := rd ((Near.refl (eps K p) s).mul e0 a)
      rwa [zero_add] at this
    · simp only [Formula.poly, Formula.abs, derivative_mul, derivative_C, zero_mul, zero_add, eval_mul, eval_C]
      have := rd ((Near.refl (eps K p) s).mul e0 a')
      rw [zero_add] at this
      exact this.cast (by ring) (by ring)
  | divS f s i =>
    obtain ⟨a, a'⟩ := i hf.1
    constructor
    · simp only [Formula.poly, Formula.abs, eval_mul, eval_C]
      have := rd (a.mul e0 (Near.refl (eps K p) s⁻¹))
      rw [abs_inv] at this
      simp only [Formula.runD, dualDivS, div_eq_mul_inv]
      exact this
    · simp only [Formula.poly, Formula.abs, derivative_mul, derivative_C, mul_zero, add_zero, eval_mul, eval_C]
      have := rd (a'.mul e0 (Near.refl (eps K p) s⁻¹))
      rw [abs_inv] at this
      simp only [Formula.runD, dualDivS, div_eq_mul_inv]
      exact this.cast (by ring) (by ring)

/-- **C139.**  The derivative computed by a formula of duals is within the roundings of the formula of the derivative of its polynomial,
relative to the derivative of the formula without cancellation. -/
theorem C139_derivative (hp : 1 ≤ p) (h : IsRound p rnd) {x : Dual K} (hx : IsFloat p x.x) (hdx : IsFloat p x.dx) {f : Formula K} (hf : f.Ok p) :
    |(f.runD rnd x).dx - f.poly.derivative.eval x.x * x.dx| ≤
      ((1 + eps K p) ^ f.depth - 1) * (f.abs.poly.derivative.eval |x.x| * |x.dx|) ∧
    |(f.runD rnd x).x - f.poly.eval x.x| ≤ ((1 + eps K p) ^ f.depth - 1) * f.abs.poly.eval |x.x| :=
  ⟨(dual_near hp h hx hdx hf).2.1, (dual_near hp h hx hdx hf).1.1⟩

/-- **C139.**  A formula that does not depend on the variable has the derivative zero, exactly, and so has every formula of a variable
that is held constant. -/
theorem C139_constant (hp : 1 ≤ p) (h : IsRound p rnd) {v : K} (hv : IsFloat p v) {f : Formula K} (hf : f.Ok p) : (f.runD rnd ⟨v, 0⟩).dx = 0 := by
  have := (C139_derivative hp h (x := ⟨v, 0⟩) hv (float_zero p) hf).1
  simpa using this

/-! ## Single operations -/

/-- **C139.**  The derivative of a product is within three rounding errors of the exact one, relative to itself, whatever cancels. -/
theorem C139_product (hp : 1 ≤ p) (h : IsRound p rnd) {a b : Dual K} (fa : IsFloat p a.x ∧ IsFloat p a.dx) (fb : IsFloat p b.x ∧ IsFloat p b.dx) :
    |(dualMul rnd a b).dx - (a.x * b.dx + a.dx * b.x)| ≤ 3 * eps K p * |a.x * b.dx + a.dx * b.x| :=
  (C95_relative hp h fa.1 fb.2 fa.2 fb.1).2

/-- The reciprocal of a rounded square. -/
theorem square_inv (hp : 1 ≤ p) (h : IsRound p rnd) (v : K) :
    |(rnd (v * v))⁻¹ - (v * v)⁻¹| ≤ (1 / (1 - eps K p) - 1) * |(v * v)⁻¹| := by
  have e1 := eps_le (K := K) hp
  exact near_inv (by linarith) (h.rel hp (v * v))

/-- **C139.**  The derivative of a quotient is within five rounding errors of the exact one, relative to itself, whatever cancels. -/
theorem C139_quotient (hp : 1 ≤ p) (h : IsRound p rnd) {a b : Dual K} (fa : IsFloat p a.x ∧ IsFloat p a.dx) (fb : IsFloat p b.x ∧ IsFloat p b.dx) :
    (b.x = 0 → dualDiv rnd a b = none) ∧
    (b.x ≠ 0 → ∃ r, dualDiv rnd a b = some r ∧ r.x = rnd (a.x / b.x) ∧
      |r.dx - (a.dx * b.x - a.x * b.dx) / b.x ^ 2| ≤ ((1 + eps K p) ^ 4 / (1 - eps K p) - 1) * |(a.dx * b.x - a.x * b.dx) / b.x ^ 2|) := by
  have e0 := eps_pos (K := K) p
  have e1 := eps_le (K := K) hp
  refine ⟨fun hb => if_pos hb, fun hb => ⟨_, if_neg hb, rfl, ?_⟩⟩
  have b0 : 0 < b.x * b.x := mul_self_pos.2 hb
  have h1 : Near (eps K p) 3 (diffOfProducts rnd a.dx b.x a.x b.dx) (a.dx * b.x - a.x * b.dx) |a.dx * b.x - a.x * b.dx| := by
    refine ⟨((C95_relative hp h fa.2 fb.1 fa.1 fb.2).1).trans (mul_le_mul_of_nonneg_right ?_ (abs_nonneg _)), le_rfl⟩
    have : (2 : K) ^ (-(p : ℤ)) = eps K p := rfl
    rw [this]
    nlinarith [sq_nonneg (eps K p), mul_pos e0 (mul_pos e0 e0)]
  have q1 : (1 : K) ≤ 1 / (1 - eps K p) := by
    rw [le_div_iff₀ (by linarith)]
    linarith
  have h2 := quot_round hp h h1 b0 q1 (square_inv hp h b.x)
  rw [pow_two, abs_div, abs_of_pos b0, div_eq_mul_one_div ((1 + eps K p) ^ 4)]
  exact h2

/-- **C139.**  The derivative of a quotient of a scalar by a dual is within three rounding errors of the exact one. -/
theorem C139_reciprocal (hp : 1 ≤ p) (h : IsRound p rnd) (s : K) (d : Dual K) :
    (d.x = 0 → dualSDiv rnd s d = none) ∧
    (d.x ≠ 0 → ∃ r, dualSDiv rnd s d = some r ∧ r.x = rnd (s / d.x) ∧
      |r.dx - -(s * d.dx / d.x ^ 2)| ≤ ((1 + eps K p) ^ 2 / (1 - eps K p) - 1) * |s * d.dx / d.x ^ 2|) := by
  have e0 := eps_pos (K := K) p
  have e1 := eps_le (K := K) hp
  refine ⟨fun hb => if_pos hb, fun hb => ⟨_, if_neg hb, rfl, ?_⟩⟩
  have b0 : 0 < d.x * d.x := mul_self_pos.2 hb
  have q1 : (1 : K) ≤ 1 / (1 - eps K p) := by
    rw [le_div_iff₀ (by linarith)]
    linarith
  have h2 := quot_round hp h ((Near.refl (eps K p) (-s * d.dx)).round hp h le_rfl) b0 q1 (square_inv hp h d.x)
  rw [pow_two, abs_div, abs_of_pos b0, div_eq_mul_one_div ((1 + eps K p) ^ 2), ← neg_div, ← neg_mul]
  rw [show |-s * d.dx| = |s * d.dx| by rw [neg_mul, abs_neg]] at h2
  exact h2

omit [LinearOrder K] [IsStrictOrderedRing K] [FloorRing K] in
/-- **C139.**  Without rounding the operations are those of C61. -/
theorem C139_exact (a b c d : Dual K) (s : K) :
    dualMul id a b = Duals.mul a b ∧ dualAdd id a b = Duals.add a b ∧ dualSub id a b = Duals.sub a b ∧ dualFma id a b c = Duals.fma a b c ∧
    dualSum id a b c d = Duals.sumOfProductsD a b c d ∧ dualMulS id a s = Duals.mulS a s ∧ dualSMul id s a = Duals.smul s a ∧
    dualDivS id a s = Duals.divS a s ∧ dualAddS id a s = Duals.addS a s ∧ dualSAdd id s a = Duals.sadd s a ∧ dualSubS id a s = Duals.subS a s :=
  ⟨rfl, rfl, rfl, rfl, rfl, rfl, rfl, rfl, rfl, rfl, rfl⟩

/-! ## Examples -/

/-- (x² + 1) · x − 3x at 1/10, rounded: the derivative of the formula is 3x² − 2 = −1.97. -/
def cubicFormula : Formula ℚ := .sub (.mul (.addS (.mul .var .var) 1) .var) (.smul 3 .var)

example : let r := cubicFormula.runD (nearest 53) ⟨nearest 53 (1 / 10), 1⟩
    |r.dx - (-197 / 100)| ≤ 1 / 2 ^ 51 ∧ r.dx ≠ -197 / 100 ∧ r.x = cubicFormula.run (nearest 53) (nearest 53 (1 / 10)) ∧ cubicFormula.depth = 8 := by
  decide +kernel

example : cubicFormula.Ok 53 := ⟨⟨⟨⟨trivial, trivial⟩, 1, 0, by norm_num, by norm_num⟩, trivial⟩, trivial, 3, 0, by norm_num, by norm_num⟩

example : cubicFormula.poly = (X * X + C 1) * X - C 3 * X := rfl

/-- The derivative of (1 + t) / (3 + t) at 0 is 2 / 9, that of 1 / (3 + t) is −1 / 9. -/
example : dualDiv (nearest 53) ⟨1, 1⟩ ⟨3, 1⟩ = some ⟨nearest 53 (1 / 3 : ℚ), nearest 53 (2 / 9)⟩ ∧
    dualSDiv (nearest 53) 1 ⟨3, 1⟩ = some ⟨nearest 53 (1 / 3 : ℚ), nearest 53 (-1 / 9)⟩ ∧ dualDiv (nearest 53) ⟨1, 1⟩ ⟨(0 : ℚ), 1⟩ = none := by
  decide +kernel

end Geomc.Flt
