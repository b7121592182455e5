import Mathlib.Analysis.SpecialFunctions.Pow.Real
import Mathlib.Analysis.SpecialFunctions.Trigonometric.Arctan
import Mathlib.Analysis.SpecialFunctions.Trigonometric.Inverse
import Mathlib.Analysis.SpecialFunctions.Complex.Arg

/-!
# Dual numbers

Model of geomc/function/functiondetail/DualImpl.h and DualFunctions.h, and of the dual overloads in
geomc/function/functiondetail/UtilDetail.h.

Arithmetic is exact (a field); the transcendental library functions are the real ones.  The policies `NaN`
and `Inf` store non-numbers in the derivative, so the functions with a discontinuity return `DualE`, whose
components are `Ext`.
-/

namespace Geomc.Duals

/-- `struct Dual`, DualImpl.h:125-153. -/
@[ext] structure Dual (K : Type) where
  x : K
  dx : K
deriving DecidableEq

variable {K : Type} [Field K]

/-- `sum_of_products` for floating point, UtilDetail.h:79-84 (`fma` exact). -/
def sumOfProducts (a b c d : K) : K :=
  let cd := c * d
  let err := c * d + -cd
  let x := a * b + cd
  x + err

/-- `diff_of_products` for floating point, UtilDetail.h:72-77. -/
def diffOfProducts (a b c d : K) : K :=
  let cd := c * d
  let err := -c * d + cd
  let x := a * b + -cd
  x + err

/-- `Dual(T x)`, DualImpl.h:144. -/
def const (x : K) : Dual K := ⟨x, 0⟩

/-- `Dual * Dual`, DualFunctions.h:21-26. -/
def mul (a b : Dual K) : Dual K := ⟨a.x * b.x, sumOfProducts a.x b.dx a.dx b.x⟩
/-- `Dual * scalar`, DualFunctions.h:33-35. -/
def mulS (d : Dual K) (s : K) : Dual K := ⟨d.x * s, d.dx * s⟩
/-- `scalar * Dual`, DualFunctions.h:42-44. -/
def smul (s : K) (d : Dual K) : Dual K := ⟨s * d.x, s * d.dx⟩
/-- `Dual *= Dual`, DualFunctions.h:48-54: the value is overwritten first. -/
def mulAssign (x y : Dual K) : Dual K :=
  let xx := x.x
  let x : Dual K := { x with x := x.x * y.x }
  { x with dx := sumOfProducts xx y.dx y.x x.dx }
/-- `Dual / Dual`, DualFunctions.h:75-80. -/
def div (a b : Dual K) : Dual K := ⟨a.x / b.x, diffOfProducts a.dx b.x a.x b.dx / (b.x * b.x)⟩
/-- `Dual / scalar`, DualFunctions.h:87-92. -/
def divS (d : Dual K) (s : K) : Dual K := ⟨d.x / s, d.dx / s⟩
/-- `scalar / Dual`, DualFunctions.h:99-104. -/
def sdiv (s : K) (d : Dual K) : Dual K := ⟨s / d.x, -s * d.dx / (d.x * d.x)⟩
/-- `Dual /= Dual`, DualFunctions.h:111-116. -/
def divAssign (x y : Dual K) : Dual K :=
  let xx := x.x
  let x : Dual K := { x with x := x.x / y.x }
  { x with dx := diffOfProducts x.dx y.x xx y.dx / (y.x * y.x) }
/-- `Dual + Dual`, DualFunctions.h:137-142. -/
def add (a b : Dual K) : Dual K := ⟨a.x + b.x, a.dx + b.dx⟩
/-- `Dual + scalar` and `scalar + Dual`, DualFunctions.h:149-166. -/
def addS (d : Dual K) (s : K) : Dual K := ⟨d.x + s, d.dx⟩
def sadd (s : K) (d : Dual K) : Dual K := ⟨s + d.x, d.dx⟩
/-- `Dual - Dual`, DualFunctions.h:170-175. -/
def sub (a b : Dual K) : Dual K := ⟨a.x - b.x, a.dx - b.dx⟩
/-- `Dual - scalar`, DualFunctions.h:182-187. -/
def subS (d : Dual K) (s : K) : Dual K := ⟨d.x - s, d.dx⟩
/-- `scalar - Dual`, DualFunctions.h:194-199. -/
def ssub (s : K) (d : Dual K) : Dual K := ⟨s - d.x, d.dx⟩
/-- unary minus, DualFunctions.h:243-245. -/
def neg (d : Dual K) : Dual K := ⟨-d.x, -d.dx⟩
/-- `multiply_add` for duals and `std::fma`, UtilDetail.h:119-124, DualFunctions.h:556-562. -/
def fma (a b c : Dual K) : Dual K := ⟨a.x * b.x + c.x, sumOfProducts a.x b.dx a.dx b.x + c.dx⟩
/-- `sum_of_products` for duals, UtilDetail.h:106-117. -/
def sumOfProductsD (a b c d : Dual K) : Dual K :=
  let dp := sumOfProducts a.x b.dx a.dx b.x
  let dq := sumOfProducts c.x d.dx c.dx d.x
  ⟨sumOfProducts a.x b.x c.x d.x, dp + dq⟩
/-- `++d` and `--d`, DualImpl.h:190-214. -/
def incr (d : Dual K) : Dual K := { d with x := d.x + 1 }
def decr (d : Dual K) : Dual K := { d with x := d.x - 1 }

/-- The constructor from a dual with another policy, DualImpl.h:150-151 (as written). -/
def convertPolicy {K : Type} (d : Dual K) : Dual K := ⟨d.dx, d.dx⟩

/-- The conversion operator to another element type, DualImpl.h:218-225. -/
def convertElem {K L : Type} (cast : K → L) (d : Dual K) : Dual L := ⟨cast d.x, cast d.dx⟩

/-- Comparisons, DualImpl.h:171-181. -/
def eq {K : Type} [DecidableEq K] (a b : Dual K) : Bool := a.x = b.x
def lt {K : Type} [LinearOrder K] (a b : Dual K) : Bool := a.x < b.x
def le {K : Type} [LinearOrder K] (a b : Dual K) : Bool := a.x ≤ b.x

/-! ## Transcendental functions (DualFunctions.h:264-447) -/

noncomputable section

/-- 276-278 -/
def sin (d : Dual ℝ) : Dual ℝ := ⟨Real.sin d.x, d.dx * Real.cos d.x⟩
/-- 286-288 -/
def cos (d : Dual ℝ) : Dual ℝ := ⟨Real.cos d.x, -d.dx * Real.sin d.x⟩
/-- 296-299 -/
def tan (d : Dual ℝ) : Dual ℝ :=
  let c := Real.cos d.x
  ⟨Real.tan d.x, -d.dx / (c * c)⟩
/-- 307-311 -/
def asin (d : Dual ℝ) : Dual ℝ := ⟨Real.arcsin d.x, d.dx / Real.sqrt (1 - d.x * d.x)⟩
/-- 319-324 -/
def acos (d : Dual ℝ) : Dual ℝ := ⟨Real.arccos d.x, -d.dx / Real.sqrt (1 - d.x * d.x)⟩
/-- 332-337 -/
def atan (d : Dual ℝ) : Dual ℝ := ⟨Real.arctan d.x, d.dx / (d.x * d.x + 1)⟩
/-- The library's `atan2(y, x)`. -/
def ratan2 (y x : ℝ) : ℝ := Complex.arg (x + y * Complex.I)
/-- 345-351 -/
def atan2 (y x : Dual ℝ) : Dual ℝ :=
  ⟨ratan2 y.x x.x, (x.x * y.dx - y.x * x.dx) / (x.x * x.x + y.x * y.x)⟩
/-- 359-362 -/
def exp (d : Dual ℝ) : Dual ℝ :=
  let e := Real.exp d.x
  ⟨e, -d.dx * e⟩
/-- 370-375 -/
def log (d : Dual ℝ) : Dual ℝ := ⟨Real.log d.x, d.dx / d.x⟩
/-- `pow(Dual, Dual)`, 383-400 -/
def powDD (b e : Dual ℝ) : Dual ℝ :=
  let a := b.x ^ e.x
  ⟨a, b.dx * e.x * a / e.x + e.dx * a * Real.log b.x⟩
/-- `pow(Dual, scalar)`, 408-414 -/
def powDS (b : Dual ℝ) (e : ℝ) : Dual ℝ :=
  let a := b.x ^ e
  ⟨a, b.dx * e * a / b.x⟩
/-- `sqrt`, 437-443 -/
def sqrt (d : Dual ℝ) : Dual ℝ :=
  let s := Real.sqrt d.x
  ⟨s, d.dx / (2 * s)⟩

/-! ## Functions with discontinuities (DualImpl.h:14-68, DualFunctions.h:422-549) -/

/-- A number, an infinity or a NaN. -/
inductive Ext where
  | fin (r : ℝ)
  | pinf
  | ninf
  | nan

/-- A dual whose components may be non-numbers. -/
@[ext] structure DualE where
  x : Ext
  dx : Ext

/-- `enum class DiscontinuityPolicy`. -/
inductive Policy where
  | nan | average | left | right | inf
deriving DecidableEq

/-- `discontinuity_impl::resolve(a, b)`, DualImpl.h:31-68. -/
def resolve : Policy → ℝ → ℝ → Ext
  | .nan, _, _ => .nan
  | .left, a, _ => .fin a
  | .right, _, b => .fin b
  | .average, a, b => .fin ((a + b) / 2)
  | .inf, a, b => if b = a then .fin a else if b > a then .pinf else .ninf

/-- What returning a `Dual<T>` (policy `Right`) from a function declared to return `Dual<T,P>` does. -/
def asPolicy (P : Policy) (d : DualE) : DualE := if P = .right then d else ⟨d.dx, d.dx⟩

/-- `pow(scalar, Dual)`, 422-429: returns a `Dual<T>`. -/
def powSD (P : Policy) (b : ℝ) (e : Dual ℝ) : DualE :=
  let a := b ^ e.x
  asPolicy P ⟨.fin a, .fin (e.dx * a * Real.log b)⟩

/-- 454-465 -/
def abs (P : Policy) (d : Dual ℝ) : DualE :=
  let dx := if d.x = 0 then resolve P (-d.dx) d.dx else if d.x < 0 then .fin (-d.dx) else .fin d.dx
  ⟨.fin (if d.x < 0 then -d.x else d.x), dx⟩

/-- `copysign(inf, v)`; the sign of a zero is not modelled, `+0` is assumed. -/
def infLike (v : ℝ) : Ext := if v < 0 then .ninf else .pinf

/-- `ceil`, 473-487 -/
def ceil (P : Policy) (d : Dual ℝ) : DualE :=
  let x : ℝ := (⌈d.x⌉ : ℤ)
  let dx := if P = .inf ∧ x = d.x then infLike d.dx else if P = .nan ∧ x = d.x then .nan else .fin 0
  ⟨.fin x, dx⟩

/-- `floor`, 495-509 -/
def floor (P : Policy) (d : Dual ℝ) : DualE :=
  let x : ℝ := (⌊d.x⌋ : ℤ)
  let dx := if P = .inf ∧ x = d.x then infLike d.dx else if P = .nan ∧ x = d.x then .nan else .fin 0
  ⟨.fin x, dx⟩

/-- `min`, 517-531 -/
def min (P : Policy) (a b : Dual ℝ) : DualE :=
  let lt := a.x ≤ b.x
  let x := if lt then a.x else b.x
  let dx := if a.x = b.x then resolve P (Max.max a.dx b.dx) (Min.min a.dx b.dx)
    else if lt then .fin a.dx else .fin b.dx
  ⟨.fin x, dx⟩

/-- `max`, 539-553: returns a `Dual<T>`. -/
def max (P : Policy) (a b : Dual ℝ) : DualE :=
  let gt := a.x ≥ b.x
  let x := if gt then a.x else b.x
  let dx := if a.x = b.x then resolve P (Min.min a.dx b.dx) (Max.max a.dx b.dx)
    else if gt then .fin a.dx else .fin b.dx
  asPolicy P ⟨.fin x, dx⟩

end

end Geomc.Duals
