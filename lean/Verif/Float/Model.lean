import Mathlib.Data.Int.Log
import Mathlib.Algebra.Order.Round
import Mathlib.Algebra.Order.Field.Basic
import Mathlib.Data.Rat.Floor
import Mathlib.Tactic.Linarith
import Mathlib.Tactic.Ring
import Mathlib.Tactic.FieldSimp
import Mathlib.Tactic.NormNum
import Mathlib.Tactic.Positivity

/-! # Model of the rounded (floating-point) product formulas

Elsewhere floating-point numbers are elements of an exact field.  Here the rounding is kept: a float is a
`p`-bit integer times a power of two, and every operation is the exact result rounded by a function
`rnd`.  The exponent is not bounded, that is, overflow and underflow are left out. -/

namespace Geomc.Flt

variable {K : Type} [Field K]

/-- `diff_of_products` for floating-point types, geomc/function/functiondetail/UtilDetail.h:72-77, reached
from geomc/function/Utils.h:43-46.  `std::fma(a, b, c)` is `rnd (a * b + c)`. -/
def diffOfProducts (rnd : K → K) (a b c d : K) : K :=
  let cd := rnd (c * d)
  let err := rnd (-c * d + cd)
  let x := rnd (a * b + -cd)
  rnd (x + err)

/-- `sum_of_products` for floating-point types, UtilDetail.h:79-84, reached from Utils.h:58-61. -/
def sumOfProducts (rnd : K → K) (a b c d : K) : K :=
  let cd := rnd (c * d)
  let err := rnd (c * d + -cd)
  let x := rnd (a * b + cd)
  rnd (x + err)

/-- `multiply_add` for floating-point types, UtilDetail.h:86-88, reached from Utils.h:73-76. -/
def multiplyAdd (rnd : K → K) (a b c : K) : K := rnd (a * b + c)

/-- `mix(t, a, b)`, geomc/function/Utils.h:99-104, for floating-point types. -/
def mix (rnd : K → K) (t a b : K) : K := sumOfProducts rnd (rnd (1 - t)) a t b

/-- The formula the documentation calls "naive" (Utils.h:34-37), the one used for the types that are not
floating-point, UtilDetail.h:57-59. -/
def naiveDiff (rnd : K → K) (a b c d : K) : K := rnd (rnd (a * b) - rnd (c * d))

/-- Round to the nearest float with `p` bits, ties upwards. -/
def nearest [LinearOrder K] [IsStrictOrderedRing K] [FloorRing K] (p : ℕ) (x : K) : K :=
  if x = 0 then 0 else
    let h : K := 2 ^ (Int.log 2 |x| + 1 - p)
    round (x / h) * h

end Geomc.Flt
