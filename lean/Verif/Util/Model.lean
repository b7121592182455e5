import Mathlib.Algebra.Order.Floor.Ring
import Mathlib.Analysis.Real.Sqrt
import Mathlib.Analysis.SpecialFunctions.Trigonometric.Basic

/-!
# Model of `geomc/function/Utils.h`

Machine integers are modelled as `Int` together with an explicit representability check: every
intermediate C++ result of a signed `w`-bit expression goes through `chk w`, which yields `none`
(undefined behaviour) when it does not fit.  `/` and `%` truncate (`Int.tdiv`, `Int.tmod`) and are
`none` on a zero divisor.  Floating point is modelled by exact arithmetic in a field.
-/

namespace Geomc.Util

/-- Signed `w`-bit representability check; `none` is the undefined behaviour of signed overflow.
Models the C++ rule for every signed arithmetic result (no single source line). -/
def chk (w : ℕ) (x : ℤ) : Option ℤ :=
  if -(2 ^ (w - 1)) ≤ x ∧ x < 2 ^ (w - 1) then some x else none

/-- C++ `a % b` on signed `w`-bit integers: undefined for `b = 0`, and for the quotient that does
not fit (`INT_MIN % -1`). -/
def cmod (w : ℕ) (a b : ℤ) : Option ℤ :=
  if b = 0 then none else (chk w (a.tdiv b)).bind fun _ => some (a.tmod b)

/-- C++ `a / b` on signed `w`-bit integers. -/
def cdiv (w : ℕ) (a b : ℤ) : Option ℤ :=
  if b = 0 then none else chk w (a.tdiv b)

/-- `positive_mod` for signed integers, geomc/function/Utils.h:23-26:
`return (a % b + b) % b;` -/
def positiveMod (w : ℕ) (a b : ℤ) : Option ℤ := do
  let m ← cmod w a b
  let s ← chk w (m + b)
  cmod w s b

/-- `positive_mod` for unsigned `w`-bit integers, geomc/function/Utils.h:23-26.  Unsigned addition
wraps modulo `2^w`. -/
def positiveModU (w : ℕ) (a b : ℕ) : Option ℕ :=
  if b = 0 then none else some ((a % b + b) % 2 ^ w % b)

/-- `positive_mod` for non-integral types, geomc/function/Utils.h:28-32:
`return a - b * std::floor(a / b);`.  Exact arithmetic; the caller must have `b ≠ 0`. -/
def positiveModF {K : Type*} [Field K] [LinearOrder K] [FloorRing K] (a b : K) : K :=
  a - b * (⌊a / b⌋ : ℤ)

/-- `ceil_div` for signed integers, geomc/function/Utils.h:223-230: `(a + b - 1) / b`. -/
def ceilDiv (w : ℕ) (a b : ℤ) : Option ℤ := do
  let s ← chk w (a + b)
  let s ← chk w (s - 1)
  cdiv w s b

/-- `snap`, geomc/function/Utils.h:235-238: `b * ceil_div(a, b)`. -/
def snap (w : ℕ) (a b : ℤ) : Option ℤ := do
  let q ← ceilDiv w a b
  chk w (b * q)

/-- `floor_div` for signed integers, geomc/function/Utils.h:248-255: `(a + b) / b - 1`. -/
def floorDiv (w : ℕ) (a b : ℤ) : Option ℤ := do
  let s ← chk w (a + b)
  let q ← cdiv w s b
  chk w (q - 1)

/-- `is_power_of_two` on a non-negative value, geomc/function/Utils.h:257-260.  Signed negative
inputs are answered `false` by `x > 0` before the bit trick, so a natural number loses nothing. -/
def isPowerOfTwo (x : ℕ) : Bool := decide (x > 0) && (x &&& (x - 1)) == 0

/-- `clamp`, geomc/function/Utils.h:87-90: `std::max(lo, std::min(hi, v))`. -/
def clamp {K : Type*} [LinearOrder K] (v lo hi : K) : K := max lo (min hi v)

/-- `mix`, geomc/function/Utils.h:99-104: `sum_of_products(1 - t, a, t, b)`, which is
`(1-t)*a + t*b` (functiondetail/UtilDetail.h, exact arithmetic). -/
def mix {K : Type*} [Field K] (t a b : K) : K := (1 - t) * a + t * b

/-- `interp_linear`, geomc/function/Utils.h:114-125.  `p` is the sample table as a function of the
offset; `p + blocksize` is the shifted table. -/
def interpLinear {K : Type*} [Field K] (s : ℕ → K) : ℕ → (ℕ → K) → K
  | 0, p => mix (s 0) (p 0) (p 1)
  | 1, p => mix (s 0) (p 0) (p 1)
  | n + 2, p =>
    mix (s (n + 1)) (interpLinear s (n + 1) p)
      (interpLinear s (n + 1) fun i => p (2 ^ (n + 1) + i))

/-- One dimensional `interp_cubic`, geomc/function/Utils.h:134-140 (`0.5`, `2.0`, ... exact). -/
def interpCubic1 {K : Type*} [Field K] (s : K) (p0 p1 p2 p3 : K) : K :=
  p1 + 1 / 2 * s * (p2 - p0 +
    s * (2 * p0 - 5 * p1 + 4 * p2 - p3 + s * (3 * (p1 - p2) + p3 - p0)))

/-- `interp_cubic` over `dim` axes, geomc/function/Utils.h:150-164. -/
def interpCubic {K : Type*} [Field K] (s : ℕ → K) : ℕ → (ℕ → K) → K
  | 0, p => interpCubic1 (s 0) (p 0) (p 1) (p 2) (p 3)
  | 1, p => interpCubic1 (s 0) (p 0) (p 1) (p 2) (p 3)
  | n + 2, p =>
    let b := 2 ^ (2 * (n + 1))
    interpCubic1 (s (n + 1))
      (interpCubic s (n + 1) p)
      (interpCubic s (n + 1) fun i => p (b + i))
      (interpCubic s (n + 1) fun i => p (2 * b + i))
      (interpCubic s (n + 1) fun i => p (3 * b + i))

/-- `quadratic_solve`, geomc/function/Utils.h:180-192, over the reals.  `none` is the `false`
return (results unaltered), `some (r0, r1)` the `true` return.  `std::copysign(x, b)` takes the
sign of `b`; a negative zero `b` is not distinguished from zero.  The discarded quotients (`q / a`
with `a = 0`, `c / q` with `q = 0`) are not evaluated. -/
noncomputable def quadraticSolve (a b c : ℝ) : Option (ℝ × ℝ) :=
  let descr := b * b - 4 * a * c
  if descr < 0 ∨ (a = 0 ∧ b = 0) then none
  else
    let q := -(1 / 2) * (b + if 0 ≤ b then Real.sqrt descr else -Real.sqrt descr)
    some (if a ≠ 0 then q / a else c / q, if q ≠ 0 then c / q else q / a)

/-- `angle_to`, geomc/function/Utils.h:199-214, over the reals. -/
noncomputable def angleTo (r0 r1 : ℝ) : ℝ :=
  let turn : ℝ := 2 * Real.pi
  let a0 := positiveModF r0 turn
  let a1 := positiveModF r1 turn
  let da := a1 - a0
  let db := a1 - (a0 + turn)
  let dc := a1 - (a0 - turn)
  let err := if |da| < |db| then da else db
  if |err| < |dc| then err else dc

/-- `radians`, geomc/function/Utils.h:265-268. -/
noncomputable def radians (d : ℝ) : ℝ := d * Real.pi / 180

/-- `degrees`, geomc/function/Utils.h:273-276. -/
noncomputable def degrees (r : ℝ) : ℝ := r * 180 / Real.pi

end Geomc.Util
