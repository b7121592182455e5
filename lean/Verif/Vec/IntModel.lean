import Mathlib.Algebra.Order.Floor.Ring
import Mathlib.Data.Fintype.Basic
import Mathlib.Data.Fin.VecNotation

/-!
# Vectors of machine integers

geomc/linalg/vecdetail/VecBase.h and geomc/linalg/Vec.h for integral element types.  A value of an integral type is the integer it
stands for; operands of less than 32 bits are promoted to `int`, overflow of signed arithmetic, division by zero and conversion of a
floating-point value that does not fit are undefined behaviour (`none`), and a value stored into an element is reduced modulo a power of
two (C++20 [conv.integral]; implementation-defined before, with the same result everywhere).  `int` has 32 bits and `double` 53.
-/

namespace Geomc.VecInt

/-- An integral type: its width in bits, and whether it is signed. -/
structure ITy where
  w : ℕ
  signed : Bool
deriving DecidableEq

/-- The least and the greatest value of a type, and the values between. -/
def ITy.lo (t : ITy) : ℤ := if t.signed then -2 ^ (t.w - 1) else 0
def ITy.hi (t : ITy) : ℤ := if t.signed then 2 ^ (t.w - 1) - 1 else 2 ^ t.w - 1
def ITy.Has (t : ITy) (x : ℤ) : Prop := t.lo ≤ x ∧ x ≤ t.hi

instance (t : ITy) (x : ℤ) : Decidable (t.Has x) := inferInstanceAs (Decidable (_ ∧ _))

/-- Integral promotion. -/
def ITy.promote (t : ITy) : ITy := if t.w < 32 then ⟨32, true⟩ else t

/-- Conversion of an integer to a type. -/
def conv (t : ITy) (x : ℤ) : ℤ := if t.signed then Int.bmod x (2 ^ t.w) else x % 2 ^ t.w

/-- The result of arithmetic in a type, given the result without overflow. -/
def arith (t : ITy) (x : ℤ) : Option ℤ :=
  if t.signed then (if t.Has x then some x else none) else some (x % 2 ^ t.w)

/-- The value of `T r = a op b`. -/
def store (t : ITy) (x : ℤ) : Option ℤ := (arith t.promote x).map (conv t)

/-- The sum, difference and product of two elements, stored in an element, as in geomc/linalg/vecdetail/VecBase.h:487-533, 415-455, and
the negation, 463-469. -/
def add (t : ITy) (a b : ℤ) : Option ℤ := store t (a + b)
def sub (t : ITy) (a b : ℤ) : Option ℤ := store t (a - b)
def mul (t : ITy) (a b : ℤ) : Option ℤ := store t (a * b)
def neg (t : ITy) (a : ℤ) : Option ℤ := store t (-a)

/-- The quotient of two elements, geomc/linalg/Vec.h:126-128, 170-173, VecBase.h:443-448. -/
def div (t : ITy) (a b : ℤ) : Option ℤ := if b = 0 then none else store t (a.tdiv b)

/-- `multiply_add` for types which are not floating-point, geomc/function/functiondetail/UtilDetail.h:65-67. -/
def multiplyAdd (t : ITy) (a b c : ℤ) : Option ℤ := do
  let p ← arith t.promote (a * b)
  store t (p + c)

/-- `std::abs` of an element, VecBase.h:695-701 (not for `unsigned int` and wider unsigned types, where the call is ambiguous and does
not compile). -/
def abs (t : ITy) (a : ℤ) : Option ℤ := store t |a|

/-- A loop over the elements; undefined if it is for any of them. -/
def each {n : ℕ} (f : Fin n → Option ℤ) : Option (Fin n → ℤ) :=
  if h : ∀ i, (f i).isSome then some fun i => (f i).get (h i) else none

variable {n : ℕ}

/-- `VecBase::add`, `sub`, `scale`, `operator-`, `abs`, geomc/linalg/vecdetail/VecBase.h:487-533, 463-469, 695-701, and element-wise
division, geomc/linalg/Vec.h:166-174. -/
def addV (t : ITy) (u v : Fin n → ℤ) : Option (Fin n → ℤ) := each fun i => add t (u i) (v i)
def subV (t : ITy) (u v : Fin n → ℤ) : Option (Fin n → ℤ) := each fun i => sub t (u i) (v i)
def mulV (t : ITy) (u v : Fin n → ℤ) : Option (Fin n → ℤ) := each fun i => mul t (u i) (v i)
def divV (t : ITy) (u v : Fin n → ℤ) : Option (Fin n → ℤ) := each fun i => div t (u i) (v i)
def negV (t : ITy) (v : Fin n → ℤ) : Option (Fin n → ℤ) := each fun i => neg t (v i)
def absV (t : ITy) (v : Fin n → ℤ) : Option (Fin n → ℤ) := each fun i => abs t (v i)

/-- `VecBase::dot`, VecBase.h:553-559. -/
def dot (t : ITy) (u v : Fin n → ℤ) : Option ℤ :=
  (List.finRange n).foldlM (fun sum i => multiplyAdd t (u i) (v i) sum) 0

/-- `VecBase::mag2`, VecBase.h:573-580. -/
def mag2 (t : ITy) (v : Fin n → ℤ) : Option ℤ :=
  (List.finRange n).foldlM (fun sum i => multiplyAdd t (v i) (v i) sum) 0

/-- `diff_of_products` for types which are not floating-point, UtilDetail.h:57-59, and `Vec<T,3>::cross`,
geomc/linalg/vecdetail/Vec3.h:206-218. -/
def diffOfProducts (t : ITy) (a b c d : ℤ) : Option ℤ := do
  let p ← arith t.promote (a * b)
  let q ← arith t.promote (c * d)
  store t (p - q)
def cross (t : ITy) (u v : Fin 3 → ℤ) : Option (Fin 3 → ℤ) :=
  each ![diffOfProducts t (u 1) (v 2) (u 2) (v 1), diffOfProducts t (u 2) (v 0) (u 0) (v 2), diffOfProducts t (u 0) (v 1) (u 1) (v 0)]

/-- Conversion of vectors between integral types, VecBase.h:382-389. -/
def cast (t : ITy) (v : Fin n → ℤ) : Fin n → ℤ := fun i => conv t (v i)

variable {K : Type} [Field K] [LinearOrder K] [FloorRing K]

/-- Conversion of a floating-point value to an integral type: the fraction is dropped. -/
def trunc (t : ITy) (x : K) : Option ℤ :=
  let y := if 0 ≤ x then ⌊x⌋ else ⌈x⌉
  if t.Has y then some y else none

/-- Conversion of a vector of floating-point numbers, VecBase.h:382-389. -/
def castF (t : ITy) (v : Fin n → K) : Option (Fin n → ℤ) := each fun i => trunc t (v i)

/-- `std::round`: halves away from zero. -/
def roundAway (x : K) : ℤ := if 0 ≤ x then ⌊x + 1 / 2⌋ else ⌈x - 1 / 2⌉

/-- `VecBase::floor`, `ceil` and `round`, VecBase.h:708-714, 721-727, 796-802.  `std::floor` of an integer converts it to `double`. -/
def floorV (rnd : K → K) (t : ITy) (v : Fin n → ℤ) : Option (Fin n → ℤ) := each fun i => trunc t ((⌊rnd (v i : K)⌋ : ℤ) : K)
def ceilV (rnd : K → K) (t : ITy) (v : Fin n → ℤ) : Option (Fin n → ℤ) := each fun i => trunc t ((⌈rnd (v i : K)⌉ : ℤ) : K)
def roundV (rnd : K → K) (t : ITy) (v : Fin n → ℤ) : Option (Fin n → ℤ) := each fun i => trunc t ((roundAway (rnd (v i : K)) : ℤ) : K)

/-- `VecBase::mag`, VecBase.h:565-567.  `std::sqrt` of an integer converts it to `double`; of a negative one it is NaN, which does not
fit. -/
def mag (rnd sqrt : K → K) (t : ITy) (v : Fin n → ℤ) : Option ℤ := do
  let m ← mag2 t v
  if m < 0 then none else trunc t (rnd (sqrt (rnd (m : K))))

/-- `VecBase::unit`, VecBase.h:538-545. -/
def unit (rnd sqrt : K → K) (t : ITy) (v : Fin n → ℤ) : Option (Fin n → ℤ) := do
  let m ← mag rnd sqrt t v
  each fun i => div t (v i) m

/-- `VecBase::project_on`, VecBase.h:632-635: `axis * dot / m2`, one operation after the other. -/
def projectOn (t : ITy) (v axis : Fin n → ℤ) : Option (Fin n → ℤ) := do
  let m ← mag2 t axis
  if m = 0 then some axis
  else
    let d ← dot t v axis
    let s ← each fun i => mul t (axis i) d
    each fun i => div t (s i) m

end Geomc.VecInt
