import Mathlib.Data.Rat.Floor
import Mathlib.Algebra.Order.Ring.Int

/-!
# Arithmetic operators of vectors

The operators of geomc/linalg/vecdetail/VecBase.h and geomc/linalg/Vec.h.  A vector is a block of `n` cells of memory, and an
assignment operator runs through the block; its right operand may be the same block.  When a vector of integers meets a
real scalar, the operators differ in where the conversion to an integer happens.
-/

namespace Geomc.VecOps

variable {K : Type}

/-- One store. -/
def put (m : ℕ → K) (p : ℕ) (v : K) : ℕ → K := Function.update m p v

/-- `v op= w`, VecBase.h:420-425 (`+=`), 433-438 (`-=`), 457-462 (`*=`): the vectors start at `a` and `b`. -/
def assignV (op : K → K → K) (n a b : ℕ) (m : ℕ → K) : ℕ → K :=
  (List.range n).foldl (fun m i => put m (a + i) (op (m (a + i)) (m (b + i)))) m

/-- `v op= s`, VecBase.h:441-446 (`*=`) and 449-454 (`/=`): the scalar is copied before the loop. -/
def assignS (op : K → K → K) (n a : ℕ) (s : K) (m : ℕ → K) : ℕ → K :=
  (List.range n).foldl (fun m i => put m (a + i) (op (m (a + i)) s)) m

/-- Conversion of a number to an integer: the fraction is discarded. -/
def toInt (x : ℚ) : ℤ := if 0 ≤ x then ⌊x⌋ else ⌈x⌉

variable {n : ℕ}

/-- `v * s` and `s * v` with integer elements and a real scalar, Vec.h:53-63, 77-87: the product is a real, and is
converted when it is stored. -/
def mulIR (v : Fin n → ℤ) (s : ℚ) : Fin n → ℤ := fun i => toInt (v i * s)

/-- `v *= s`, VecBase.h:441-446, and `v.scale(s)`, VecBase.h:525-531: the scalar has the type of the elements. -/
def mulAssignIR (v : Fin n → ℤ) (s : ℚ) : Fin n → ℤ := fun i => v i * toInt s

/-- `v / s`, Vec.h:121-131.  A division by zero gives an infinity or a NaN, whose conversion to an integer is undefined. -/
def divIR (v : Fin n → ℤ) (s : ℚ) : Option (Fin n → ℤ) :=
  if s = 0 then (if n = 0 then some v else none) else some fun i => toInt (v i / s)

/-- `v /= s`, VecBase.h:449-454: division of integers. -/
def divAssignIR (v : Fin n → ℤ) (s : ℚ) : Option (Fin n → ℤ) :=
  let k := toInt s
  if k = 0 then (if n = 0 then some v else none) else some fun i => (v i).tdiv k

end Geomc.VecOps
