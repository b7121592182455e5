import Verif.Float.VecModel
import Verif.Util.Model

/-! # Model of the forms in which vector operators are offered

Every operator of a vector comes in several forms: `v * s` and `v *= s`, `v / s` and `v /= s`, `a + b` and `a += b`,
`a.dot(b)` and `a.dot(x, y)`.  A vector is a block of consecutive elements of a memory, the scalar of the free operators may have another type
than the elements, and the conversions between types are those of the language. -/

namespace Geomc.Flt

/-! ## Blocks of memory -/

/-- The offset of the element that `get(idx)` and `operator[]` refer to, geomc/linalg/vecdetail/VecBase.h:78-89 (any size), 132-143 (two
elements, selected with `idx ? y : x`), 194-205 and 261-272 (three and four); `none` where the reference is outside the vector. -/
def elemAt (N : ℕ) (idx : ℤ) : Option ℕ :=
  if N = 2 then some (if idx ≠ 0 then 1 else 0)
  else if 0 ≤ idx ∧ idx < N then some idx.toNat else none

/-- `operator+=`, `-=` and `*=` with a vector, VecBase.h:420-425, 433-438 and 457-462: the elements of the block at `dst` are combined with
those at `src` one by one, in the memory. -/
def assignVec {K : Type} (op : K → K → K) (N dst src : ℕ) (mem : ℕ → K) : ℕ → K :=
  (List.range N).foldl (fun mem i => Function.update mem (dst + i) (op (mem (dst + i)) (mem (src + i)))) mem

/-- `operator*=` and `/=` with a scalar, VecBase.h:441-454; the scalar is passed by value. -/
def assignScalar {K : Type} (op : K → K → K) (N dst : ℕ) (s : K) (mem : ℕ → K) : ℕ → K :=
  (List.range N).foldl (fun mem i => Function.update mem (dst + i) (op (mem (dst + i)) s)) mem

/-! ## Scalars of another type -/

section
variable {K : Type} [Field K] {N : ℕ}

/-- `v * d` for elements rounded by `rnd` and a scalar of a wider type rounded by `wide`, geomc/linalg/Vec.h:53-63: the product is formed in the
wider type and converted when it is stored. -/
def scaleWide (rnd wide : K → K) (v : Fin N → K) (d : K) : Fin N → K := fun i => rnd (wide (v i * d))

/-- `v *= d`, VecBase.h:441-446: the scalar is converted to the type of the elements. -/
def scaleAssign (rnd : K → K) (v : Fin N → K) (d : K) : Fin N → K := fun i => rnd (v i * rnd d)

/-- `dot(x, y)`, geomc/linalg/vecdetail/Vec2.h:90-92, of the vector `(a, b)`. -/
def dotTwo (rnd : K → K) (a b x y : K) : K := rnd (rnd (a * x) + rnd (b * y))

/-- `dot(x, y, z)`, geomc/linalg/vecdetail/Vec3.h:167-172, of the vector `(a, b, c)`. -/
def dotThree (rnd : K → K) (a b c x y z : K) : K := rnd (rnd (rnd (a * x) + rnd (b * y)) + rnd (c * z))

/-- `dot(x, y, z, w)`, geomc/linalg/vecdetail/Vec4.h:132-137, of the vector `(a, b, c, d)`. -/
def dotFour (rnd : K → K) (a b c d x y z w : K) : K := rnd (rnd (rnd (rnd (a * x) + rnd (b * y)) + rnd (c * z)) + rnd (d * w))

variable [LinearOrder K] [FloorRing K]

/-- The conversion of a floating-point number to a whole one: towards zero. -/
def toInt (d : K) : ℤ := if 0 ≤ d then ⌊d⌋ else ⌈d⌉

/-- `v * d` for whole elements of `w` bits and a floating-point scalar, Vec.h:53-63. -/
def scaleInt (rnd : K → K) (w : ℕ) (v : Fin N → ℤ) (d : K) (i : Fin N) : Option ℤ := Util.chk w (toInt (rnd (rnd (v i : K) * d)))

/-- `v *= d` for them, VecBase.h:441-446. -/
def scaleAssignInt (w : ℕ) (v : Fin N → ℤ) (d : K) (i : Fin N) : Option ℤ := do
  let s ← Util.chk w (toInt d)
  Util.chk w (v i * s)

/-- `v / d` for them, Vec.h:121-130; the conversion of an infinite quotient is undefined. -/
def divInt (rnd : K → K) (w : ℕ) (v : Fin N → ℤ) (d : K) (i : Fin N) : Option ℤ :=
  if d = 0 then none else Util.chk w (toInt (rnd (rnd (v i : K) / d)))

/-- `v /= d` for them, VecBase.h:449-454; division by zero is undefined. -/
def divAssignInt (w : ℕ) (v : Fin N → ℤ) (d : K) (i : Fin N) : Option ℤ := do
  let s ← Util.chk w (toInt d)
  if s = 0 then none else Util.chk w ((v i).tdiv s)

end

end Geomc.Flt
