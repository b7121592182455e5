import Verif.Grid.Model
import Verif.Vec.IntModel

/-!
# Grid iterators with machine integer coordinates

geomc/shape/GridIterator.h, with the arithmetic of Verif/Vec/IntModel.lean for the coordinates.  `index_t` is a 64-bit signed integer; it
is unbounded in `distanceTo`.
-/

namespace Geomc.GridInt

open Geomc.VecInt Geomc.Grid

variable {N : ℕ}

/-- `increment`, geomc/shape/GridIterator.h:136-142, where `++(pt[i])` may overflow. -/
def incLoop (t : ITy) (lo hi : Fin N → ℤ) (last : Fin N) : List (Fin N) → (Fin N → ℤ) → Option (Fin N → ℤ)
  | [], pt => some pt
  | i :: is, pt => do
    let x ← add t (pt i) 1
    let pt := Function.update pt i x
    if pt i > hi i then
      incLoop t lo hi last is (if i ≠ last then Function.update pt i (lo i) else pt)
    else some pt

variable [NeZero N]

/-- `++it`. -/
def increment (t : ITy) (o : Bool) (lo hi pt : Fin N → ℤ) : Option (Fin N → ℤ) :=
  incLoop t lo hi (dimLast o N) (axes o N) pt

/-- The position after some increments. -/
def steps (t : ITy) (o : Bool) (lo hi : Fin N → ℤ) : ℕ → Option (Fin N → ℤ)
  | 0 => some (begin' lo)
  | k + 1 => do increment t o lo hi (← steps t o lo hi k)

/-- `end()`, geomc/shape/GridIterator.h:118-125. -/
def end' (t : ITy) (o : Bool) (lo hi : Fin N → ℤ) : Option (Fin N → ℤ) := do
  let x ← add t (hi (dimLast o N)) 1
  some (Function.update lo (dimLast o N) x)

/-- `distance_to`, geomc/shape/GridIterator.h:166-176, with the differences in the coordinate type (and the sizes of the region exact). -/
def distanceTo (t : ITy) (o : Bool) (lo hi pt other : Fin N → ℤ) : Option ℤ := do
  let jump ← subV t other pt
  some ((axes o N).foldl (fun (st : ℤ × ℤ) i => (st.1 + st.2 * jump i, st.2 * max (dim lo hi i) 0)) (0, 1)).1

/-- The specialisation for one dimension, geomc/shape/GridIterator.h:228-256: `end`, `increment`, `decrement` and `distance_to`, whose
result is converted to `index_t`. -/
def end1 (t : ITy) (hi : ℤ) : Option ℤ := add t hi 1
def increment1 (t : ITy) (pt : ℤ) : Option ℤ := add t pt 1
def decrement1 (t : ITy) (pt : ℤ) : Option ℤ := sub t pt 1
def distance1 (t : ITy) (pt other : ℤ) : Option ℤ := (arith t.promote (other - pt)).map (conv ⟨64, true⟩)
def steps1 (t : ITy) (lo : ℤ) : ℕ → Option ℤ
  | 0 => some lo
  | k + 1 => do increment1 t (← steps1 t lo k)

end Geomc.GridInt
