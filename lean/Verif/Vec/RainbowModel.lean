import Mathlib.Algebra.Order.Round
import Mathlib.Algebra.Order.Floor.Ring
import Mathlib.Data.Rat.Floor

/-! # Model of `rainbow`, geomc/linalg/vecdetail/Vec3.h -/

namespace Geomc.Rainbow

variable {K : Type} [Field K] [LinearOrder K] [FloorRing K]

/-- `std::fmod(s, 1)` (Vec3.h:40): the remainder has the sign of `s`. -/
def fmod1 (s : K) : K := if 0 ≤ s then s - (⌊s⌋ : ℤ) else s - (⌈s⌉ : ℤ)

/-- `rainbow(s)`, geomc/linalg/vecdetail/Vec3.h:39-46, with exact arithmetic. -/
def rainbow (s : K) : K × K × K :=
  let f := fmod1 s
  let s := if f < 0 then 1 + f else f
  (min (max (max (-6 * s + 2) (6 * s - 4)) 0) 1,
   max (min (min (6 * s) (-6 * s + 4)) 1) 0,
   max (min (min (6 * s - 2) (-6 * s + 6)) 1) 0)

end Geomc.Rainbow
