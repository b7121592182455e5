import Verif.Float.Model
import Verif.Shape.WrapModel

/-! # Model of frustums in floating point

geomc/shape/Frustum.h.  Every operation is the exact result rounded by `rnd`; comparisons, least and greatest elements are exact. -/

namespace Geomc.Flt

open Geomc.Rect (Box spanningCorners)
open Geomc.Shape (Height)

variable {K : Type} [Field K] [LinearOrder K] {n : ℕ}

/-- `Frustum::contains`, geomc/shape/Frustum.h:88-93, over a base with the given test. -/
def frustumContains (rnd : K → K) (contains : (Fin n → K) → Bool) (height : Height K) (p : Fin (n + 1) → K) : Bool :=
  let h := p (Fin.last n)
  if !height.clipped.contains h then false
  else if h = 0 then decide (p = 0)
  else contains (Fin.init fun i => rnd (p i / h))

/-- `Rect * T`, geomc/shape/Rect.h:482-490: the corners multiplied by the number, and put in order. -/
def boxScale (rnd : K → K) (b : Box K n) (a : K) : Box K n := spanningCorners (fun i => rnd (b.lo i * a)) (fun i => rnd (b.hi i * a))

/-- `Frustum::bounds`, geomc/shape/Frustum.h:221-227, from the bounds of the base. -/
def frustumBounds (rnd : K → K) (b : Box K n) (height : Height K) : Box K (n + 1) :=
  let h := height.clipped
  ((boxScale rnd b h.lo).union (boxScale rnd b h.hi)).prod (⟨fun _ => h.lo, fun _ => h.hi⟩ : Box K 1)

end Geomc.Flt
