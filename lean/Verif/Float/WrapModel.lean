import Verif.Float.Model
import Verif.Shape.WrapModel

/-! # Model of distances to extruded and dilated shapes in floating point

geomc/shape/Extruded.h and geomc/shape/Dilated.h.  Every operation is the exact result rounded by `rnd`; comparisons are exact. -/

namespace Geomc.Flt

open Geomc.Vec (stdMax)
open Geomc.Shape (Height)

variable {K : Type} [Field K] [LinearOrder K] {n : ℕ}

/-- `Extruded::sdf`, geomc/shape/Extruded.h:72-92, over a base with the given distances. -/
def extrudedSdf (rnd sqrt : K → K) (sdf : (Fin n → K) → K) (height : Height K) (p : Fin (n + 1) → K) : K :=
  let h := p (Fin.last n)
  let base := sdf (Fin.init p)
  let slab := stdMax (rnd (h - height.hi)) (rnd (height.lo - h))
  if height.contains h then stdMax base slab
  else if base < 0 then slab
  else rnd (sqrt (rnd (rnd (base * base) + rnd (slab * slab))))

/-- `Dilated::sdf`, geomc/shape/Dilated.h:84-86. -/
def dilatedSdf (rnd : K → K) (sdf : (Fin n → K) → K) (dilation : K) (p : Fin n → K) : K := rnd (sdf p - dilation)

/-- `Dilated::contains`, geomc/shape/Dilated.h:79-81. -/
def dilatedContains (rnd : K → K) (sdf : (Fin n → K) → K) (dilation : K) (p : Fin n → K) : Bool := decide (dilatedSdf rnd sdf dilation p < 0)

end Geomc.Flt
