import Verif.Float.OrthogModel
import Verif.Shape.Model

/-! # Model of the support points of cylinders in floating point

geomc/shape/Cylinder.h.  Every operation is the exact result rounded by `rnd`. -/

namespace Geomc.Flt

open Geomc.Shape (Tube)

variable {K : Type} [Field K] [LinearOrder K] {N : ℕ}

/-- `Cylinder::convex_support`, geomc/shape/Cylinder.h:195-199.  Not defined where the computed part of the direction across the axis is zero. -/
def cylinderSupport (rnd sqrt : K → K) (c : Tube K N) (d : Fin N → K) : Option (Fin N → K) :=
  let a := sub rnd c.p1 c.p0
  (unit rnd sqrt (sub rnd d (projectOn rnd d a))).map fun k i =>
    rnd ((if dot rnd d a > 0 then c.p1 else c.p0) i + rnd (k i * c.radius))

end Geomc.Flt
