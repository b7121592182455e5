import Verif.Float.OrthogModel

/-! # Model of points along a ray and of projections to a direction, in floating point

geomc/linalg/Ray.h and geomc/linalg/vecdetail/VecBase.h.  Every operation is the exact result rounded by `rnd`. -/

namespace Geomc.Flt

variable {K : Type} [Field K] [LinearOrder K] {N : ℕ}

/-- `Ray::project`, geomc/linalg/Ray.h:81-83. -/
def rayNearest (rnd : K → K) (o d x : Fin N → K) : Fin N → K :=
  fun i => rnd (projectOn rnd (sub rnd x o) d i + o i)

/-- `Ray::at_distance`, geomc/linalg/Ray.h:68-70.  Not defined where the direction is zero. -/
def rayAtLength (rnd sqrt : K → K) (o d : Fin N → K) (s : K) : Option (Fin N → K) :=
  (unit rnd sqrt d).map fun k i => rnd (o i + rnd (k i * s))

/-- `VecBase::fraction_on`, geomc/linalg/vecdetail/VecBase.h:640-642.  Not defined where the length is zero. -/
def fractionOn (rnd : K → K) (x axis : Fin N → K) : Option K :=
  let m2 := mag2 rnd axis
  if m2 = 0 then none else some (rnd (dot rnd x axis / m2))

/-- `VecBase::with_length`, geomc/linalg/vecdetail/VecBase.h:649-657: the new length is multiplied, then divided by. -/
def withLength (rnd sqrt : K → K) (u : Fin N → K) (s : K) : Fin N → K :=
  let m2 := mag2 rnd u
  if m2 = 0 then fun _ => 0 else fun i => rnd (rnd (s * u i) / rnd (sqrt m2))

end Geomc.Flt
