import Verif.Float.RayProjModel
import Verif.Float.GjkModel
import Verif.Shape.WrapModel

/-! # Model of support points in floating point

The points farthest along a direction, geomc/shape/Sphere.h, geomc/shape/Capsule.h and geomc/shape/Dilated.h.  Every operation is the exact result rounded by
`rnd`.  The support points of rectangles and extrusions are copied coordinates: nothing is rounded, and `Rect.Box.support` and `Shape.extSupport` serve. -/

namespace Geomc.Flt

open Geomc.Shape (Ball Tube Simp GRes gjkLimit)

variable {K : Type} [Field K] [LinearOrder K] {N : ℕ}

/-- `Sphere::convex_support`, geomc/shape/Sphere.h:80-82.  Not defined where the direction is zero. -/
def ballSupport (rnd sqrt : K → K) (s : Ball K N) (d : Fin N → K) : Option (Fin N → K) :=
  (unit rnd sqrt d).map fun k i => rnd (s.center i + rnd (k i * s.r))

/-- `Dilated::convex_support`, geomc/shape/Dilated.h:93-96.  Not defined where the direction is zero. -/
def dilatedSupport (rnd sqrt : K → K) (support : (Fin N → K) → Fin N → K) (r : K) (d : Fin N → K) : Option (Fin N → K) :=
  (unit rnd sqrt d).map fun k i => rnd (support d i + rnd (k i * r))

/-- `Capsule::convex_support`, geomc/shape/Capsule.h:76-80. -/
def capsuleSupport (rnd sqrt : K → K) (c : Tube K N) (d : Fin N → K) : Fin N → K :=
  let p := if 0 ≤ dot rnd d (sub rnd c.p1 c.p0) then c.p1 else c.p0
  let w := withLength rnd sqrt d c.radius
  fun i => rnd (p i + w i)

/-- A new `Intersector` applied to two shapes, geomc/shape/Intersect.h:20-27 and :102-109. -/
def overlapOf (rnd : K → K) (supA supB : (Fin N → K) → Fin N → K) : Option (GRes K N) :=
  (gjkLimit N).bind fun lim =>
    gjkF rnd (nearestFace rnd) supA supB lim (fun i => if (i : ℕ) = 0 then 1 else 0) ⟨fun _ => 0, 0⟩

end Geomc.Flt
