import Verif.Float.VecModel
import Verif.Shape.Model

/-! # Model of the normals of spheres and the projection to dilated shapes in floating point

geomc/shape/Sphere.h, geomc/shape/Dilated.h.  Every operation is the exact result rounded by `rnd`.  Where the code divides by a zero length there is no result. -/

namespace Geomc.Flt

open Geomc.Shape (Ball)

variable {K : Type} [Field K] [LinearOrder K] {n : ℕ}

/-- `Sphere::normal`, geomc/shape/Sphere.h:97-99. -/
def ballNormal (rnd sqrt : K → K) (b : Ball K n) (x : Fin n → K) : Option (Fin n → K) := unit rnd sqrt (sub rnd x b.center)

/-- `Dilated::project`, geomc/shape/Dilated.h:103-113, over a shape with the given test and projection. -/
def dilatedProject (rnd sqrt : K → K) (contains : (Fin n → K) → Bool) (project : (Fin n → K) → Fin n → K) (r : K) (x : Fin n → K) :
    Option (Fin n → K) :=
  let q := project x
  (unit rnd sqrt (sub rnd q x)).map fun dp i => if contains x then rnd (q i + rnd (r * dp i)) else rnd (q i - rnd (r * dp i))

end Geomc.Flt
