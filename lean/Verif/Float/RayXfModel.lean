import Verif.Float.GeomModel
import Verif.Affine.Model

/-! # Model of rays moved by transforms in floating point

geomc/linalg/AffineTransform.h.  Every operation is the exact result rounded by `rnd`. -/

namespace Geomc.Flt

open Geomc.Affine (XF)

variable {K : Type} [Field K] {n : ℕ}

/-- `xf * ray`, geomc/linalg/AffineTransform.h:104-106: the origin and the direction. -/
def xfRay (rnd : K → K) (x : XF K n) (r : (Fin n → K) × (Fin n → K)) : (Fin n → K) × (Fin n → K) := (apply rnd x.mat r.1, applyVector rnd x.mat r.2)

/-- `ray / xf`, geomc/linalg/AffineTransform.h:111-113. -/
def xfRayInverse (rnd : K → K) (x : XF K n) (r : (Fin n → K) × (Fin n → K)) : (Fin n → K) × (Fin n → K) :=
  (apply rnd x.inv r.1, applyVector rnd x.inv r.2)

end Geomc.Flt
