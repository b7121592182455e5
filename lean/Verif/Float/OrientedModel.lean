import Verif.Float.GeomModel
import Verif.Affine.Model
import Verif.Shape.OrientedModel

/-! # Model of the support points of transformed shapes in floating point

geomc/shape/Oriented.h and geomc/linalg/AffineTransform.h.  Every operation is the exact result rounded by `rnd`. -/

namespace Geomc.Flt

open Geomc.Affine (XF)

variable {K : Type} [Field K] {n : ℕ}

/-- `AffineTransform::apply_inverse_normal`, geomc/linalg/AffineTransform.h:276-285. -/
def applyInverseNormal (rnd : K → K) (x : XF K n) (v : Fin n → K) : Fin n → K := mulVec rnd (fun r c => x.mat c.castSucc r.castSucc) v

/-- `Oriented::convex_support`, geomc/shape/Oriented.h:75-79, and that of `Oriented<Rect>`, Oriented.h:173-180, of which the direction is compared with zero
as in `Rect::convex_support`. -/
def orientedSupport (rnd : K → K) (support : (Fin n → K) → Fin n → K) (x : XF K n) (d : Fin n → K) : Fin n → K :=
  apply rnd x.mat (support (applyInverseNormal rnd x d))

/-- `Oriented::bounds`, geomc/shape/Oriented.h:81-99. -/
def orientedBounds (rnd : K → K) (support : (Fin n → K) → Fin n → K) (x : XF K n) : Rect.Box K n :=
  ⟨fun axis => apply rnd x.mat (support (-Shape.matRow x axis)) axis, fun axis => apply rnd x.mat (support (Shape.matRow x axis)) axis⟩

end Geomc.Flt
