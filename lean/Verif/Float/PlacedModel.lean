import Verif.Float.OrientedModel
import Verif.Shape.OrientedModel

/-! # Model of placed boxes in floating point

geomc/shape/Oriented.h.  Every operation is the exact result rounded by `rnd`; comparisons, least and greatest elements are exact. -/

namespace Geomc.Flt

open Geomc.Affine (XF)
open Geomc.Vec (vmin vmax)
open Geomc.Rect (Box)

variable {K : Type} [Field K] [LinearOrder K] {n : ℕ}

/-- `Oriented<Rect>::bounds`, geomc/shape/Oriented.h:147-166.  `1 << N` overflows an `int` from 31 dimensions on. -/
def placedBounds (rnd : K → K) (b : Box K n) (x : XF K n) : Option (Box K n) :=
  if 31 ≤ n then none
  else
    let r := (List.range' 1 (2 ^ n - 1)).foldl (fun (s : (Fin n → K) × (Fin n → K)) i =>
      let p := apply rnd x.mat (Shape.corner b i)
      (vmin s.1 p, vmax s.2 p)) (apply rnd x.mat b.lo, apply rnd x.mat b.lo)
    some ⟨r.1, r.2⟩

/-- `Oriented::contains`, geomc/shape/Oriented.h:70-73 and :186-189; `p / xf` is `apply_inverse`, geomc/linalg/AffineTransform.h:254-258. -/
def placedContains (rnd : K → K) (contains : (Fin n → K) → Bool) (x : XF K n) (p : Fin n → K) : Bool := contains (apply rnd x.inv p)

end Geomc.Flt
