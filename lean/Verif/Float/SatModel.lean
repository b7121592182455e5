import Verif.Float.GeomModel
import Verif.Shape.SatModel

/-! # Model of the separating axis test in floating point

geomc/shape/shapedetail/SeparatingAxis.h, as in `Verif.Shape.SatModel`, with every operation the exact result rounded by `rnd`.  Comparisons are
exact. -/

namespace Geomc.Flt

open Geomc.Rect (Box)
open Geomc.Affine (XF)
open Geomc.Shape (satRange xfAxis Oriented)

variable {K : Type} [Field K] [LinearOrder K] {n : ℕ}

/-- `AffineTransform::apply_normal`, geomc/linalg/AffineTransform.h:239-249. -/
def applyNormal (rnd : K → K) (x : XF K n) (v : Fin n → K) : Fin n → K := mulVec rnd (fun r c => x.inv c.castSucc r.castSucc) v

/-- `_getNormal`, SeparatingAxis.h:58-62. -/
def xfNormalF (rnd : K → K) (x : XF K n) (j : Fin n) : Fin n → K := applyNormal rnd x (Pi.single j 1)

/-- The axes tested in two and three dimensions, SeparatingAxis.h:98-116 and :134-141. -/
def satAxes2F (rnd : K → K) (x : XF K 2) : List (Fin 2 → K) := (List.finRange 2).map (xfNormalF rnd x)
def satAxis3F (rnd : K → K) (x : XF K 3) (i : Fin 12) : Fin 3 → K :=
  if h : (i : ℕ) < 3 then xfNormalF rnd x ⟨i, h⟩
  else cross rnd (Pi.single ⟨i / 3 - 1, by omega⟩ 1) (xfAxis x ⟨i % 3, by omega⟩)
def satAxes3F (rnd : K → K) (x : XF K 3) : List (Fin 3 → K) := (List.finRange 12).map (satAxis3F rnd x)

/-- The comparison along a world axis, SeparatingAxis.h:193-202: whether the axis separates. -/
def satWorldF (rnd : K → K) (mx lw : K) (b0 : Box K n) (x : XF K n) (b1 : Box K n) (i : Fin n) : Bool :=
  let r := satRange mx lw n fun c => apply rnd x.mat (Shape.corner b0 c) i
  decide (b1.hi i < r.1) || decide (r.2 < b1.lo i)

/-- The comparison along another axis, SeparatingAxis.h:209-222: whether it separates. -/
def satAxisF (rnd : K → K) (mx lw : K) (b0 : Box K n) (x : XF K n) (b1 : Box K n) (axis : Fin n → K) : Bool :=
  if axis = 0 then false
  else
    let r0 := satRange mx lw n fun c => dot rnd axis (apply rnd x.mat (Shape.corner b0 c))
    let r1 := satRange mx lw n fun c => dot rnd axis (Shape.corner b1 c)
    !(Box.intersects (⟨fun _ => r0.1, fun _ => r0.2⟩ : Box K 1) ⟨fun _ => r1.1, fun _ => r1.2⟩)

/-- `RectIntersector::intersect`, SeparatingAxis.h:165-226, given the further axes. -/
def satIntersectF (rnd : K → K) (mx lw : K) (axes : List (Fin n → K)) (b0 : Box K n) (x : XF K n) (b1 : Box K n) : Bool :=
  if (List.finRange n).any (satWorldF rnd mx lw b0 x b1) then false
  else if axes.any (satAxisF rnd mx lw b0 x b1) then false
  else true

/-- `Oriented<Rect>::intersects(Rect)` in two and three dimensions, Oriented.h:197-199. -/
def oriIntersects2F (rnd : K → K) (mx lw : K) (b0 : Box K 2) (x : XF K 2) (b1 : Box K 2) : Bool :=
  satIntersectF rnd mx lw (satAxes2F rnd x) b0 x b1
def oriIntersects3F (rnd : K → K) (mx lw : K) (b0 : Box K 3) (x : XF K 3) (b1 : Box K 3) : Bool :=
  satIntersectF rnd mx lw (satAxes3F rnd x) b0 x b1

end Geomc.Flt
