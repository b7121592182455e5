import Verif.Shape.OrientedModel

/-!
# The separating axis test for boxes: geomc/shape/shapedetail/SeparatingAxis.h

`mx` and `lw` are the extreme values of the element type.
-/

namespace Geomc.Shape

open Geomc.Vec Geomc.Rect Geomc.Affine

variable {K : Type} {n : ℕ} [Field K] [LinearOrder K]

/-- `_getXfAxis`, SeparatingAxis.h:49-55. -/
def xfAxis (x : XF K n) (j : Fin n) : Fin n → K := fun k => x.mat k.castSucc j.castSucc

/-- `_getNormal`, SeparatingAxis.h:58-62. -/
def xfNormal (x : XF K n) (j : Fin n) : Fin n → K := x.applyNormal (Pi.single j 1)

/-- The axes tested in two and three dimensions, SeparatingAxis.h:98-116 and :134-141. -/
def satAxes2 (x : XF K 2) : List (Fin 2 → K) := (List.finRange 2).map (xfNormal x)
def satAxis3 (x : XF K 3) (i : Fin 12) : Fin 3 → K :=
  if h : (i : ℕ) < 3 then xfNormal x ⟨i, h⟩
  else cross (Pi.single ⟨i / 3 - 1, by omega⟩ 1) (xfAxis x ⟨i % 3, by omega⟩)
def satAxes3 (x : XF K 3) : List (Fin 3 → K) := (List.finRange 12).map (satAxis3 x)

/-- The range of a list of values, SeparatingAxis.h:194-199 and :211-219. -/
def satRange (mx lw : K) (n : ℕ) (f : ℕ → K) : K × K :=
  (List.range (2 ^ n)).foldl (fun r c => (stdMin r.1 (f c), stdMax r.2 (f c))) (mx, lw)

/-- The comparison along a world axis, SeparatingAxis.h:193-202: whether the axis separates. -/
def satWorld (mx lw : K) (b0 : Box K n) (x : XF K n) (b1 : Box K n) (i : Fin n) : Bool :=
  let r := satRange mx lw n fun c => x.apply (corner b0 c) i
  decide (b1.hi i < r.1) || decide (r.2 < b1.lo i)

/-- The comparison along another axis, SeparatingAxis.h:209-222: whether it separates. -/
def satAxis (mx lw : K) (b0 : Box K n) (x : XF K n) (b1 : Box K n) (axis : Fin n → K) : Bool :=
  if axis = 0 then false
  else
    let r0 := satRange mx lw n fun c => dot axis (x.apply (corner b0 c))
    let r1 := satRange mx lw n fun c => dot axis (corner b1 c)
    !(Box.intersects (⟨fun _ => r0.1, fun _ => r0.2⟩ : Box K 1) ⟨fun _ => r1.1, fun _ => r1.2⟩)

/-- `RectIntersector::intersect`, SeparatingAxis.h:165-226, given the further axes. -/
def satIntersect (mx lw : K) (axes : List (Fin n → K)) (b0 : Box K n) (x : XF K n) (b1 : Box K n) : Bool :=
  if (List.finRange n).any (satWorld mx lw b0 x b1) then false
  else if axes.any (satAxis mx lw b0 x b1) then false
  else true

/-- `Oriented<Rect>::intersects(Rect)` in two and three dimensions, Oriented.h:197-199. -/
def oriIntersects2 (mx lw : K) (b0 : Box K 2) (x : XF K 2) (b1 : Box K 2) : Bool := satIntersect mx lw (satAxes2 x) b0 x b1
def oriIntersects3 (mx lw : K) (b0 : Box K 3) (x : XF K 3) (b1 : Box K 3) : Bool := satIntersect mx lw (satAxes3 x) b0 x b1

/-- `Oriented<Rect>::intersects(Oriented<Rect>)`, Oriented.h:207-215. -/
def oriOri2 (mx lw : K) (b0 : Oriented (Box K 2) K 2) (b1 : Oriented (Box K 2) K 2) : Bool :=
  let b1' := b1.div b0.xf
  oriIntersects2 mx lw b1'.shape b1'.xf b0.shape
def oriOri3 (mx lw : K) (b0 : Oriented (Box K 3) K 3) (b1 : Oriented (Box K 3) K 3) : Bool :=
  let b1' := b1.div b0.xf
  oriIntersects3 mx lw b1'.shape b1'.xf b0.shape

end Geomc.Shape
