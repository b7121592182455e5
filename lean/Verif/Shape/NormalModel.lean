import Verif.Shape.WrapModel

/-!
# Outward normals: geomc/shape/Capsule.h, Cylinder.h, Dilated.h, Extruded.h

`Sphere::normal` is `Ball.normal`, the default of Shape.h is `defaultNormal` and `Simplex::normal` is `Simp.normal`.  A quotient by
zero is `none`.
-/

namespace Geomc.Shape

open Geomc.Vec Geomc.Rect Geomc.Util

variable {K : Type} {n : ℕ} [Field K] [LinearOrder K]

/-- `Capsule::normal`, Capsule.h:100-102. -/
def Tube.capNormal (sqrt : K → K) (c : Tube K n) (p : Fin n → K) : Option (Fin n → K) :=
  (c.nearestAxis p).bind fun a => unit sqrt (p - a)

/-- The direction before it is made a unit vector, Cylinder.h:138-170.  `s` is the fraction along the axis, `rDist` the distance from
the axis and `r` the radial direction, which is undefined on the axis but only used in two of the four branches. -/
def Tube.cylOut (c : Tube K n) (lenA s rDist : K) (r : Option (Fin n → K)) (p : Fin n → K) : Option (Fin n → K) :=
  if s < 0 ∨ 1 < s then
    if c.radius < rDist then r.map fun r i => p i - (r i * c.radius + c.p0 i)
    else some (if s < 0 then -c.axis else c.axis)
  else if rDist < c.radius ∧ lenA * stdMin s (1 - s) < c.radius - rDist then some (if s < 1 / 2 then -c.axis else c.axis)
  else r

/-- `Cylinder::normal`, Cylinder.h:137-172. -/
def Tube.cylNormal (sqrt : K → K) (c : Tube K n) (p : Fin n → K) : Option (Fin n → K) :=
  let a := c.axis
  let b := p - c.p0
  let b2 := mag2 b
  let a2 := mag2 a
  let d := dot a b
  if a2 = 0 then none
  else
    let s := d / a2
    let x2 := d * s
    let rDist := sqrt (b2 - x2)
    let r : Option (Fin n → K) := if rDist = 0 then none else some fun i => (p i - c.p0 i - s * a i) / rDist
    (c.cylOut (sqrt a2) s rDist r p).bind (unit sqrt)

/-- `Dilated::normal`, Dilated.h:88-91. -/
def dilNormal (normal : (Fin n → K) → Option (Fin n → K)) (p : Fin n → K) : Option (Fin n → K) := normal p

/-- `Rect<T,1>::project`, Rect.h:850-861. -/
def Height.project (h : Height K) (x : K) : K := if |x - h.lo| < |x - h.hi| then h.lo else h.hi

/-- A direction along the axis of an extrusion, up if the condition holds. -/
def upIf (b : Bool) : Fin (n + 1) → K := Fin.snoc (α := fun _ => K) 0 (if b then 1 else -1)

/-- `Extruded::normal`, Extruded.h:94-123 (as written, braces narrow the integers 1 and -1 to the coordinate type; modelled as
converted). -/
def extNormal (sqrt : K → K) (contains : (Fin n → K) → Bool) (sdf : (Fin n → K) → K) (project : (Fin n → K) → Fin n → K)
    (normal : (Fin n → K) → Option (Fin n → K)) (height : Height K) (p : Fin (n + 1) → K) : Option (Fin (n + 1) → K) :=
  let pBase : Fin n → K := Fin.init p
  let h := p (Fin.last n)
  if height.contains h then
    let capH := height.project h
    if contains pBase ∧ |h - capH| < |sdf pBase| then some (upIf (decide (height.hi ≤ capH)))
    else (normal pBase).map fun u => Fin.snoc (α := fun _ => K) u 0
  else if contains pBase then some (upIf (decide (height.hi ≤ h)))
  else unit sqrt (p - Fin.snoc (α := fun _ => K) (project pBase) (height.clip h))

end Geomc.Shape
