import Verif.Rect.Model
import Verif.Vec.Model
import Verif.Util.Model

/-!
# Spheres, capsules and cylinders

geomc/shape/Sphere.h, geomc/shape/Capsule.h, geomc/shape/Cylinder.h, over exact arithmetic with the square root as a
parameter.  `none` is a division by zero.
-/

namespace Geomc.Shape

open Geomc.Vec (stdMin stdMax mag2 dot unit withLength projectOn)
open Geomc.Rect (Box spanningCorners Ext)

variable {K : Type} {n : ℕ} [Field K] [LinearOrder K]

/-- `quadratic_solve`, geomc/function/Utils.h:180-192, for any element type (see `Util.quadraticSolve`). -/
def quadSolve (sqrt : K → K) (a b c : K) : Option (K × K) :=
  let descr := b * b - 4 * a * c
  if descr < 0 ∨ (a = 0 ∧ b = 0) then none
  else
    let q := -(1 / 2) * (b + if 0 ≤ b then sqrt descr else -sqrt descr)
    some (if a ≠ 0 then q / a else c / q, if q ≠ 0 then c / q else q / a)

/-- `geom::clamp`, geomc/function/Utils.h:87-90. -/
def clamp1 (v lo hi : K) : K := stdMax lo (stdMin hi v)

/-! ### Sphere -/

structure Ball (K : Type) (n : ℕ) where
  center : Fin n → K
  r : K

/-- `bounds`, geomc/shape/Sphere.h:57-60. -/
def Ball.bounds (s : Ball K n) : Box K n := ⟨fun i => s.center i - s.r, fun i => s.center i + s.r⟩

/-- `contains`, geomc/shape/Sphere.h:63-65. -/
def Ball.contains (s : Ball K n) (p : Fin n → K) : Bool := decide (mag2 (s.center - p) ≤ s.r * s.r)

/-- `intersects(Sphere)`, geomc/shape/Sphere.h:72-74. -/
def Ball.intersectsBall (s o : Ball K n) : Bool := decide (mag2 (s.center - o.center) ≤ s.r * s.r)

/-- `intersects(Rect)`, geomc/shape/Sphere.h:76-78: the radius is converted to a point with equal coordinates. -/
def Ball.intersectsBox (s : Ball K n) (b : Box K n) : Bool := decide (b.dist2 (fun _ => s.r) ≤ s.r * s.r)

/-- `convex_support`, geomc/shape/Sphere.h:80-82. -/
def Ball.support (sqrt : K → K) (s : Ball K n) (d : Fin n → K) : Option (Fin n → K) :=
  (unit sqrt d).map fun u i => s.center i + u i * s.r

/-- `sdf`, geomc/shape/Sphere.h:85-87. -/
def Ball.sdf (sqrt : K → K) (s : Ball K n) (p : Fin n → K) : K := sqrt (mag2 (p - s.center)) - s.r

/-- `project`, `normal`: geomc/shape/Sphere.h:92-99. -/
def Ball.project (sqrt : K → K) (s : Ball K n) (p : Fin n → K) : Option (Fin n → K) :=
  (unit sqrt (p - s.center)).map fun u i => u i * s.r + s.center i
def Ball.normal (sqrt : K → K) (s : Ball K n) (p : Fin n → K) : Option (Fin n → K) := unit sqrt (p - s.center)

/-- `intersect(Ray)`, geomc/shape/Sphere.h:102-118; `none` is the empty interval. -/
def Ball.ray (sqrt : K → K) (s : Ball K n) (o d : Fin n → K) : Option (K × K) :=
  let x0 := s.center - o
  (quadSolve sqrt (mag2 d) (-2 * dot d x0) (mag2 x0 - s.r * s.r)).map fun r => (stdMin r.1 r.2, stdMax r.1 r.2)

/-! ### Capsule -/

/-- A capsule or a cylinder: the ends of the axis and the radius. -/
structure Tube (K : Type) (n : ℕ) where
  p0 : Fin n → K
  p1 : Fin n → K
  radius : K

def Tube.axis (c : Tube K n) : Fin n → K := c.p1 - c.p0

/-- geomc/shape/Capsule.h:48-50. -/
def Tube.capBounds (c : Tube K n) : Box K n := (spanningCorners c.p0 c.p1).dilated (fun _ => c.radius)

/-- `sdf`, geomc/shape/Capsule.h:85-90. -/
def Tube.capSdf (sqrt : K → K) (c : Tube K n) (p : Fin n → K) : Option K :=
  let b := p - c.p0
  if mag2 c.axis = 0 then none
  else
    let frac := clamp1 (dot b c.axis / mag2 c.axis) 0 1
    some (sqrt (mag2 (b - frac • c.axis)) - c.radius)

/-- `contains`, `intersects(Sphere)`: geomc/shape/Capsule.h:57-59, :73-75. -/
def Tube.capContains (sqrt : K → K) (c : Tube K n) (p : Fin n → K) : Option Bool :=
  (c.capSdf sqrt p).map fun s => decide (s ≤ 0)
def Tube.capIntersectsBall (sqrt : K → K) (c : Tube K n) (s : Ball K n) : Option Bool :=
  (c.capSdf sqrt s.center).map fun x => decide (x ≤ s.r)

/-- `nearest_axis_point`, geomc/shape/Capsule.h:61-66 (as written, `clamp` mixes types and does not compile; modelled with
the bounds converted). -/
def Tube.nearestAxis (c : Tube K n) (p : Fin n → K) : Option (Fin n → K) :=
  if mag2 c.axis = 0 then none
  else some (c.p0 + clamp1 (dot (p - c.p0) c.axis / mag2 c.axis) 0 1 • c.axis)

/-- `convex_support`, geomc/shape/Capsule.h:77-81. -/
def Tube.capSupport (sqrt : K → K) (c : Tube K n) (d : Fin n → K) : Fin n → K :=
  (if 0 ≤ dot d c.axis then c.p1 else c.p0) + withLength sqrt d c.radius

/-- `project`, geomc/shape/Capsule.h:95-99. -/
def Tube.capProject (sqrt : K → K) (c : Tube K n) (p : Fin n → K) : Option (Fin n → K) :=
  (c.nearestAxis p).map fun a => a + withLength sqrt (p - a) c.radius

/-! ### Cylinder -/

/-- `contains`, geomc/shape/Cylinder.h:59-69. -/
def Tube.cylContains (c : Tube K n) (p : Fin n → K) : Option Bool :=
  let b := p - c.p0
  let b2 := mag2 b
  let a2 := mag2 c.axis
  let d := dot c.axis b
  if a2 = 0 then none
  else
    let x2 := d * d / a2
    some (decide (b2 - x2 ≤ c.radius * c.radius) && (decide (x2 < a2) && decide (0 ≤ d)))

/-- `sdf`, geomc/shape/Cylinder.h:76-103. -/
def Tube.cylSdf (sqrt : K → K) (c : Tube K n) (p : Fin n → K) : Option K :=
  let b := p - c.p0
  let b2 := mag2 b
  let a2 := mag2 c.axis
  let d := dot c.axis b
  if a2 = 0 then none
  else
    let s := d / a2
    let x2 := d * s
    let r := sqrt (b2 - x2) - c.radius
    let s := stdMax (-s) (s - 1)
    let sign : K := if s < 0 ∧ r < 0 then -1 else 1
    let s := stdMax s 0
    let r := stdMax r 0
    let x2 := s * s * a2
    some (sign * sqrt (r * r + x2))

/-- `project`, geomc/shape/Cylinder.h:105-135. -/
def Tube.cylProject (sqrt : K → K) (c : Tube K n) (p : Fin n → K) : Option (Fin n → K) :=
  let a := c.axis
  let b := p - c.p0
  let b2 := mag2 b
  let a2 := mag2 a
  let d := dot a b
  if a2 = 0 then none
  else
    let s := d / a2
    let x2 := d * s
    let rDist := sqrt (b2 - x2)
    if rDist = 0 then none
    else
      let r : Fin n → K := fun i => (p i - c.p0 i - s * a i) / rDist
      let (s', rDist') : K × K :=
        if s < 0 ∨ 1 < s then (if s < 0 then 0 else 1, stdMin rDist c.radius)
        else if rDist < c.radius ∧ sqrt a2 * stdMin s (1 - s) < c.radius - rDist then (if s < 1 / 2 then 0 else 1, rDist)
        else (s, c.radius)
      some fun i => c.p0 i + s' * a i + r i * rDist'

/-- `bounds`, geomc/shape/Cylinder.h:177-192. -/
def Tube.cylBounds (sqrt : K → K) (c : Tube K n) : Option (Box K n) :=
  let a := c.axis
  if mag2 a = 0 then none
  else
    let c0 : Fin n → K := fun i => c.radius * sqrt (1 - a i * a i / mag2 a)
    some (Box.union ⟨c.p0 - c0, c.p0 + c0⟩ ⟨c.p1 - c0, c.p1 + c0⟩)

/-- `convex_support`, geomc/shape/Cylinder.h:194-198. -/
def Tube.cylSupport (sqrt : K → K) (c : Tube K n) (d : Fin n → K) : Option (Fin n → K) :=
  (unit sqrt (d - projectOn d c.axis)).map fun u i =>
    (if 0 < dot d c.axis then c.p1 else c.p0) i + u i * c.radius

/-- An interval of ray parameters met with another. -/
def meet (x y : Ext K × Ext K) : Ext K × Ext K := (stdMax x.1 y.1, stdMin x.2 y.2)
def full : Ext K × Ext K := (⊥, ((⊤ : WithTop K) : Ext K))
def ival (x y : K) : Ext K × Ext K := (((stdMin x y : K) : Ext K), ((stdMax x y : K) : Ext K))

/-- The part of a ray within the infinite cylinder, geomc/shape/Cylinder.h:221-238. -/
def wallSpan (sqrt : K → K) (k0 k1 k2 : K) : Option (Ext K × Ext K) :=
  match (if k0 ≠ 0 then quadSolve sqrt k0 k1 k2 else none) with
  | some roots => some (ival roots.1 roots.2)
  | none => if k2 < 0 then some full else none

/-- `intersect(Ray)`, geomc/shape/Cylinder.h:201-254.  The outer `none` is a division by zero, the inner one the empty
interval. -/
def Tube.cylRay (sqrt : K → K) (c : Tube K n) (o v : Fin n → K) : Option (Option (Ext K × Ext K)) :=
  let a := c.axis
  let b := o - c.p0
  let a2 := mag2 a
  let b2 := mag2 b
  let d := dot a b
  if a2 = 0 then none
  else
    let s := d / a2
    let x2 := d * s
    let m := dot v a
    let k0 := mag2 v - m * m / a2
    let k1 := 2 * (dot b v - d * m / a2)
    let k2 := b2 - x2 - c.radius * c.radius
    some ((wallSpan sqrt k0 k1 k2).bind fun interval =>
      if m ≠ 0 then
        let z1 := dot a (o - c.p1)
        some (meet interval (ival (-d / m) (-z1 / m)))
      else if s < 0 ∨ 1 < s then none else some interval)

end Geomc.Shape
