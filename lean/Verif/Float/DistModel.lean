import Verif.Float.VecModel
import Verif.Shape.Model

/-! # Model of distances to shapes in floating point

Every operation is the exact result rounded by `rnd`, as in `Verif.Float.Model`. -/

namespace Geomc.Flt

open Geomc.Vec (stdMax stdMin)
open Geomc.Shape (Ball Tube clamp1)

variable {K : Type} [Field K] [LinearOrder K] {n : ℕ}

/-- `Sphere::sdf`, geomc/shape/Sphere.h:85-87. -/
def ballSdf (rnd sqrt : K → K) (s : Ball K n) (p : Fin n → K) : K := rnd (mag rnd sqrt (sub rnd p s.center) - s.r)

/-- `Sphere::project`, geomc/shape/Sphere.h:92-94. -/
def ballProject (rnd sqrt : K → K) (s : Ball K n) (p : Fin n → K) : Option (Fin n → K) :=
  (unit rnd sqrt (sub rnd p s.center)).map fun u i => rnd (rnd (u i * s.r) + s.center i)

/-- `Capsule::sdf`, geomc/shape/Capsule.h:85-90.  Not defined where the axis has length zero. -/
def capSdf (rnd sqrt : K → K) (c : Tube K n) (p : Fin n → K) : Option K :=
  let b := sub rnd p c.p0
  let axis := sub rnd c.p1 c.p0
  if mag2 rnd axis = 0 then none
  else
    let frac := clamp1 (rnd (dot rnd b axis / mag2 rnd axis)) 0 1
    some (rnd (mag rnd sqrt (fun i => rnd (b i - rnd (frac * axis i))) - c.radius))

/-- `Cylinder::sdf`, geomc/shape/Cylinder.h:76-103.  `none` where a number is divided by zero or the root of a negative number is taken. -/
def cylSdf (rnd sqrt : K → K) (c : Tube K n) (p : Fin n → K) : Option K :=
  let a := sub rnd c.p1 c.p0
  let b := sub rnd p c.p0
  let b2 := mag2 rnd b
  let a2 := mag2 rnd a
  let d := dot rnd a b
  if a2 = 0 then none
  else
    let s := rnd (d / a2)
    let x2 := rnd (d * s)
    if rnd (b2 - x2) < 0 then none
    else
      let r := rnd (rnd (sqrt (rnd (b2 - x2))) - c.radius)
      let s := stdMax (-s) (rnd (s - 1))
      let sign : K := if s < 0 ∧ r < 0 then -1 else 1
      let s := stdMax s 0
      let r := stdMax r 0
      let x2 := rnd (rnd (s * s) * a2)
      some (sign * rnd (sqrt (rnd (rnd (r * r) + x2))))

/-- `Cylinder::contains`, geomc/shape/Cylinder.h:59-69. -/
def cylContains (rnd : K → K) (c : Tube K n) (p : Fin n → K) : Option Bool :=
  let a := sub rnd c.p1 c.p0
  let b := sub rnd p c.p0
  let b2 := mag2 rnd b
  let a2 := mag2 rnd a
  let d := dot rnd a b
  if a2 = 0 then none
  else
    let x2 := rnd (rnd (d * d) / a2)
    some (decide (rnd (b2 - x2) ≤ rnd (c.radius * c.radius)) && (decide (x2 < a2) && decide (0 ≤ d)))

end Geomc.Flt
