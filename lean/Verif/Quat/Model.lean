import Mathlib.Analysis.SpecialFunctions.Pow.Real
import Verif.Vec.Model

/-!
# Quaternions

geomc/linalg/Quaternion.h.  A `Quat<T>` is a function `Fin 4 → K` with components `x, y, z, w`, `w` being the real part.
Cosines and sines are parameters where the real numbers are not needed.  `rotation_scale` (:228-234) and `slerp`
(:243-256) cannot be instantiated (`std::max(-1, …)` on mixed types; assignment to a `const` reference), so they are not
modelled.
-/

namespace Geomc.Quat

open Geomc.Vec

variable {K : Type} [Field K]

/-- `Quat(Vec<T,3> v, T w)`, geomc/linalg/Quaternion.h:47-52. -/
def mk (v : Fin 3 → K) (w : K) : Fin 4 → K := ![v 0, v 1, v 2, w]

/-- `identity`, geomc/linalg/Quaternion.h:75-77. -/
def identity : Fin 4 → K := ![0, 0, 0, 1]

/-- `imag`, `conj`: geomc/linalg/Quaternion.h:154-172. -/
def imag (q : Fin 4 → K) : Fin 3 → K := ![q 0, q 1, q 2]
def conj (q : Fin 4 → K) : Fin 4 → K := ![-q 0, -q 1, -q 2, q 3]

/-- `mult`, geomc/linalg/Quaternion.h:175-189. -/
def mult (p q : Fin 4 → K) : Fin 4 → K :=
  let (x, y, z, w) := (p 0, p 1, p 2, p 3)
  ![w * q 0 + x * q 3 + y * q 2 - z * q 1,
    w * q 1 - x * q 2 + y * q 3 + z * q 0,
    w * q 2 + x * q 1 - y * q 0 + z * q 3,
    w * q 3 - x * q 0 - y * q 1 - z * q 2]

/-- `q * v`, geomc/linalg/Quaternion.h:123-126. -/
def rotate (q : Fin 4 → K) (v : Fin 3 → K) : Fin 3 → K := imag (mult (mult q (mk v 0)) (conj q))

/-- `v * q`, geomc/linalg/Quaternion.h:133-136. -/
def unrotate (v : Fin 3 → K) (q : Fin 4 → K) : Fin 3 → K := imag (mult (mult (conj q) (mk v 0)) q)

/-- `rotation_direction_align`, geomc/linalg/Quaternion.h:100-107. -/
def directionAlign (v a : Fin 3 → K) : Fin 4 → K := mk (cross v a) (dot v a)

/-- `rotation_from_axis_angle`, geomc/linalg/Quaternion.h:86-92, given the cosine `ch` and sine `sh` of half the angle. -/
def fromAxisAngle [DecidableEq K] (sqrt : K → K) (axis : Fin 3 → K) (ch sh : K) : Option (Fin 4 → K) :=
  if axis 0 = 0 ∧ axis 1 = 0 ∧ axis 2 = 0 then some (mk axis 1)
  else (unit sqrt axis).map fun k => mk (fun i => k i * sh) ch

noncomputable section Real

/-- `to_axis_angle_rotation`, geomc/linalg/Quaternion.h:195-206 (it can be instantiated for `double` only); the result is
the axis and the angle. -/
def toAxisAngle (q : Fin 4 → ℝ) : Option ((Fin 3 → ℝ) × ℝ) :=
  let w := stdMin (stdMax (q 3) (-1)) 1
  let alpha := 2 * Real.arccos w
  if q 0 = 0 ∧ q 1 = 0 ∧ q 2 = 0 then some (![1, 0, 0], 0)
  else (unit Real.sqrt (imag q)).map fun k => (k, alpha)

/-- `to_angular_velocity`, geomc/linalg/Quaternion.h:212-221. -/
def toAngularVelocity (q : Fin 4 → ℝ) : Option (Fin 3 → ℝ) :=
  let w := stdMin (stdMax (q 3) (-1)) 1
  let alpha := 2 * Real.arccos w
  if isZero (imag q) then some 0
  else (unit Real.sqrt (imag q)).map fun k => fun i => alpha * k i

/-- `std::exp(Quat)`, geomc/linalg/Quaternion.h:295-303. -/
def exp (q : Fin 4 → ℝ) : Fin 4 → ℝ :=
  let k := Real.exp (q 3)
  let m := Real.sqrt (mag2 (imag q))
  if m = 0 then mk 0 (Real.exp (q 3))
  else
    let c := Real.cos m
    let s := Real.sin m
    mk (fun i => k * s * imag q i / m) (k * c)

/-- `std::log(Quat)`, geomc/linalg/Quaternion.h:308-314. -/
def log (q : Fin 4 → ℝ) : Option (Fin 4 → ℝ) :=
  let qm := Real.sqrt (mag2 q)
  let vm := Real.sqrt (mag2 (imag q))
  if qm = 0 ∨ vm = 0 then none
  else
    let k := Real.arccos (q 3 / qm)
    some (mk (fun i => k * imag q i / vm) (Real.log qm))

/-- `std::pow(Quat, a)`, geomc/linalg/Quaternion.h:319-328.  `conv` is the conversion of the angle to the type `U` of
the exponent (`U theta = …`): the identity for floating point exponents, truncation for integers. -/
def powWith (conv : ℝ → ℝ) (q : Fin 4 → ℝ) (a : ℝ) : Option (Fin 4 → ℝ) :=
  let mag := Real.sqrt (mag2 q)
  if mag = 0 then some identity
  else
    let theta := conv (Real.arccos (q 3 / mag))
    (unit Real.sqrt (imag q)).map fun nhat => fun i =>
      mag ^ a * mk (fun j => nhat j * Real.sin (a * theta)) (Real.cos (a * theta)) i

/-- The exponent is a floating point number. -/
def pow (q : Fin 4 → ℝ) (a : ℝ) : Option (Fin 4 → ℝ) := powWith id q a

/-- The exponent is an `int`: the angle, in `[0, π]`, is truncated to an `int` too. -/
def powInt (q : Fin 4 → ℝ) (a : ℤ) : Option (Fin 4 → ℝ) := powWith (fun x => (⌊x⌋ : ℤ)) q a

end Real

end Geomc.Quat
