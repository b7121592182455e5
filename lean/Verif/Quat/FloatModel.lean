import Verif.Quat.Model
import Verif.Float.VecModel

/-!
# Quaternions in floating point

geomc/linalg/Quaternion.h as in `Verif.Quat.Model`, with the result of each operation rounded by `rnd`.  `s + a * b` may be compiled to two
operations or, where contraction is allowed, to one fused operation: `fused` says which.  The sine and cosine of half the angle are
parameters.
-/

namespace Geomc.Quat

variable {K : Type} [Field K]

/-- `s + a * b` and `s - a * b`. -/
def addMul (rnd : K → K) (fused : Bool) (s a b : K) : K := rnd (s + if fused then a * b else rnd (a * b))
def subMul (rnd : K → K) (fused : Bool) (s a b : K) : K := rnd (s - if fused then a * b else rnd (a * b))

/-- `mult`, geomc/linalg/Quaternion.h:175-189. -/
def multF (rnd : K → K) (fused : Bool) (p q : Fin 4 → K) : Fin 4 → K :=
  let (x, y, z, w) := (p 0, p 1, p 2, p 3)
  let add := addMul rnd fused
  let sub := subMul rnd fused
  ![sub (add (add (rnd (w * q 0)) x (q 3)) y (q 2)) z (q 1),
    add (add (sub (rnd (w * q 1)) x (q 2)) y (q 3)) z (q 0),
    add (sub (add (rnd (w * q 2)) x (q 1)) y (q 0)) z (q 3),
    sub (sub (sub (rnd (w * q 3)) x (q 0)) y (q 1)) z (q 2)]

/-- `q * v`, geomc/linalg/Quaternion.h:123-126. -/
def rotateF (rnd : K → K) (fused : Bool) (q : Fin 4 → K) (v : Fin 3 → K) : Fin 3 → K :=
  imag (multF rnd fused (multF rnd fused q (mk v 0)) (conj q))

/-- `v * q`, geomc/linalg/Quaternion.h:133-136. -/
def unrotateF (rnd : K → K) (fused : Bool) (v : Fin 3 → K) (q : Fin 4 → K) : Fin 3 → K :=
  imag (multF rnd fused (multF rnd fused (conj q) (mk v 0)) q)

/-- `rotation_from_axis_angle`, geomc/linalg/Quaternion.h:86-92, given the computed cosine `ch` and sine `sh` of half the angle. -/
def fromAxisAngleF [DecidableEq K] (rnd sqrt : K → K) (axis : Fin 3 → K) (ch sh : K) : Option (Fin 4 → K) :=
  if axis 0 = 0 ∧ axis 1 = 0 ∧ axis 2 = 0 then some (mk axis 1)
  else (Flt.unit rnd sqrt axis).map fun k => mk (fun i => rnd (k i * sh)) ch

end Geomc.Quat
