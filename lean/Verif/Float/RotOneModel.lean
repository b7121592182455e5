import Verif.Float.RotModel

/-! # Model of the rotation about a point, without an inverse, in floating point -/

namespace Geomc.Flt

variable {K : Type} [Field K]

/-- `rotmat(into, x, y, z, px, py, pz, theta)`, geomc/linalg/AffineTransform.h:393-427: the first three rows; the last is that of
the identity. -/
def rotmatAboutF (rnd : K → K) (k p : Fin 3 → K) (c s : K) : Matrix (Fin 3) (Fin 4) K :=
  let (x, y, z) := (k 0, k 1, k 2)
  let (px, py, pz) := (p 0, p 1, p 2)
  let c1 := rnd (1 - c)
  let x2 := rnd (x * x)
  let y2 := rnd (y * y)
  let z2 := rnd (z * z)
  let q0 := diffOfProducts rnd py z pz y
  let q1 := diffOfProducts rnd pz x px z
  let q2 := diffOfProducts rnd px y py x
  let s0 := sumOfProducts rnd py y pz z
  let s1 := sumOfProducts rnd px x pz z
  let s2 := sumOfProducts rnd px x py y
  let t0 := diffOfProducts rnd px (rnd (y2 + z2)) x s0
  let t1 := diffOfProducts rnd py (rnd (x2 + z2)) y s1
  let t2 := diffOfProducts rnd pz (rnd (x2 + y2)) z s2
  let u0 := sumOfProducts rnd t0 c1 q0 s
  let u1 := sumOfProducts rnd t1 c1 q1 s
  let u2 := sumOfProducts rnd t2 c1 q2 s
  let m := fun a b => rnd (rnd (a * b) * c1)
  !![rnd (x2 + rnd (c * rnd (y2 + z2))), rnd (m x y - rnd (z * s)), rnd (m x z + rnd (y * s)), u0;
     rnd (m x y + rnd (z * s)), rnd (y2 + rnd (c * rnd (x2 + z2))), rnd (m y z - rnd (x * s)), u1;
     rnd (m x z - rnd (y * s)), rnd (m y z + rnd (x * s)), rnd (z2 + rnd (c * rnd (x2 + y2))), u2]

end Geomc.Flt
