import Verif.Float.VecModel
import Mathlib.LinearAlgebra.Matrix.Notation

/-! # Model of the rotation matrices in floating point

As in `Verif.Float.Model` every operation is the exact result rounded by `rnd`, and the compiler is assumed not to contract
products and sums.  `c` and `s` stand for what `std::cos` and `std::sin` return. -/

namespace Geomc.Flt

variable {K : Type} [Field K]

/-- `rotmat(into, x, y, z, theta)`, geomc/linalg/AffineTransform.h:340-353. -/
def rotmatF (rnd : K → K) (k : Fin 3 → K) (c s : K) : Matrix (Fin 4) (Fin 4) K :=
  let (x, y, z) := (k 0, k 1, k 2)
  let c1 := rnd (1 - c)
  let m3 := fun a b => rnd (rnd (c1 * a) * b)
  !![rnd (c + m3 x x), rnd (m3 x y - rnd (s * z)), rnd (m3 x z + rnd (s * y)), 0;
     rnd (m3 y x + rnd (s * z)), rnd (c + m3 y y), rnd (m3 y z - rnd (s * x)), 0;
     rnd (m3 z x - rnd (s * y)), rnd (m3 z y + rnd (s * x)), rnd (c + m3 z z), 0;
     0, 0, 0, 1]

/-- `rotmat(into, q)`, geomc/linalg/AffineTransform.h:363-390; `q` is `(x, y, z, w)`. -/
def rotmatQuatF (rnd : K → K) (q : Fin 4 → K) : Matrix (Fin 4) (Fin 4) K :=
  let (x, y, z, w) := (q 0, q 1, q 2, q 3)
  let x2 := rnd (x * x)
  let y2 := rnd (y * y)
  let z2 := rnd (z * z)
  let w2 := rnd (w * w)
  let twox := rnd (2 * x)
  let twoy := rnd (2 * y)
  let twoz := rnd (2 * z)
  let xy := rnd (twox * y)
  let xz := rnd (twox * z)
  let xw := rnd (twox * w)
  let yz := rnd (twoy * z)
  let yw := rnd (twoy * w)
  let zw := rnd (twoz * w)
  !![rnd (rnd (rnd (w2 + x2) - y2) - z2), rnd (xy - zw), rnd (xz + yw), 0;
     rnd (xy + zw), rnd (rnd (rnd (w2 - x2) + y2) - z2), rnd (yz - xw), 0;
     rnd (xz - yw), rnd (yz + xw), rnd (rnd (rnd (w2 - x2) - y2) + z2), 0;
     0, 0, 0, 1]

/-- The matrix without the sine terms, geomc/linalg/AffineTransform.h:598-616. -/
def rotFac (rnd : K → K) (k p : Fin 3 → K) (c : K) : Matrix (Fin 3) (Fin 4) K :=
  let (x, y, z) := (k 0, k 1, k 2)
  let (px, py, pz) := (p 0, p 1, p 2)
  let c1 := rnd (1 - c)
  let x2 := rnd (x * x)
  let y2 := rnd (y * y)
  let z2 := rnd (z * z)
  let xyc := rnd (rnd (x * y) * c1)
  let xzc := rnd (rnd (x * z) * c1)
  let yzc := rnd (rnd (y * z) * c1)
  let d := fun a b e => rnd (a + rnd (c * rnd (b + e)))
  let t := fun pa b e a pb kb pe ke => rnd (rnd (rnd (pa * rnd (b + e)) - rnd (a * rnd (rnd (pb * kb) + rnd (pe * ke)))) * c1)
  !![d x2 y2 z2, xyc, xzc, t px y2 z2 x py y pz z;
     xyc, d y2 x2 z2, yzc, t py x2 z2 y px x pz z;
     xzc, yzc, d z2 x2 y2, t pz x2 y2 z px x py y]

/-- The sine terms, geomc/linalg/AffineTransform.h:617-621. -/
def rotSine (rnd : K → K) (k p : Fin 3 → K) (s : K) : Matrix (Fin 3) (Fin 4) K :=
  let (x, y, z) := (k 0, k 1, k 2)
  let (px, py, pz) := (p 0, p 1, p 2)
  let t := fun a b e f => rnd (rnd (rnd (a * b) - rnd (e * f)) * s)
  !![0, rnd (-z * s), rnd (y * s), t py z pz y;
     rnd (z * s), 0, rnd (-x * s), t pz x px z;
     rnd (-y * s), rnd (x * s), 0, t px y py x]

/-- `rotmat(out_mat, out_inv, …)`, geomc/linalg/AffineTransform.h:590-635: the first three rows of the two matrices; the last
is that of the identity. -/
def rotmatBothF (rnd : K → K) (k p : Fin 3 → K) (c s : K) : Matrix (Fin 3) (Fin 4) K × Matrix (Fin 3) (Fin 4) K :=
  (Matrix.of fun i j => rnd (rotFac rnd k p c i j + rotSine rnd k p s i j), Matrix.of fun i j => rnd (rotFac rnd k p c i j - rotSine rnd k p s i j))

end Geomc.Flt
