import Verif.Float.VecModel
import Mathlib.LinearAlgebra.Matrix.Notation
import Mathlib.Algebra.Order.Group.Unbundled.Abs

/-! # Model of the rotation aligning two directions in floating point

As in `Verif.Float.Model` every operation is the exact result rounded by `rnd`; the compiler is assumed not to contract
the products and sums of the matrix elements. -/

namespace Geomc.Flt

variable {K : Type} [Field K]

/-- `k = (1 - c) / (1 - c * c)`, geomc/linalg/AffineTransform.h:458.  Not defined where the divisor is zero. -/
def alignFactor [DecidableEq K] (rnd : K → K) (c : K) : Option K :=
  let d := rnd (1 - rnd (c * c))
  if d = 0 then none else some (rnd (rnd (1 - c) / d))

/-- `rotmat_direction_align` into a 4 × 4 matrix, geomc/linalg/AffineTransform.h:443-466 (the 3 × 3 versions at :468-491
and :562-585 have the same elements). -/
def rotmatAlignF [LinearOrder K] (rnd : K → K) (dir tgt : Fin 3 → K) : Option (Matrix (Fin 4) (Fin 4) K) :=
  let v := cross rnd dir tgt
  let c := dot rnd dir tgt
  if |c| = 1 then
    some (if c < 0 then !![-1, 0, 0, 0; 0, 1, 0, 0; 0, 0, -1, 0; 0, 0, 0, 1]
      else !![1, 0, 0, 0; 0, 1, 0, 0; 0, 0, 1, 0; 0, 0, 0, 1])
  else (alignFactor rnd c).map fun k =>
    let t := fun i j => rnd (rnd (v i * v j) * k)
    !![rnd (t 0 0 + c), rnd (t 1 0 - v 2), rnd (t 2 0 + v 1), 0;
       rnd (t 0 1 + v 2), rnd (t 1 1 + c), rnd (t 2 1 - v 0), 0;
       rnd (t 0 2 - v 1), rnd (t 1 2 + v 0), rnd (t 2 2 + c), 0;
       0, 0, 0, 1]

/-- `Vec<T,3>::align`, geomc/linalg/vecdetail/Vec3.h:341-351.  Not defined where `1 + c` is zero. -/
def alignF [DecidableEq K] (rnd : K → K) (src tgt v : Fin 3 → K) : Option (Fin 3 → K) :=
  let q := cross rnd src tgt
  let c := dot rnd src tgt
  let d := rnd (1 + c)
  if d = 0 then none
  else
    let k := rnd (1 / d)
    let t := fun i j => rnd (rnd (q i * q j) * k)
    let s := fun a b c => rnd (rnd (rnd (a * v 0) + rnd (b * v 1)) + rnd (c * v 2))
    some ![s (rnd (t 0 0 + c)) (rnd (t 1 0 - q 2)) (rnd (t 2 0 + q 1)),
      s (rnd (t 0 1 + q 2)) (rnd (t 1 1 + c)) (rnd (t 2 1 - q 0)),
      s (rnd (t 0 2 - q 1)) (rnd (t 1 2 + q 0)) (rnd (t 2 2 + c))]

end Geomc.Flt
