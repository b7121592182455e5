import Verif.Float.VecModel
import Verif.Shape.Model

/-! # Model of quadratic equations, and of rays and spheres, in floating point

Every operation is the exact result rounded by `rnd`, as in `Verif.Float.Model`. -/

namespace Geomc.Flt

open Geomc.Rect (Box spanningCorners)
open Geomc.Shape (Ball)

variable {K : Type} [Field K] [LinearOrder K] {n : ℕ}

/-- `quadratic_solve`, geomc/function/Utils.h:180-192: `none` is the `false` return, with the results unaltered.  `neg` says whether
`b` has its sign bit set where it is zero.  The quotients that are discarded, of zero divisors, are not evaluated. -/
def quadSolve (rnd sqrt : K → K) (neg : Bool) (a b c : K) : Option (K × K) :=
  let descr := diffOfProducts rnd b b (rnd (4 * a)) c
  if descr < 0 ∨ (a = 0 ∧ b = 0) then none
  else
    let q := rnd (-(1 / 2) * rnd (b + if b < 0 ∨ (b = 0 ∧ neg = true) then -rnd (sqrt descr) else rnd (sqrt descr)))
    some (if a ≠ 0 then rnd (q / a) else rnd (c / q), if q ≠ 0 then rnd (c / q) else rnd (q / a))

/-- `Sphere::intersect(Ray)`, geomc/shape/Sphere.h:102-118; `none` is the empty interval.  The factor two is exact. -/
def ballIntersectRay (rnd sqrt : K → K) (neg : Bool) (s : Ball K n) (o d : Fin n → K) : Option (K × K) :=
  let r2 := rnd (s.r * s.r)
  let x0 := sub rnd s.center o
  let a := mag2 rnd d
  let b := rnd (-2 * dot rnd d x0)
  let c := rnd (mag2 rnd x0 - r2)
  (quadSolve rnd sqrt neg a b c).map fun r => (min r.1 r.2, max r.1 r.2)

end Geomc.Flt
