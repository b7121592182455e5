import Verif.LU.FloatModel
import Verif.Shape.SimplexModel

/-! # Model of point tests of simplexes in floating point

Every operation is the exact result rounded by `rnd`, as in `Verif.LU.FloatModel`. -/

namespace Geomc.Flt

open Geomc.Shape (Simp oneThen)
open Geomc.LU (linearSolveF)

variable {K : Type} [Field K] [LinearOrder K] {N : ℕ}

/-- The checks at the end of `contains`, geomc/shape/Simplex.h:441-446: `k` weights from `i` on. -/
def weightsOkF (rnd : K → K) (x : ℕ → K) : ℕ → ℕ → K → Bool
  | 0, _, _ => true
  | k + 1, i, sum =>
    let sum := rnd (sum + x i)
    if x i < 0 ∨ sum > 1 then false else weightsOkF rnd x k (i + 1) sum

/-- `Simplex::contains`, geomc/shape/Simplex.h:420-447.  `none` where a number is divided by zero. -/
def simpContains (rnd : K → K) (fused : Bool) (s : Simp K N) (p : Fin N → K) : Option Bool :=
  if s.n < N + 1 then some false
  else (linearSolveF rnd fused (fun r c => oneThen (s.pts c) r) (N + 1) 1 (fun r _ => oneThen p r) 1).map fun x =>
    if x.1 = false then false else weightsOkF rnd (fun i => x.2 i 0) N 1 0

end Geomc.Flt
