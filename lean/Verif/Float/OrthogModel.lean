import Verif.Float.VecModel
import Verif.LU.Model

/-! # Model of the Gram–Schmidt process in floating point

geomc/linalg/Orthogonal.h.  Every operation is the exact result rounded by `rnd`.  An array of vectors is `ℕ → Fin N → K`. -/

namespace Geomc.Flt

open Geomc.LU (loop loopFrom loopM)

variable {K : Type} [Field K] [LinearOrder K] {N : ℕ}

/-- `VecBase::project_on`, geomc/linalg/vecdetail/VecBase.h:630-633: the axis is multiplied, then divided. -/
def projectOn (rnd : K → K) (x axis : Fin N → K) : Fin N → K :=
  let m2 := mag2 rnd axis
  if m2 ≠ 0 then fun i => rnd (rnd (axis i * dot rnd x axis) / m2) else axis

/-- `orthogonalize`, geomc/linalg/Orthogonal.h:187-196. -/
def orthogonalize (rnd : K → K) (basis : ℕ → Fin N → K) (n : ℕ) : ℕ → Fin N → K :=
  loopFrom 1 n (fun i b => loop i (fun j b => Function.update b i (sub rnd (b i) (projectOn rnd (b i) (b j)))) b) basis

/-- `orthonormalize`, geomc/linalg/Orthogonal.h:216-221.  Not defined where a vector of length zero is divided by its length. -/
def orthonormalize (rnd sqrt : K → K) (basis : ℕ → Fin N → K) (n : ℕ) : Option (ℕ → Fin N → K) :=
  loopM n (fun i b =>
    let m := mag rnd sqrt (b i)
    if m = 0 then none else some (Function.update b i fun k => rnd (b i k / m))) (orthogonalize rnd basis n)

end Geomc.Flt
