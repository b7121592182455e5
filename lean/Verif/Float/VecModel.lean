import Verif.Float.Model
import Mathlib.Data.Fin.VecNotation
import Mathlib.Data.Fintype.Basic

/-! # Model of the rounded (floating-point) vector products

Vectors of `n` floats; every operation is the exact result rounded by `rnd`, as in `Verif.Float.Model`. -/

namespace Geomc.Flt

variable {K : Type} [Field K] {n : ℕ}

/-- `VecBase::dot`, geomc/linalg/vecdetail/VecBase.h:553-559: `sum = multiply_add(u[i], v[i], sum)` for each
index in turn, from zero. -/
def dot (rnd : K → K) (u v : Fin n → K) : K :=
  (List.finRange n).foldl (fun sum i => multiplyAdd rnd (u i) (v i) sum) 0

/-- `VecBase::mag2`, VecBase.h:573-580. -/
def mag2 (rnd : K → K) (u : Fin n → K) : K :=
  (List.finRange n).foldl (fun sum i => multiplyAdd rnd (u i) (u i) sum) 0

/-- `VecBase::mag`, VecBase.h:565-567.  `std::sqrt` is the exact root, rounded. -/
def mag (rnd sqrt : K → K) (u : Fin n → K) : K := rnd (sqrt (mag2 rnd u))

/-- `VecBase::sub`, VecBase.h:499-505. -/
def sub (rnd : K → K) (u v : Fin n → K) : Fin n → K := fun i => rnd (u i - v i)

/-- `VecBase::dist`, VecBase.h:587-589. -/
def dist (rnd sqrt : K → K) (u v : Fin n → K) : K := mag rnd sqrt (sub rnd u v)

/-- `VecBase::dist2`, VecBase.h:596-598. -/
def dist2 (rnd : K → K) (u v : Fin n → K) : K := mag2 rnd (sub rnd u v)

/-- `VecBase::unit`, VecBase.h:538-545.  Not defined where the length is zero. -/
def unit [DecidableEq K] (rnd sqrt : K → K) (u : Fin n → K) : Option (Fin n → K) :=
  let m := mag rnd sqrt u
  if m = 0 then none else some fun i => rnd (u i / m)

/-- `Vec<T,3>::cross`, geomc/linalg/vecdetail/Vec3.h:206-218. -/
def cross (rnd : K → K) (u v : Fin 3 → K) : Fin 3 → K :=
  ![diffOfProducts rnd (u 1) (v 2) (u 2) (v 1),
    diffOfProducts rnd (u 2) (v 0) (u 0) (v 2),
    diffOfProducts rnd (u 0) (v 1) (u 1) (v 0)]

end Geomc.Flt
