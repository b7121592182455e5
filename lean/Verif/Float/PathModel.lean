import Verif.Float.NoiseModel
import Verif.Float.GeomModel
import Verif.Path.Model

/-! # Model of paths in floating point

Every operation is the exact result rounded by `rnd`; the conversions of whole numbers to floating point are rounded too. -/

namespace Geomc.Flt

variable {K : Type} [Field K] {N : ℕ}

/-- `Vec::mix`, geomc/linalg/vecdetail/VecBase.h:667-674. -/
def mixVec (rnd : K → K) (a b : Fin N → K) (m : K) : Fin N → K :=
  let xim := rnd (1 - m)
  fun i => rnd (rnd (xim * a i) + rnd (m * b i))

/-- `ease`, geomc/function/Path.h:91-93. -/
def easeF (rnd : K → K) (t : K) : K := rnd (rnd (rnd (t * t) * t) * rnd (rnd (t * rnd (rnd (t * 6) - 15)) + 10))

variable [LinearOrder K] [FloorSemiring K]

/-- `eval`, Path.h:62-82. -/
def pathF (rnd : K → K) (knots : List (Path.Knot N K)) (t : K) : Option (Fin N → K) := do
  let n ← Path.toSize t
  let sz := knots.length
  if sz < 1 then some (fun _ => 0)
  else if t < 0 then
    let k ← knots[0]?
    some (rayAt rnd k.origin k.direction t)
  else if n ≥ sz - 1 then
    let t0 := rnd (rnd (t - rnd (sz : K)) + 1)
    let k ← knots[sz - 1]?
    some (rayAt rnd k.origin k.direction t0)
  else
    let t0 := rnd (t - rnd (n : K))
    let r0 ← knots[n]?
    let r1 ← knots[n + 1]?
    let v0 := rayAt rnd r0.origin r0.direction t0
    let v1 := rayAt rnd r1.origin r1.direction (rnd (t0 - 1))
    some (mixVec rnd v0 v1 (easeF rnd t0))

end Geomc.Flt
