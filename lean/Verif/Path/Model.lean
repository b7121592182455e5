import Mathlib.Algebra.Order.Floor.Semiring
import Mathlib.Data.Real.Archimedean

/-! # Paths

Model of geomc/function/Path.h and of `Ray::at_multiple` (geomc/linalg/Ray.h:73-75) and `Vec::mix`
(geomc/linalg/vecdetail/VecBase.h:667-674). -/

namespace Geomc.Path

/-- A knot: `Ray<T,N>`. -/
structure Knot (N : ℕ) (K : Type) where
  origin : Fin N → K
  direction : Fin N → K

variable {N : ℕ} {K : Type} [Field K]

/-- `at_multiple(s)`, Ray.h:73-75. -/
def Knot.at (r : Knot N K) (s : K) : Fin N → K := fun i => r.origin i + r.direction i * s

/-- `mix(v, m)`, VecBase.h:667-674. -/
def mixV (a b : Fin N → K) (m : K) : Fin N → K := fun i => (1 - m) * a i + m * b i

/-- `ease`, Path.h:91-93. -/
def ease (t : K) : K := t * t * t * (t * (t * 6 - 15) + 10)

variable [LinearOrder K] [FloorSemiring K]

/-- The conversion `size_t n = t` (64 bit): truncation, undefined when the truncated value is not
representable. -/
def toSize (t : K) : Option ℕ := if -1 < t ∧ t < 2 ^ 64 then some ⌊t⌋₊ else none

/-- `eval`, Path.h:62-82. -/
def eval (knots : List (Knot N K)) (t : K) : Option (Fin N → K) := do
  let n ← toSize t
  let sz := knots.length
  if sz < 1 then some (fun _ => 0)
  else if t < 0 then
    let k ← knots[0]?
    some (k.at t)
  else if n ≥ sz - 1 then
    let t0 := t - sz + 1
    let k ← knots[sz - 1]?
    some (k.at t0)
  else
    let t0 := t - n
    let r0 ← knots[n]?
    let r1 ← knots[n + 1]?
    let v0 := r0.at t0
    let v1 := r1.at (t0 - 1)
    some (mixV v0 v1 (ease t0))

end Geomc.Path
