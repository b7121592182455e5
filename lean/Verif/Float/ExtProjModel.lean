import Verif.Float.VecModel
import Verif.Shape.WrapModel

/-! # Model of the projection to extruded shapes in floating point

geomc/shape/Extruded.h.  Every operation is the exact result rounded by `rnd`; comparisons are exact. -/

namespace Geomc.Flt

open Geomc.Shape (Height)

variable {K : Type} [Field K] [LinearOrder K] {n : ℕ}

/-- `Extruded::project`, geomc/shape/Extruded.h:131-148, over a base with the given test and projection. -/
def extrudedProject (rnd : K → K) (contains : (Fin n → K) → Bool) (project : (Fin n → K) → Fin n → K) (height : Height K) (p : Fin (n + 1) → K) :
    Fin (n + 1) → K :=
  let h := p (Fin.last n)
  let hCap := if |rnd (h - height.lo)| < |rnd (h - height.hi)| then height.lo else height.hi
  let pBase : Fin n → K := Fin.init p
  let pProj := project pBase
  let wall : Fin (n + 1) → K := Fin.snoc (α := fun _ => K) pProj (height.clip h)
  let cap : Fin (n + 1) → K :=
    if contains pBase then Fin.snoc (α := fun _ => K) pBase hCap else Fin.snoc (α := fun _ => K) pProj hCap
  if dist2 rnd p wall < dist2 rnd p cap then wall else cap

end Geomc.Flt
