import Verif.Float.GeomModel
import Verif.Shape.PlaneModel

/-! # Model of planes in floating point

Every operation is the exact result rounded by `rnd`, as in `Verif.Float.Model`.  `distance` and `contains` of a point are in
`Verif.Float.GeomModel`. -/

namespace Geomc.Flt

open Geomc.Shape (Plane)

variable {K : Type} [Field K] [LinearOrder K] {n : ℕ}

/-- `Plane(n, pt)`, geomc/shape/Plane.h:53-55. -/
def planeThrough (rnd sqrt : K → K) (v pt : Fin n → K) : Option (Plane K n) :=
  (unit rnd sqrt v).map fun u => ⟨u, -dot rnd pt u⟩

/-- `from_simplex` of the ends of a segment in two dimensions: Plane.h:87-95, :77-79 and `orthogonal`, geomc/linalg/Orthogonal.h:104-106. -/
def planeSegment (rnd sqrt : K → K) (p0 p1 : Fin 2 → K) : Option (Plane K 2) :=
  planeThrough rnd sqrt (LU.orthogonal2 (sub rnd p1 p0)) p0

/-- `from_simplex` of a triangle in three dimensions: Plane.h:87-95, :77-79 and `orthogonal`, geomc/linalg/Orthogonal.h:98-100. -/
def planeTriangle (rnd sqrt : K → K) (p0 p1 p2 : Fin 3 → K) : Option (Plane K 3) :=
  planeThrough rnd sqrt (cross rnd (sub rnd p1 p0) (sub rnd p2 p0)) p0

/-- `project`, Plane.h:137-139. -/
def planeProject (rnd : K → K) (P : Plane K n) (p : Fin n → K) : Fin n → K :=
  fun i => rnd (p i - rnd (rnd (dot rnd p P.normal + P.d) * P.normal i))

/-- `origin`, Plane.h:144-146. -/
def planeOrigin (rnd : K → K) (P : Plane K n) : Fin n → K := fun i => rnd (-P.d * P.normal i)

end Geomc.Flt
