import Verif.Affine.Model
import Verif.Orthog.Model
import Verif.Shape.WrapModel

/-!
# Planes: geomc/shape/Plane.h
-/

namespace Geomc.Shape

open Geomc.Vec Geomc.Rect Geomc.Affine

variable {K : Type} {n : ℕ} [Field K] [LinearOrder K]

/-- geomc/shape/Plane.h:26-28. -/
structure Plane (K : Type) (n : ℕ) where
  normal : Fin n → K
  d : K

instance : DecidableEq (Plane K n) := fun a b =>
  decidable_of_iff (a.normal = b.normal ∧ a.d = b.d) (by cases a; cases b; simp)

/-- `Plane()`, Plane.h:38. -/
def Plane.default : Plane K (n + 1) := ⟨Pi.single 0 1, 0⟩

/-- `Plane(n)`, Plane.h:44-46. -/
def Plane.ofNormal (sqrt : K → K) (v : Fin n → K) : Option (Plane K n) := (unit sqrt v).map fun u => ⟨u, 0⟩

/-- `Plane(n, pt)`, Plane.h:53-55. -/
def Plane.through (sqrt : K → K) (v pt : Fin n → K) : Option (Plane K n) := (unit sqrt v).map fun u => ⟨u, -dot pt u⟩

/-- `from_basis`, Plane.h:66-79, for the vector `w` returned by `orthogonal(bases)`. -/
def Plane.fromBasis (sqrt : K → K) (w : Fin n → K) : Option (Plane K n) := Plane.ofNormal sqrt w
def Plane.fromBasisAt (sqrt : K → K) (w p : Fin n → K) : Option (Plane K n) := Plane.through sqrt w p

/-- The edges at the first vertex, Plane.h:88-93. -/
def edges (points : ℕ → Fin n → K) (i : ℕ) : Fin n → K := points (i + 1) - points 0

/-- `from_simplex`, Plane.h:87-95, in two, three, and more dimensions (`orthogonal` is a different function in each case). -/
def Plane.fromSimplex2 (sqrt : K → K) (points : ℕ → Fin 2 → K) : Option (Plane K 2) :=
  Plane.fromBasisAt sqrt (LU.orthogonal2 (edges points 0)) (points 0)
def Plane.fromSimplex3 (sqrt : K → K) (points : ℕ → Fin 3 → K) : Option (Plane K 3) :=
  Plane.fromBasisAt sqrt (LU.orthogonal3 (edges points 0) (edges points 1)) (points 0)
def Plane.fromSimplex (sqrt : K → K) (points : ℕ → Fin n → K) : Option (Plane K n) :=
  (LU.orthogonal (fun r c => if h : c < n then edges points r ⟨c, h⟩ else 0) n).bind fun w =>
    Plane.fromBasisAt sqrt (fun c => w c) (points 0)

/-- `distance` and `sdf`, Plane.h:105-114. -/
def Plane.distance (P : Plane K n) (p : Fin n → K) : K := dot P.normal p + P.d
def Plane.sdf (P : Plane K n) (p : Fin n → K) : K := P.distance p

/-- `contains(point)` and `contains(shape)`, Plane.h:121-133. -/
def Plane.contains (P : Plane K n) (p : Fin n → K) : Bool := decide (P.distance p ≤ 0)
def Plane.containsShape (support : (Fin n → K) → Fin n → K) (P : Plane K n) : Bool :=
  decide (dot (support P.normal) P.normal ≤ -P.d)

/-- `project`, `origin`: Plane.h:138-147. -/
def Plane.project (P : Plane K n) (p : Fin n → K) : Fin n → K := fun i => p i - (dot p P.normal + P.d) * P.normal i
def Plane.origin (P : Plane K n) : Fin n → K := fun i => -P.d * P.normal i

/-- `apply`, `apply_inverse` and the operators, Plane.h:153-169, :222-261. -/
def Plane.apply (sqrt : K → K) (P : Plane K n) (x : XF K n) : Option (Plane K n) :=
  let p0 : Fin n → K := fun i => P.normal i * P.d
  let p1 := x.apply p0
  (unit sqrt (x.applyNormal P.normal)).map fun u => ⟨u, dot p1 u⟩
def Plane.applyInverse (sqrt : K → K) (P : Plane K n) (x : XF K n) : Option (Plane K n) :=
  let p0 : Fin n → K := fun i => P.normal i * P.d
  let p1 := x.applyInverse p0
  (unit sqrt (x.applyInverseNormal P.normal)).map fun u => ⟨u, dot p1 u⟩

/-- `intersects(shape)`, Plane.h:175-179. -/
def Plane.intersects (support : (Fin n → K) → Fin n → K) (P : Plane K n) : Bool :=
  decide (0 < dot (support P.normal) P.normal + P.d) && decide (dot (support (-P.normal)) P.normal + P.d ≤ 0)

/-- `intersects(Sphere)`, Plane.h:185-187. -/
def Plane.intersectsSphere (P : Plane K n) (s : Ball K n) : Bool := decide (s.r ≤ P.distance s.center)

/-- `intersects(hull, npts)`, Plane.h:196-211: the state is `negative`, uninitialised before the first point, and the result
once there is one. -/
def Plane.hullStep (P : Plane K n) (hull : ℕ → Fin n → K) (s : Option Bool × Option Bool) (i : ℕ) : Option Bool × Option Bool :=
  if s.2.isSome then s
  else
    let dist := P.distance (hull i)
    if 0 < i then
      if dist = 0 ∨ some (decide (dist < 0)) ≠ s.1 then (s.1, some false) else s
    else (some (decide (dist < 0)), none)
def Plane.intersectsHull (P : Plane K n) (hull : ℕ → Fin n → K) (npts : ℕ) : Bool :=
  ((List.range npts).foldl (P.hullStep hull) (none, none)).2.getD false

/-- `dilate(Plane)`, geomc/shape/Dilated.h:149-152. -/
def Plane.dilate (P : Plane K n) (r : K) : Plane K n := ⟨P.normal, P.d + r⟩

end Geomc.Shape
