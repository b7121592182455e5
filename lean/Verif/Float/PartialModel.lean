import Verif.Float.SupportModel

/-! # Model of the overlap test of shapes without a support point for the zero direction, in floating point

Spheres and dilated shapes divide the direction by its length: for the zero direction they divide zero by zero.  The support functions of this
model are `none` there, and so is the overlap test which calls them with it. -/

namespace Geomc.Flt

open Geomc.Shape (Simp GRes GStep Height gjkLimit orFirst)

variable {K : Type} [Field K] [LinearOrder K] {N : ℕ}

/-- `Dilated::convex_support`, geomc/shape/Dilated.h:93-96, of any shape. -/
def dilatedSupportP (rnd sqrt : K → K) (support : (Fin N → K) → Option (Fin N → K)) (r : K) (d : Fin N → K) : Option (Fin N → K) :=
  (support d).bind fun q => (unit rnd sqrt d).map fun k i => rnd (q i + rnd (k i * r))

/-- `Extruded::convex_support`, geomc/shape/Extruded.h:150-165, of any shape. -/
def extrudedSupportP (support : (Fin (N + 1) → K) → Option (Fin (N + 1) → K)) (height : Height K) (d : Fin (N + 2) → K) : Option (Fin (N + 2) → K) :=
  (support (orFirst (Fin.init d))).map fun q => Fin.snoc (α := fun _ => K) q (if 0 < d (Fin.last (N + 1)) then height.hi else height.lo)

/-- `Frustum::convex_support`, geomc/shape/Frustum.h:200-219, of any shape.  The sign is exact. -/
def frustumSupportP (rnd : K → K) (support : (Fin (N + 1) → K) → Option (Fin (N + 1) → K)) (height : Height K) (d : Fin (N + 2) → K) :
    Option (Fin (N + 2) → K) :=
  let h := height.clipped
  let sign : K := if h.lo < 0 then -1 else 1
  (support (orFirst (fun i => sign * Fin.init d i))).map fun q =>
    let s : Fin (N + 2) → K := Fin.snoc (α := fun _ => K) q 1
    let z := if 0 < dot rnd s d then h.hi else h.lo
    fun i => rnd (z * s i)

/-- One round of the loop, geomc/shape/Intersect.h:60-94. -/
def gjkStepP (rnd : K → K) (proj : Simp K N → Option (Simp K N × (Fin N → K))) (supA supB : (Fin N → K) → Option (Fin N → K)) (cur : Simp K N)
    (d : Fin N → K) : Option (GStep K N) :=
  (supA d).bind fun x => (supB (-d)).bind fun y => gjkStepF rnd proj (fun _ => x) (fun _ => y) cur d

/-- The loop, geomc/shape/Intersect.h:59-96, as in `gjkLoopF`. -/
def gjkLoopP (rnd : K → K) (proj : Simp K N → Option (Simp K N × (Fin N → K))) (supA supB : (Fin N → K) → Option (Fin N → K)) (axis : Fin N → K) :
    (left it : ℕ) → Simp K N → (Fin N → K) → Option (GRes K N)
  | 0, it, cur, d => (gjkStepP rnd proj supA supB cur d).map fun
    | .done h ax => ⟨h, ax, it⟩
    | .next _ _ => ⟨true, axis, it⟩
  | left + 1, it, cur, d => (gjkStepP rnd proj supA supB cur d).bind fun
    | .done h ax => some ⟨h, ax, it⟩
    | .next s d => if mag2 rnd d = 0 then some ⟨true, axis, it⟩ else gjkLoopP rnd proj supA supB axis left (it + 1) s d

/-- `Intersector::intersects`, geomc/shape/Intersect.h:45-97. -/
def gjkP (rnd : K → K) (proj : Simp K N → Option (Simp K N × (Fin N → K))) (supA supB : (Fin N → K) → Option (Fin N → K)) (maxIt : ℕ)
    (axis : Fin N → K) (buffer : Simp K N) : Option (GRes K N) :=
  (supA axis).bind fun x => (supB (-axis)).bind fun y =>
    let a := sub rnd x y
    gjkLoopP rnd proj supA supB axis maxIt 1 (Simp.insert ⟨buffer.pts, 0⟩ a) (-a)

/-- The first axis, `Vec<T,N>::unit_x`, geomc/shape/Intersect.h:23. -/
def unitX : Fin N → K := fun i => if (i : ℕ) = 0 then 1 else 0

/-- A new `Intersector` applied to two shapes, geomc/shape/Intersect.h:20-27 and :102-109. -/
def overlapP (rnd : K → K) (supA supB : (Fin N → K) → Option (Fin N → K)) : Option (GRes K N) :=
  (gjkLimit N).bind fun lim => gjkP rnd (nearestFace rnd) supA supB lim unitX ⟨fun _ => 0, 0⟩

end Geomc.Flt
