import Verif.Shape.ProjectModel

/-!
# The GJK intersection test

geomc/shape/Intersect.h.  The two shapes are given by their support functions.
-/

namespace Geomc.Shape

open Geomc.Vec Geomc.LU

variable {K : Type} {N : ℕ} [Field K] [LinearOrder K]

/-- What a call of `Intersector::intersects` leaves behind, Intersect.h:21-27: the answer, `separation_axis` and `iterations`. -/
structure GRes (K : Type) (N : ℕ) where
  hit : Bool
  axis : Fin N → K
  iterations : ℕ

/-- The outcome of one round: an answer with the new axis, or the next simplex and direction. -/
inductive GStep (K : Type) (N : ℕ)
  | done (hit : Bool) (axis : Fin N → K)
  | next (s : Simp K N) (d : Fin N → K)

/-- One round of the loop, Intersect.h:60-94.  `none` is a division by zero, or the use of a projection to no face. -/
def gjkStep (supA supB : (Fin N → K) → Fin N → K) (cur : Simp K N) (d : Fin N → K) : Option (GStep K N) :=
  let a := supA d - supB (-d)
  let k := dot a d
  if k < 0 ∨ a = cur.pts (cur.n - 1) then some (.done (decide (k ≥ 0)) (-projectOn a d))
  else
    let s := cur.insert a
    (projectSimplex s 0 .clip true).bind fun r =>
      if r.found = false then none
      else
        let d := normalDirection s 0 r
        let nxt := projectedFace s r
        if nxt.n = N + 1 ∨ d = 0 then some (.done true d) else some (.next nxt d)

/-- The loop, Intersect.h:59-96.  `left` is how often the test against `max_iterations` will still fail; `axis` is the
separation axis of the last call, kept if the limit is reached. -/
def gjkLoop (supA supB : (Fin N → K) → Fin N → K) (axis : Fin N → K) : (left it : ℕ) → Simp K N → (Fin N → K) → Option (GRes K N)
  | 0, it, cur, d => (gjkStep supA supB cur d).map fun
    | .done h ax => ⟨h, ax, it⟩
    | .next _ _ => ⟨true, axis, it⟩
  | left + 1, it, cur, d => (gjkStep supA supB cur d).bind fun
    | .done h ax => some ⟨h, ax, it⟩
    | .next s d => if mag2 d = 0 then some ⟨true, axis, it⟩ else gjkLoop supA supB axis left (it + 1) s d

/-- `Intersector::intersects`, Intersect.h:45-97, with `axis` and `buffer` left by the last call. -/
def gjk (supA supB : (Fin N → K) → Fin N → K) (maxIt : ℕ) (axis : Fin N → K) (buffer : Simp K N) : Option (GRes K N) :=
  let a := supA axis - supB (-axis)
  gjkLoop supA supB axis maxIt 1 (Simp.insert ⟨buffer.pts, 0⟩ a) (-a)

/-- The default limit, Intersect.h:21; shifting by a negative amount is undefined. -/
def gjkLimit (N : ℕ) : Option ℕ := if 2 ≤ N ∧ N < 33 then some (10 * 2 ^ (N - 2)) else none

/-- `intersects`, Intersect.h:102-109. -/
def intersects (supA supB : (Fin N → K) → Fin N → K) : Option Bool :=
  (gjkLimit N).bind fun lim =>
    (gjk supA supB lim (fun i => if (i : ℕ) = 0 then 1 else 0) ⟨fun _ => 0, 0⟩).map (·.hit)

end Geomc.Shape
