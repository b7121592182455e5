import Verif.Float.OrthogModel
import Verif.Shape.GjkModel

/-! # Model of the GJK overlap test in floating point

geomc/shape/Intersect.h and geomc/shape/shapedetail/SimplexProject.h, as in `Verif.Shape.GjkModel` and `Verif.Shape.ProjectModel`, with every
operation the exact result rounded by `rnd`.  The loop is given the projection as an argument; the projection itself is modelled in two and three
dimensions, where neither `nullspace` nor `orthogonal` solve linear systems. -/

namespace Geomc.Flt

open Geomc.Shape (Simp Face POp PRes GRes GStep gjkLimit)
open Geomc.Vec (leftPerp rightPerp)

variable {K : Type} [Field K] [LinearOrder K] {N : ℕ}

/-- `orthogonal` in two and three dimensions, geomc/linalg/Orthogonal.h:97-106. -/
def orthogonalF (rnd : K → K) : (N : ℕ) → (ℕ → Fin N → K) → Fin N → K
  | 2, v => leftPerp (v 0)
  | 3, v => cross rnd (v 0) (v 1)
  | _, _ => 0

/-- `SimplexFace(simplex, compute_nullspace)`, SimplexProject.h:27-39.  In two dimensions there is nothing to compute, in three one vector
(Orthogonal.h:132-137). -/
def faceOf (rnd : K → K) (s : Simp K N) (null : Bool) : Face K N :=
  let n := s.n - 1
  let basis : ℕ → Fin N → K := fun i => if i < n then sub rnd (s.pts i) (s.pts n) else 0
  if n < N ∧ null then ⟨n, fun i => if i < n then basis i else orthogonalF rnd N basis, fun i => i⟩
  else ⟨n, basis, fun i => i⟩

/-- The last part of `exclude`, SimplexProject.h:97-112. -/
def faceNormal (rnd : K → K) (out : Face K N) (ejected : Fin N → K) : Face K N :=
  if 0 < out.n then
    let o := orthogonalF rnd N out.bases
    { out with bases := Function.update out.bases (N - 1) (if dot rnd o ejected ≥ 0 then -o else o) }
  else { out with bases := Function.update out.bases (N - 1) (-ejected) }

/-- `exclude`, SimplexProject.h:69-113. -/
def faceExclude (rnd : K → K) (f : Face K N) (i : ℕ) : Face K N :=
  if i < f.n then
    faceNormal rnd ⟨f.n - 1, Function.update (Function.update f.bases i (f.bases (f.n - 1))) (f.n - 1) f.normal,
      Function.update (Function.update f.inc i (f.inc (f.n - 1))) (f.n - 1) (f.inc f.n)⟩ (f.bases i)
  else
    faceNormal rnd ⟨f.n - 1, fun k => if k < f.n - 1 then sub rnd (f.bases k) (f.bases (f.n - 1))
      else if k + 1 < N then f.bases (k + 1) else 0, f.inc⟩ (-f.bases (f.n - 1))

/-- `_project_to_face`, SimplexProject.h:129-183, in two and three dimensions. -/
def projectToFaceF (rnd : K → K) (s : Simp K N) (f : Face K N) (p toP : Fin N → K) : Fin N → K :=
  if f.n = 0 then s.pts (f.inc 0)
  else if f.n = 1 then fun i => rnd (projectOn rnd toP (f.bases 0) i + s.pts (f.inc 1) i)
  else if N > 2 ∧ f.n = N - 1 then sub rnd p (projectOn rnd toP f.normal)
  else if f.n = N then p
  else 0

/-- The end of `_find_nearest_face`, SimplexProject.h:310-329. -/
def findEndF (rnd : K → K) (s : Simp K N) (p : Fin N → K) (op : POp) (f : Face K N) (toP : Fin N → K) (back inside : Bool) (r : PRes K N) :
    PRes K N × Bool :=
  let r :=
    if inside then
      if f.n < N then
        let q := projectToFaceF rnd s f p toP
        r.update (dist2 rnd p q) q f back
      else
        let r := { r with contains := true }
        if op = .clip then r.update 0 p f true else r
    else r
  (r, back)

/-- `_find_nearest_face`, SimplexProject.h:262-330. -/
def findFaceF (rnd : K → K) (s : Simp K N) (p : Fin N → K) (op : POp) (skip : Bool) :
    ℕ → Face K N → (Fin N → K) → ℕ → PRes K N → PRes K N × Bool
  | 0, f, toP, depth, r =>
    let back := decide (depth > 0) && decide (dot rnd f.normal toP < 0)
    if back = true ∧ op = .project ∧ depth = 1 ∧ f.n = N - 1 then findEndF rnd s p op f toP back true r
    else if back then (r, true)
    else (r.update (mag2 rnd toP) (s.pts (f.inc 0)) f false, false)
  | n + 1, f, toP, depth, r =>
    let back := decide (depth > 0) && decide (dot rnd f.normal toP < 0)
    if back = true ∧ op = .project ∧ depth = 1 ∧ f.n = N - 1 then findEndF rnd s p op f toP back true r
    else if back then (r, true)
    else
      let x := (List.range (f.n + if skip then 0 else 1)).foldl (fun (x : PRes K N × Bool) i =>
        let sub' := faceExclude rnd f i
        let toSub := if i = f.n then sub rnd toP (f.bases (i - 1)) else toP
        if mag2 rnd sub'.normal = 0 then ({ x.1 with degenerate := true }, x.2)
        else
          let y := findFaceF rnd s p op skip n sub' toSub (depth + 1) x.1
          (y.1, if y.2 then x.2 else false)) (r, true)
      findEndF rnd s p op f toP back x.2 x.1

/-- The constructor of `SimplexProjection`, SimplexProject.h:235-249. -/
def projectSimplexF (rnd : K → K) (s : Simp K N) (p : Fin N → K) (op : POp) (skip : Bool) : Option (PRes K N) :=
  if s.n = 0 then none
  else
    let f := faceOf rnd s (decide (s.n > 2))
    some (findFaceF rnd s p op skip f.n f (sub rnd p (s.pts (s.n - 1))) 0 (PRes.init p)).1

/-- The normal of an edge, SimplexProject.h:344-358. -/
def edgeNormalF (rnd : K → K) : (N : ℕ) → (v toP other : Fin N → K) → Fin N → K
  | 2, v, toP, _ =>
    let d := rightPerp v
    if dot rnd d toP ≥ 0 then d else -d
  | 3, v, toP, _ => cross rnd (cross rnd v toP) v
  | _, _, _, other => other

/-- `normal_direction`, SimplexProject.h:340-365. -/
def normalDirectionF (rnd : K → K) (s : Simp K N) (p : Fin N → K) (r : PRes K N) : Fin N → K :=
  let best := r.face.n
  let toP := sub rnd p (s.pts (r.face.inc best))
  if best = 1 then edgeNormalF rnd N (r.face.bases 0) toP (sub rnd p r.pt)
  else if N > 2 ∧ best = N - 1 then
    let normal := r.face.bases best
    if dot rnd normal toP ≥ 0 then normal else -normal
  else sub rnd p r.pt

/-- The projection of the origin as the loop uses it, Intersect.h:75-83: the face and the direction to go.  `none` if no face is found. -/
def nearestFace (rnd : K → K) (s : Simp K N) : Option (Simp K N × (Fin N → K)) :=
  (projectSimplexF rnd s 0 .clip true).bind fun r =>
    if r.found = false then none else some (Shape.projectedFace s r, normalDirectionF rnd s 0 r)

/-- One round of the loop, Intersect.h:60-94, with any projection. -/
def gjkStepF (rnd : K → K) (proj : Simp K N → Option (Simp K N × (Fin N → K))) (supA supB : (Fin N → K) → Fin N → K) (cur : Simp K N)
    (d : Fin N → K) : Option (GStep K N) :=
  let a := sub rnd (supA d) (supB (-d))
  let k := dot rnd a d
  if k < 0 ∨ a = cur.pts (cur.n - 1) then some (.done (decide (k ≥ 0)) (-projectOn rnd a d))
  else
    (proj (cur.insert a)).map fun r => if r.1.n = N + 1 ∨ r.2 = 0 then .done true r.2 else .next r.1 r.2

/-- The loop, Intersect.h:59-96, as in `Shape.gjkLoop`. -/
def gjkLoopF (rnd : K → K) (proj : Simp K N → Option (Simp K N × (Fin N → K))) (supA supB : (Fin N → K) → Fin N → K) (axis : Fin N → K) :
    (left it : ℕ) → Simp K N → (Fin N → K) → Option (GRes K N)
  | 0, it, cur, d => (gjkStepF rnd proj supA supB cur d).map fun
    | .done h ax => ⟨h, ax, it⟩
    | .next _ _ => ⟨true, axis, it⟩
  | left + 1, it, cur, d => (gjkStepF rnd proj supA supB cur d).bind fun
    | .done h ax => some ⟨h, ax, it⟩
    | .next s d => if mag2 rnd d = 0 then some ⟨true, axis, it⟩ else gjkLoopF rnd proj supA supB axis left (it + 1) s d

/-- `Intersector::intersects`, Intersect.h:45-97, with `axis` and `buffer` left by the last call. -/
def gjkF (rnd : K → K) (proj : Simp K N → Option (Simp K N × (Fin N → K))) (supA supB : (Fin N → K) → Fin N → K) (maxIt : ℕ) (axis : Fin N → K)
    (buffer : Simp K N) : Option (GRes K N) :=
  let a := sub rnd (supA axis) (supB (-axis))
  gjkLoopF rnd proj supA supB axis maxIt 1 (Simp.insert ⟨buffer.pts, 0⟩ a) (-a)

/-- `Simplex::convex_support`, geomc/shape/Simplex.h:525-536. -/
def simpSupport (rnd : K → K) (s : Simp K N) (d : Fin N → K) : Fin N → K :=
  ((List.range (s.n - 1)).foldl (fun (o : (Fin N → K) × K) i =>
    let t := dot rnd (s.pts (i + 1)) d
    if t > o.2 then (s.pts (i + 1), t) else o) (s.pts 0, dot rnd (s.pts 0) d)).1

/-- A new `Intersector` applied to two simplexes, Intersect.h:20-27 and :102-109. -/
def overlap (rnd : K → K) (A B : Simp K N) : Option (GRes K N) :=
  (gjkLimit N).bind fun lim =>
    gjkF rnd (nearestFace rnd) (simpSupport rnd A) (simpSupport rnd B) lim (fun i => if (i : ℕ) = 0 then 1 else 0) ⟨fun _ => 0, 0⟩

end Geomc.Flt
