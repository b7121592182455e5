import Verif.Shape.SimplexModel

/-!
# Projection of points to simplexes

geomc/shape/shapedetail/SimplexProject.h, and the queries of geomc/shape/Simplex.h that rest on it.  `Vec`s are zeroed by their
constructor, so the entries of `bases` nothing was stored in are zero; nothing was stored in the other entries of `included`,
and the theorems do not depend on them (they are given the value zero).  `none` is a division by zero in `orthogonal` or
`nullspace`, or a simplex without vertices.
-/

namespace Geomc.Shape

open Geomc.Vec Geomc.LU

variable {K : Type} {N : ℕ} [Field K] [LinearOrder K]

/-- `SimplexFace`, SimplexProject.h:9-21. -/
structure Face (K : Type) (N : ℕ) where
  n : ℕ
  bases : ℕ → Fin N → K
  inc : ℕ → ℕ

/-- `SimplexFace(simplex, compute_nullspace)`, SimplexProject.h:27-39. -/
def Face.ofSimp (s : Simp K N) (null : Bool) : Option (Face K N) :=
  let n := s.n - 1
  let basis : ℕ → Fin N → K := fun i => if i < n then s.pts i - s.pts n else 0
  if n < N ∧ null then
    (nullspaceAny n basis).map fun X => ⟨n, fun i => if i < n then basis i else X (i - n), fun i => i⟩
  else some ⟨n, basis, fun i => i⟩

/-- `normal`, SimplexProject.h:45-51. -/
def Face.normal (f : Face K N) : Fin N → K := f.bases (N - 1)

/-- The last part of `exclude`, SimplexProject.h:97-112: the normal of the new face, away from `ejected`. -/
def Face.withNormal (out : Face K N) (ejected : Fin N → K) : Option (Face K N) :=
  if 0 < out.n then
    (orthogonalAny N out.bases).map fun o =>
      { out with bases := Function.update out.bases (N - 1) (if dot o ejected ≥ 0 then -o else o) }
  else some { out with bases := Function.update out.bases (N - 1) (-ejected) }

/-- `exclude`, SimplexProject.h:69-113. -/
def Face.exclude (f : Face K N) (i : ℕ) : Option (Face K N) :=
  if i < f.n then
    Face.withNormal ⟨f.n - 1, Function.update (Function.update f.bases i (f.bases (f.n - 1))) (f.n - 1) f.normal,
      Function.update (Function.update f.inc i (f.inc (f.n - 1))) (f.n - 1) (f.inc f.n)⟩ (f.bases i)
  else
    Face.withNormal ⟨f.n - 1, fun k => if k < f.n - 1 then f.bases k - f.bases (f.n - 1)
      else if k + 1 < N then f.bases (k + 1) else 0, f.inc⟩ (-f.bases (f.n - 1))

/-- `ProjectionOp`, SimplexProject.h:118-121. -/
inductive POp
  | clip
  | project
  deriving DecidableEq

/-- `_project_to_face`, SimplexProject.h:129-183. -/
def projectToFace (s : Simp K N) (f : Face K N) (p toP : Fin N → K) : Fin N → K :=
  if f.n = 0 then s.pts (f.inc 0)
  else if f.n = 1 then projectOn toP (f.bases 0) + s.pts (f.inc 1)
  else if N > 2 ∧ f.n = N - 1 then p - projectOn toP f.normal
  else if f.n = N then p
  else if N > 3 then
    let projNull := decide (N - f.n < f.n)
    let basis : ℕ → Fin N → K := if projNull then fun i => f.bases (f.n + i) else f.bases
    let m := if projNull then N - f.n else f.n
    let basis := if s.n < N + 1 ∨ projNull = false then orthogonalize basis m else basis
    let out := (List.range m).foldl (fun out i => out + projectOn toP (basis i)) 0
    (if projNull then toP - out else out) + s.pts (f.inc f.n)
  else 0

/-- `ProjectionResult`, SimplexProject.h:186-203; `distance2` is only read if there is a candidate. -/
structure PRes (K : Type) (N : ℕ) where
  face : Face K N
  found : Bool
  pt : Fin N → K
  d2 : K
  degenerate : Bool
  contains : Bool
  back : Bool

/-- The initial result, SimplexProject.h:186-203 and :244-246. -/
def PRes.init (p : Fin N → K) : PRes K N := ⟨⟨0, fun _ => 0, fun _ => 0⟩, false, p, 0, false, false, false⟩

/-- `update`, SimplexProject.h:209-222. -/
def PRes.update (r : PRes K N) (d2 : K) (pt : Fin N → K) (f : Face K N) (back : Bool) : PRes K N :=
  if r.found = false ∨ (d2 < r.d2 ∧ (back → r.back)) ∨ (back = false ∧ r.back) then
    { r with found := true, face := f, pt := pt, d2 := d2, back := back }
  else r

/-- The end of `_find_nearest_face`, SimplexProject.h:310-329. -/
def findEnd (s : Simp K N) (p : Fin N → K) (op : POp) (f : Face K N) (toP : Fin N → K) (back inside : Bool) (r : PRes K N) :
    PRes K N × Bool :=
  let r :=
    if inside then
      if f.n < N then
        let q := projectToFace s f p toP
        r.update (dist2 p q) q f back
      else
        let r := { r with contains := true }
        if op = .clip then r.update 0 p f true else r
    else r
  (r, back)

/-- `_find_nearest_face`, SimplexProject.h:262-330.  The first argument is the number of bases of the face. -/
def findFace (s : Simp K N) (p : Fin N → K) (op : POp) (skip : Bool) :
    ℕ → Face K N → (Fin N → K) → ℕ → PRes K N → Option (PRes K N × Bool)
  | 0, f, toP, depth, r =>
    let back := decide (depth > 0) && decide (dot f.normal toP < 0)
    if back = true ∧ op = .project ∧ depth = 1 ∧ f.n = N - 1 then some (findEnd s p op f toP back true r)
    else if back then some (r, true)
    else some (r.update (mag2 toP) (s.pts (f.inc 0)) f false, false)
  | n + 1, f, toP, depth, r =>
    let back := decide (depth > 0) && decide (dot f.normal toP < 0)
    if back = true ∧ op = .project ∧ depth = 1 ∧ f.n = N - 1 then some (findEnd s p op f toP back true r)
    else if back then some (r, true)
    else
      ((List.range (f.n + if skip then 0 else 1)).foldlM (fun (x : PRes K N × Bool) i =>
        (f.exclude i).bind fun sub =>
          let toSub := if i = f.n then toP - f.bases (i - 1) else toP
          if mag2 sub.normal = 0 then some ({ x.1 with degenerate := true }, x.2)
          else (findFace s p op skip n sub toSub (depth + 1) x.1).map fun y => (y.1, if y.2 then x.2 else false))
        (r, true)).map fun x => findEnd s p op f toP back x.2 x.1

/-- The constructor of `SimplexProjection`, SimplexProject.h:235-249. -/
def projectSimplex (s : Simp K N) (p : Fin N → K) (op : POp) (skip : Bool) : Option (PRes K N) :=
  if s.n = 0 then none
  else
    (Face.ofSimp s (decide (s.n > 2))).bind fun f =>
      (findFace s p op skip f.n f (p - s.pts (s.n - 1)) 0 (PRes.init p)).map (·.1)

/-- The normal of an edge, SimplexProject.h:344-358, which is chosen by the dimension. -/
def edgeNormal : (N : ℕ) → (v toP other : Fin N → K) → Fin N → K
  | 2, v, toP, _ =>
    let d := rightPerp v
    if dot d toP ≥ 0 then d else -d
  | 3, v, toP, _ => cross (cross v toP) v
  | _, _, _, other => other

/-- `normal_direction`, SimplexProject.h:340-365. -/
def normalDirection (s : Simp K N) (p : Fin N → K) (r : PRes K N) : Fin N → K :=
  let best := r.face.n
  let toP := p - s.pts (r.face.inc best)
  if best = 1 then edgeNormal N (r.face.bases 0) toP (p - r.pt)
  else if N > 2 ∧ best = N - 1 then
    let normal := r.face.bases best
    if dot normal toP ≥ 0 then normal else -normal
  else p - r.pt

/-- `projected_face`, SimplexProject.h:370-377. -/
def projectedFace (s : Simp K N) (r : PRes K N) : Simp K N :=
  ⟨fun i => if i ≤ r.face.n then s.pts (r.face.inc i) else 0, r.face.n + 1⟩

/-- `sdf`, Simplex.h:451-459. -/
def Simp.sdf (sqrt : K → K) (s : Simp K N) (p : Fin N → K) : Option K :=
  (projectSimplex s p .project false).map fun r => sqrt r.d2 * if r.contains then -1 else 1

/-- `normal`, Simplex.h:461-468. -/
def Simp.normal (s : Simp K N) (p : Fin N → K) : Option (Fin N → K) :=
  (projectSimplex s p .project false).map fun r => normalDirection s p r

/-- `project`, Simplex.h:471-479. -/
def Simp.project (s : Simp K N) (p : Fin N → K) : Option (Fin N → K) :=
  (projectSimplex s p .project false).map (·.pt)

/-- `clip` and the face it reports, Simplex.h:495-503. -/
def Simp.clip (s : Simp K N) (p : Fin N → K) : Option ((Fin N → K) × Simp K N) :=
  (projectSimplex s p .clip false).map fun r => (r.pt, projectedFace s r)

end Geomc.Shape
