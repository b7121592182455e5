import Verif.Affine.Model
import Verif.LU.SmallModel
import Verif.Orthog.Model
import Verif.Shape.Model
import Verif.Shape.WrapModel

/-!
# Simplexes: geomc/shape/Simplex.h (apart from projection)

A simplex is an array of `N + 1` vectors, of which the first `n` are its vertices.
-/

namespace Geomc.Shape

open Geomc.Vec Geomc.Rect Geomc.Affine Geomc.LU

variable {K : Type} {N : ℕ} [Field K]

/-- `Simplex`, Simplex.h:83-93.  Slots from `N + 1` on do not exist. -/
structure Simp (K : Type) (N : ℕ) where
  pts : ℕ → Fin N → K
  n : ℕ

/-- `Simplex()`, Simplex.h:97; vectors start out as zero. -/
def Simp.empty : Simp K N := ⟨fun _ => 0, 0⟩

/-- `Simplex(verts, n)`, Simplex.h:100-102; undefined if the vertices do not fit. -/
def Simp.ofArray (verts : ℕ → Fin N → K) (n : ℕ) : Option (Simp K N) :=
  if n ≤ N + 1 then some ⟨fun i => if i < n then verts i else 0, n⟩ else none

/-- `Simplex({...})`, Simplex.h:104-108. -/
def Simp.ofList (l : List (Fin N → K)) : Simp K N :=
  let n := min l.length (N + 1)
  ⟨fun i => if i < n then l.getD i 0 else 0, n⟩

/-- `standard_simplex`, Simplex.h:110-117. -/
def Simp.standard : Simp K N := ⟨fun i => if h : 1 ≤ i ∧ i - 1 < N then Pi.single ⟨i - 1, h.2⟩ 1 else 0, N + 1⟩

/-- `insert`, `|=` and `|`, Simplex.h:158-175 and :202-207. -/
def Simp.insert (s : Simp K N) (p : Fin N → K) : Simp K N :=
  if s.n < N + 1 then ⟨Function.update s.pts s.n p, s.n + 1⟩ else s

/-- `*= xf` and `/= xf`, Simplex.h:180-197. -/
def Simp.mulXf (s : Simp K N) (x : XF K N) : Simp K N := ⟨fun i => if i < s.n then x.apply (s.pts i) else s.pts i, s.n⟩
def Simp.divXf (s : Simp K N) (x : XF K N) : Simp K N := ⟨fun i => if i < s.n then x.applyInverse (s.pts i) else s.pts i, s.n⟩

/-- `exclude`, Simplex.h:506-509; undefined unless `i` is a vertex (the range copied would be reversed). -/
def Simp.exclude (s : Simp K N) (i : ℕ) : Option (Simp K N) :=
  if i < s.n then some ⟨fun j => if i ≤ j ∧ j + 1 < s.n then s.pts (j + 1) else s.pts j, s.n - 1⟩ else none

/-- `excluded`, Simplex.h:515-523; no sensible simplex comes from an empty one. -/
def Simp.excluded (s : Simp K N) (i : ℕ) : Option (Simp K N) :=
  if s.n = 0 then none
  else
    let t := (List.range s.n).foldl (fun (t : Simp K N) j =>
      if i ≠ j then ⟨Function.update t.pts t.n (s.pts j), t.n + 1⟩ else t) Simp.empty
    some ⟨t.pts, s.n - 1⟩

/-- `operator==`, Simplex.h:136-144. -/
def Simp.beq [DecidableEq K] (s t : Simp K N) : Bool :=
  if t.n ≠ s.n then false else (List.range s.n).all fun i => decide (t.pts i = s.pts i)

variable [LinearOrder K]

/-- `convex_support`, Simplex.h:525-536. -/
def Simp.support (s : Simp K N) (d : Fin N → K) : Fin N → K :=
  ((List.range (s.n - 1)).foldl (fun (o : (Fin N → K) × K) i =>
    let t := dot (s.pts (i + 1)) d
    if t > o.2 then (s.pts (i + 1), t) else o) (s.pts 0, dot (s.pts 0) d)).1

/-- A vector as an array. -/
def raw (p : Fin N → K) (r : ℕ) : K := if h : r < N then p ⟨r, h⟩ else 0

/-- The checks at the end of `contains` and `is_facing`, Simplex.h:441-446 and :322-326: `k` weights from `i` on. -/
def weightsOk (x : ℕ → K) : ℕ → ℕ → K → Bool
  | 0, _, _ => true
  | k + 1, i, sum =>
    let sum := sum + x i
    if x i < 0 ∨ sum > 1 then false else weightsOk x k (i + 1) sum

/-- A vector after a one. -/
def oneThen (p : Fin N → K) (r : ℕ) : K := if r = 0 then 1 else raw p (r - 1)

/-- `contains`, Simplex.h:420-447. -/
def Simp.contains (s : Simp K N) (p : Fin N → K) : Option Bool :=
  if s.n < N + 1 then some false
  else (linearSolve (fun r c => oneThen (s.pts c) r) (N + 1) 1 (fun r _ => oneThen p r) 1).map fun x =>
    if x.1 = false then false else weightsOk (fun i => x.2 i 0) N 1 0

/-- The small cases of `linear_solve(bases, m, x, skip)`, LUDecomp.h:420-428; `X j` is the `j`th vector. The product may
overwrite its operand (C28). -/
def vecSolveSmall (n : ℕ) (inv : (ℕ → K) → (ℕ → K) → Bool × (ℕ → K)) (bases X : ℕ → ℕ → K) : Bool × (ℕ → ℕ → K) :=
  let z := classInv n inv true false (fun _ => 0) (fun k => bases (k / n) (k % n))
  if z.1 = false then (false, X) else (true, fun j r => ∑ c ∈ Finset.range n, z.2 (n * r + c) * X j c)

/-- `linear_solve(bases, m, x, skip)`, LUDecomp.h:419-442. -/
def vecSolve (n m : ℕ) (bases X : ℕ → ℕ → K) (skip : ℕ) : Option (Bool × (ℕ → ℕ → K)) :=
  match n with
  | 1 => (invNxN (fun _ _ => 0) (fun r c => bases c r) 1).map fun z =>
      if z.1 = false then (false, X) else (true, fun j r => ∑ c ∈ Finset.range 1, z.2 r c * X j c)
  | 2 => some (vecSolveSmall 2 inv2 bases X)
  | 3 => some (vecSolveSmall 3 inv3 bases X)
  | 4 => some (vecSolveSmall 4 inv4 bases X)
  | n => (linearSolve (fun r c => bases c r) n m (fun r j => X j r) skip).map fun z => (z.1, fun j r => z.2 r j)

/-- The ranges of ray parameters for which all weights are in the unit interval, Simplex.h:237-256. -/
def weightSpan (p k : ℕ → K) : List ℕ → Ext K × Ext K → Ext K × Ext K
  | [], iv => iv
  | i :: l, iv =>
    if iv.1 < iv.2 then
      if k i ≠ 0 then weightSpan p k l (meet iv (ival (-p i / k i) ((1 - p i) / k i)))
      else if p i < 0 ∨ p i > 1 then void
      else weightSpan p k l iv
    else iv

/-- `trace_simplex`, Simplex.h:555-589, without surface parameters. A hit reads a component past the end of a vector
(:586), which is undefined. -/
def traceSimplex (pts : ℕ → Fin N → K) (o v : Fin N → K) : Option Bool :=
  (vecSolve N 1 (fun i r => if i + 1 < N then raw (pts (i + 1) - pts 0) r else raw (-v) r) (fun _ r => raw (o - pts 0) r)
      (N - 1)).bind fun x =>
    if x.1 = false then some false
    else if (List.range (N - 1)).any (fun i => decide (x.2 0 i < 0)) then some false
    else if (List.range (N - 1)).foldl (fun a i => a + x.2 0 i) 0 > 1 then some false
    else none

/-- A vector before a last component. -/
def thenLast (p : Fin N → K) (x : K) (r : ℕ) : K := if r = N then x else raw p r

/-- `intersect(Ray)`, Simplex.h:221-265. -/
def Simp.ray (s : Simp K N) (o v : Fin N → K) : Option (Ext K × Ext K) :=
  if s.n = N + 1 then
    (vecSolve (N + 1) 2 (fun i => thenLast (s.pts i) 1) (fun j => if j = 0 then thenLast o 1 else thenLast v 0) 0).map fun x =>
      if x.1 = false then void else weightSpan (x.2 0) (x.2 1) (List.range (N + 1)) full
  else if s.n = N then (traceSimplex s.pts o v).map fun _ => void
  else some void

/-- `orthogonal` in any dimension, Orthogonal.h:68-106. -/
def orthogonalAny : (N : ℕ) → (ℕ → Fin N → K) → Option (Fin N → K)
  | 2, v => some (orthogonal2 (v 0))
  | 3, v => some (orthogonal3 (v 0) (v 1))
  | N, v => (orthogonal (fun i => raw (v i)) N).map fun o i => o i

/-- `nullspace`, Orthogonal.h:131-173, in any dimension. -/
def nullspaceAny (n : ℕ) (bases : ℕ → Fin N → K) : Option (ℕ → Fin N → K) :=
  if N ≤ n then some fun _ => 0
  else if N - n = 1 then (orthogonalAny N bases).map fun o _ => o
  else (nullspace (fun i => raw (bases i)) n N).map fun X b i => X.2 b i

/-- `is_facing`, Simplex.h:279-342. -/
def Simp.isFacing (s : Simp K N) (p : Fin N → K) : Option Bool :=
  if s.n = 0 then some false
  else if s.n = 1 then some true
  else if s.n = 2 then
    let v := s.pts 1 - s.pts 0
    if mag2 v = 0 then none
    else
      let d := dot v (p - s.pts 0) / mag2 v
      some (decide (d ≥ 0) && decide (d ≤ 1))
  else
    let bases := s.n - 1
    let null := N - bases
    (nullspaceAny bases fun i => s.pts (i + 1) - s.pts 0).bind fun X =>
    (vecSolve N 1 (fun i => if i < null then raw (X i) else raw (s.pts (i - null + 1) - s.pts 0)) (fun _ => raw (p - s.pts 0))
      null).map fun x =>
    if x.1 = false then false else weightsOk (x.2 0) (bases - null) null 0

/-- `volume`, Simplex.h:350-368. -/
def Simp.volume (s : Simp K N) : K :=
  if s.n < N + 1 then 0
  else
    let vs : ℕ → ℕ → K := fun i r => raw (s.pts (i + 1) - s.pts 0) r
    if N = 2 then det2m (fun k => vs (k / 2) (k % 2)) / 2
    else if N = 3 then det3m (fun k => vs (k / 3) (k % 3)) / 6
    else detDestructive vs N / (List.range N).foldl (fun k i => k * ((i + 1 : ℕ) : K)) 1

/-- The product of the matrix of edges with its transpose as `measure` forms it, Simplex.h:391-405: of one row more than
there are edges, the rest zero. -/
def Simp.gram (s : Simp K N) (r c : ℕ) : K :=
  let b : ℕ → Fin N → K := fun i => if i + 1 < s.n then s.pts (i + 1) - s.pts 0 else 0
  dot (b r) (b c)

/-- `measure`, Simplex.h:377-407. -/
def Simp.measure (sqrt : K → K) (s : Simp K N) : K :=
  if s.n = 2 then sqrt (mag2 (s.pts 1 - s.pts 0))
  else if N = 3 ∧ s.n = 3 then
    sqrt (mag2 (cross (fun i => raw (s.pts 1 - s.pts 0) i) (fun i => raw (s.pts 2 - s.pts 0) i))) / 2
  else if s.n = N + 1 then s.volume
  else sqrt |detDestructive s.gram s.n| / (List.range (s.n - 1)).foldl (fun k i => k * ((i + 1 : ℕ) : K)) 1

end Geomc.Shape
