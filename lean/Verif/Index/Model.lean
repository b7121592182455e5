import Verif.Rect.Model

/-!
# The spatial index

geomc/shape/KDTree.h and geomc/shape/shapedetail/IndexHelpers.h.  Arithmetic is exact; `big` stands for
`numeric_limits<T>::max()`.

A tree is modelled as a value: a leaf has objects, an inner node has a list of children, each with its box.  The code keeps
all nodes in one `std::list` and a node's children as a range of it; that range is modelled in `Verif/Index/Nodes.lean`.
-/

namespace Geomc.Index

open Geomc.Vec (stdMin mag2)
open Geomc.Rect (Box)

variable {K : Type} {n : ℕ} {O : Type}

/-- geomc/shape/shapedetail/IndexHelpers.h:16-120: what the index asks of its objects. -/
structure Helper (O K : Type) (n : ℕ) where
  point : O → Fin n → K
  dist2 : O → (Fin n → K) → K
  bounds : O → Box K n

section Field
variable [Field K] [LinearOrder K]

/-- Bare vectors, geomc/shape/shapedetail/IndexHelpers.h:78-96. -/
def vecHelper : Helper (Fin n → K) K n := ⟨id, fun v p => Vec.dist2 v p, Box.point⟩

/-- Boxes, geomc/shape/shapedetail/IndexHelpers.h:16-36. -/
def boxHelper : Helper (Box K n) K n := ⟨Box.centerF, Box.dist2, id⟩

/-- `far_extremes`, `near_extremes`: geomc/shape/shapedetail/IndexHelpers.h:134-143. -/
def farExtreme (p : Fin n → K) (r : Box K n) : Fin n → K := fun i =>
  if |p i - r.hi i| < |p i - r.lo i| then r.lo i else r.hi i
def nearExtreme (p : Fin n → K) (r : Box K n) : Fin n → K := fun i =>
  if |p i - r.hi i| < |p i - r.lo i| then r.hi i else r.lo i

/-- `worst_case_nearest2`, geomc/shape/shapedetail/IndexHelpers.h:125-151. -/
def worstCase (big : K) (p : Fin n → K) (r : Box K n) : K :=
  (List.finRange n).foldl
    (fun res i => stdMin res (mag2 (Function.update (farExtreme p r) i (nearExtreme p r i) - p))) big

/-! ## Search -/

/-- Trees of depth at most `d`: leaves with objects, and nodes whose children have boxes. -/
def Kd (O K : Type) (n : ℕ) : ℕ → Type
  | 0 => List O
  | d + 1 => List O ⊕ List (Box K n × Kd O K n d)

/-- What `nearestInNode` updates: the nearest object so far, its squared distance, and the best of the worst cases. -/
structure Srch (O K : Type) where
  near : Option O
  best : K
  worst : K

/-- The scan of a leaf, geomc/shape/KDTree.h:938-947. -/
def scan (h : Helper O K n) (p : Fin n → K) (objs : List O) (s : Srch O K) : Srch O K :=
  objs.foldl (fun s o => if h.dist2 o p < s.best then { s with near := some o, best := h.dist2 o p } else s) s

/-- The first loop of `nearestInNode`, geomc/shape/KDTree.h:923-930: which children to visit, with their best cases, last
first.  Writing past the end of the buffer of 16 is undefined. -/
def gather {T : Type} (big : K) (p : Fin n → K) (s : Srch O K) :
    List (Box K n × T) → List (T × K) → Option (List (T × K) × Srch O K)
  | [], buf => some (buf, s)
  | (b, t) :: l, buf =>
    if 16 < buf.length then some (buf, s) else
    if b.dist2 p < s.best ∧ b.dist2 p ≤ s.worst then
      if buf.length = 16 then none else
      gather big p { s with worst := stdMin s.worst (worstCase big p b) } l ((t, b.dist2 p) :: buf)
    else gather big p { s with worst := stdMin s.worst (worstCase big p b) } l buf

/-- The second loop, geomc/shape/KDTree.h:932-939. -/
def visit {T : Type} (go : T → Srch O K → Option (Srch O K)) : List (T × K) → Srch O K → Option (Srch O K)
  | [], s => some s
  | (t, d) :: l, s => if d < s.best ∧ d ≤ s.worst then (go t s).bind (visit go l) else visit go l s

/-- `nearestInNode`, geomc/shape/KDTree.h:907-949.  A node without children is a leaf. -/
def nearestIn (h : Helper O K n) (big : K) (p : Fin n → K) :
    (d : ℕ) → Kd O K n d → Srch O K → Option (Srch O K)
  | 0, objs, s => some (scan h p objs s)
  | _ + 1, .inl objs, s => some (scan h p objs s)
  | d + 1, .inr kids, s => do
    let (buf, s) ← gather big p s kids []
    visit (nearestIn h big p d) buf s

/-- `nearest`, geomc/shape/KDTree.h:676-684.  To dereference the iterator that was never assigned is undefined. -/
def nearest (h : Helper O K n) (big : K) (p : Fin n → K) (d : ℕ) (t : Kd O K n d) : Option O := do
  let s ← nearestIn h big p d t ⟨none, big, big⟩
  s.near

/-! ## Construction -/

/-- geomc/shape/KDTree.h:46-65. -/
inductive Axis | longest | highestVariance | cyclical
  deriving DecidableEq
inductive Pivot | mean | median
  deriving DecidableEq

/-- `KDStructureParams`, geomc/shape/KDTree.h:246-258, without the choice for insertions. -/
structure Params where
  axis : Axis
  pivot : Pivot
  nodeArity : ℕ
  leafArity : ℕ

/-- `recalculateBounds`, geomc/shape/KDTree.h:700-707. -/
def boundsOf (h : Helper O K n) (mx lw : K) (objs : List O) : Box K n :=
  objs.foldl (fun b o => b.unionAssign (h.bounds o)) (Box.default mx lw)

/-- What a node that is being built has: its box and its objects. -/
abbrev Cell (O K : Type) (n : ℕ) := Box K n × List O

/-- The objects of a cell summed up: `mean`, geomc/shape/KDTree.h:729-731 (it is never divided by their number). -/
def pointSum (h : Helper O K n) (objs : List O) : Fin n → K :=
  objs.foldl (fun m o => m + h.point o) 0

/-- geomc/shape/KDTree.h:732-736. -/
def spread (h : Helper O K n) (objs : List O) : Fin n → K :=
  let m := pointSum h objs
  fun i => objs.foldl (fun v o => v + (h.point o - m) i * (h.point o - m) i) 0 / ((max 1 (objs.length - 1) : ℕ) : K)

/-- `CHOOSE_BIGGEST_AXIS`, geomc/shape/KDTree.h:739-747. -/
def biggestAxis [NeZero n] (dim : Fin n → K) : Fin n :=
  (List.finRange n).foldl (fun a i => if dim a < dim i then i else a) 0

/-- The axis and the pivot of a split, geomc/shape/KDTree.h:715-771.  The variable `pivot` has no initial value: it is read
in the sum of the mean (unless the axis is the one of highest variance), and it is never set for the median. -/
def chooseSplit [NeZero n] (h : Helper O K n) (par : Params) (c : Cell O K n) : Option (Fin n × K) :=
  match par.pivot, par.axis with
  | .mean, .highestVariance =>
    let a := biggestAxis (spread h c.2)
    some (a, pointSum h c.2 a)
  | _, _ => none

/-- The partition, geomc/shape/KDTree.h:778-795.  The range of objects is the part done, the part to do and the part moved
up.  After the swap with the last object of the part to do, the box of the upper half is extended by the bounds of what is
now in place `i`. -/
def partition (h : Helper O K n) (a : Fin n) (pivot : K) (todo : List O) (lower upper : Cell O K n) :
    Cell O K n × Cell O K n :=
  match todo with
  | [] => (lower, upper)
  | x :: rest =>
    if pivot < h.point x a then
      match hr : rest.getLast? with
      | none => (lower, (upper.1.unionAssign (h.bounds x), x :: upper.2))
      | some y => partition h a pivot (y :: rest.dropLast) lower (upper.1.unionAssign (h.bounds y), x :: upper.2)
    else partition h a pivot rest (lower.1.unionAssign (h.bounds x), lower.2 ++ [x]) upper
termination_by todo.length
decreasing_by
  · have : rest ≠ [] := by
      rintro rfl
      simp at hr
    have := List.length_pos_iff.2 this
    simp only [List.length_cons, List.length_dropLast]
    omega
  · simp

/-- `splitNode`, geomc/shape/KDTree.h:715-796. -/
def split [NeZero n] (h : Helper O K n) (mx lw : K) (par : Params) (c : Cell O K n) :
    Option (Cell O K n × Cell O K n) := do
  let (a, pivot) ← chooseSplit h par c
  some (partition h a pivot c.2 (Box.default mx lw, []) (Box.default mx lw, []))

/-- The loop over the children being made, geomc/shape/KDTree.h:813-823: the `k`-th is next, and a new one goes to the
end. -/
def splitLoop [NeZero n] (h : Helper O K n) (mx lw : K) (par : Params) :
    (fuel : ℕ) → List (Cell O K n) → ℕ → Option (List (Cell O K n))
  | 0, cs, _ => some cs
  | f + 1, cs, k =>
    if cs.length < par.nodeArity then
      match cs[k]? with
      | none => some cs
      | some c =>
        if par.leafArity < c.2.length then do
          let (lo, up) ← split h mx lw par c
          splitLoop h mx lw par f (cs.set k lo ++ [up]) (k + 1)
        else splitLoop h mx lw par f cs (k + 1)
    else some cs

/-- `buildTree` down to the given depth, geomc/shape/KDTree.h:803-830.  If a deeper tree is needed, there is no result. -/
def build [NeZero n] (h : Helper O K n) (mx lw : K) (par : Params) :
    (d : ℕ) → Cell O K n → Option (Kd O K n d)
  | 0, c => if par.leafArity < c.2.length then none else some c.2
  | d + 1, c =>
    if par.leafArity < c.2.length then do
      let cs ← splitLoop h mx lw par par.nodeArity [c] 0
      let kids ← cs.mapM fun c => (build h mx lw par d c).map fun t => (c.1, t)
      some (.inr kids)
    else some (.inl c.2)

/-- The constructors and `rebalance`, geomc/shape/KDTree.h:297-315, 464-488. -/
def construct [NeZero n] (h : Helper O K n) (mx lw : K) (par : Params) (objs : List O) (d : ℕ) : Option (Kd O K n d) :=
  build h mx lw { par with nodeArity := min par.nodeArity 16 } d (boundsOf h mx lw objs, objs)

end Field

end Geomc.Index
