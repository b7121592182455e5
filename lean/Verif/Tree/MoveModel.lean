import Verif.Tree.Model

/-!
# Moved trees

geomc/Tree.h:188, `Tree(Tree&&) = default`.  The two `std::list`s are moved.  Iterators to their elements stay valid, and point into the
new lists; iterators to the ends do not: they are still the ends of the old lists, or invalid.  Such an iterator is `stale` here.  It is
equal to itself only, and to follow or to advance it is undefined.
-/

namespace Geomc.Tree

variable {D I : Type}

/-- An iterator in a moved tree: to an element, the end, or the end of the list it was moved from. -/
inductive It
  | at (x : ℕ)
  | fin
  | stale
  deriving DecidableEq

/-- What becomes of an iterator kept by a node when the tree is moved. -/
def It.old : Option ℕ → It
  | some x => .at x
  | none => .stale

/-- An iterator of the list as it is now. -/
def It.new : Option ℕ → It
  | some x => .at x
  | none => .fin

/-- `Tree::Node`, geomc/Tree.h:141-170. -/
structure MNode (D : Type) where
  parent : It
  cfirst : It
  clast : It
  ifirst : It
  ilast : It
  nitems : ℤ
  nkids : ℤ
  data : D

structure MSt (D I : Type) where
  nodes : List ℕ
  node : ℕ → MNode D
  items : List ℕ
  val : ℕ → I
  nextN : ℕ
  nextI : ℕ

/-- `Tree(Tree&&)`, geomc/Tree.h:188. -/
def St.moved (s : St D I) : MSt D I where
  nodes := s.nodes
  node x := ⟨.old (s.node x).parent, .old (s.node x).cfirst, .old (s.node x).clast, .old (s.node x).ifirst, .old (s.node x).ilast,
    (s.node x).nitems, (s.node x).nkids, (s.node x).data⟩
  items := s.items
  val := s.val
  nextN := s.nextN
  nextI := s.nextI

/-- `++`. -/
def It.succ (l : List ℕ) : It → Option It
  | .at x => some (.new (next l x))
  | _ => none

/-- The elements that a loop from `cur` to `stop` visits. -/
def mwalk (l : List ℕ) : (fuel : ℕ) → (cur stop : It) → Option (List ℕ)
  | 0, _, _ => none
  | f + 1, cur, stop =>
    if cur = stop then some [] else
    match cur with
    | .at x => (x :: ·) <$> mwalk l f (.new (next l x)) stop
    | _ => none

/-- The first element with a property that such a loop visits. -/
def mscan (l : List ℕ) (p : ℕ → Bool) : (fuel : ℕ) → (cur stop : It) → Option (Option ℕ)
  | 0, _, _ => none
  | f + 1, cur, stop =>
    if cur = stop then some none else
    match cur with
    | .at x => if p x then some (some x) else mscan l p f (.new (next l x)) stop
    | _ => none

/-- `end()` and `items_end()` of a node, geomc/Tree.h:690-709. -/
def MSt.endOf (s : MSt D I) (x : ℕ) : Option It :=
  if (s.node x).nkids > 0 then (s.node x).clast.succ s.nodes else some (s.node x).clast
def MSt.itemsEnd (s : MSt D I) (x : ℕ) : Option It :=
  if (s.node x).nitems > 0 then (s.node x).ilast.succ s.items else some (s.node x).ilast

/-- The children and items that loops over them visit. -/
def MSt.children (s : MSt D I) (x : ℕ) : Option (List ℕ) := do
  let e ← s.endOf x
  mwalk s.nodes (s.nodes.length + 1) (s.node x).cfirst e
def MSt.itemsOf (s : MSt D I) (x : ℕ) : Option (List ℕ) := do
  let e ← s.itemsEnd x
  mwalk s.items (s.items.length + 1) (s.node x).ifirst e

/-- The loop of `node_successor`, geomc/Tree.h:862-880. -/
def MSt.succLoop (s : MSt D I) : (fuel : ℕ) → (child : ℕ) → (ancestor : It) → Option It
  | _, _, .fin => some .fin
  | _, _, .stale => none
  | 0, _, .at _ => none
  | f + 1, child, .at a => do
    let off ← s.endOf a
    let c ← mscan s.nodes (fun c => (s.node c).nkids > 0) (s.nodes.length + 1) (.at child) off
    let successor := (c.map fun c => (s.node c).cfirst).getD .fin
    if successor ≠ .fin then some successor else s.succLoop f a (s.node a).parent

/-- `node_successor`, geomc/Tree.h:854-881. -/
def MSt.nodeSuccessor (s : MSt D I) (x : ℕ) : Option It := s.succLoop s.nextN x (s.node x).parent

/-- `item_successor`, geomc/Tree.h:886-900. -/
def MSt.itemSuccLoop (s : MSt D I) : (fuel : ℕ) → (node : ℕ) → (parent : It) → Option It
  | _, _, .fin => some .fin
  | _, _, .stale => none
  | 0, _, .at _ => none
  | f + 1, x, .at a =>
    if (s.node a).nkids ≠ 0 then do
      let off ← (s.node a).clast.succ s.nodes
      let c ← mscan s.nodes (fun c => (s.node c).nitems > 0) (s.nodes.length + 1) (.at x) off
      match c with
      | some c => some (s.node c).ifirst
      | none => s.itemSuccLoop f a (s.node a).parent
    else s.itemSuccLoop f a (s.node a).parent

def MSt.itemSuccessor (s : MSt D I) (x : ℕ) : Option It := s.itemSuccLoop s.nextN x (s.node x).parent

/-- `std::list::insert` before an iterator of the list; undefined for the end of another. -/
def minsert (l : List ℕ) (r : It) (y : ℕ) : Option (List ℕ) :=
  match r with
  | .at x => some (insertBefore l (some x) y)
  | .fin => some (insertBefore l none y)
  | .stale => none

/-- `insert_before->parent`; what is read at an end is arbitrary. -/
def MSt.parentAt (s : MSt D I) (garbage : It) : It → It
  | .at b => (s.node b).parent
  | _ => garbage

/-- Where `insert_child_node` puts the new node, geomc/Tree.h:1014-1017. -/
def MSt.childPlace (s : MSt D I) (p : ℕ) (before : It) : Option It :=
  if (s.node p).nkids = 0 then s.nodeSuccessor p else some before

/-- The new node, and its parent, geomc/Tree.h:1022-1043. -/
def MSt.childNode (s : MSt D I) (p : ℕ) (d : D) : MNode D :=
  let P := s.node p
  if P.nkids = 0 then ⟨.at p, .fin, .fin, P.ifirst, P.ilast, P.nitems, 0, d⟩ else ⟨.at p, .fin, .fin, .fin, .fin, 0, 0, d⟩
def MSt.childParent (s : MSt D I) (p : ℕ) (before e : It) : MNode D :=
  let P := s.node p
  { P with
    clast := if before = e then .at s.nextN else P.clast
    cfirst := if before = P.cfirst then .at s.nextN else P.cfirst
    nkids := P.nkids + 1 }

/-- `insert_child_node`, geomc/Tree.h:1003-1046. -/
def MSt.insertChild (s : MSt D I) (garbage : It) (p : ℕ) (before : It) (d : D) : Option (MSt D I × It) :=
  (s.endOf p).bind fun e =>
  if before = .new s.nodes.head? then some (s, e) else
  if s.parentAt garbage before ≠ .at p ∧ before ≠ e then some (s, e) else
  (s.childPlace p before).bind fun n =>
  (minsert s.nodes n s.nextN).bind fun nodes =>
  some ({ s with
    nodes := nodes
    node := Function.update (Function.update s.node s.nextN (s.childNode p d)) p (s.childParent p before e)
    nextN := s.nextN + 1 }, .at s.nextN)

/-- The loop of `update_boundary_items`, geomc/Tree.h:368-392. -/
def mupdLoop (oldF oldL newF newL : It) (delta : ℤ) : (fuel : ℕ) → (prevChild n : It) → (ℕ → MNode D) → Option (ℕ → MNode D)
  | _, _, .fin, m => some m
  | _, _, .stale, _ => none
  | 0, _, .at _, _ => none
  | f + 1, pc, .at x, m =>
    let N := m x
    let N' : MNode D :=
      if N.nitems + delta = 0 then { N with nitems := N.nitems + delta, ifirst := .fin, ilast := .fin }
      else { N with
        nitems := N.nitems + delta
        ifirst := if N.cfirst = pc ∨ N.ifirst = oldF then newF else N.ifirst
        ilast := if N.clast = pc ∨ N.ilast = oldL then newL else N.ilast }
    mupdLoop oldF oldL newF newL delta f (.at x) N.parent (Function.update m x N')

/-- `insert_item`, geomc/Tree.h:1173-1217. -/
def MSt.insertItem (s : MSt D I) (x : ℕ) (before : It) (v : I) : Option (MSt D I × It) :=
  if (s.node x).nkids > 0 then do
    let e ← s.itemsEnd x
    some (s, e)
  else do
    let N := s.node x
    let pt ← if N.nitems = 0 then s.itemSuccessor x else some before
    let new := s.nextI
    let items ← minsert s.items pt new
    let newF := if pt = N.ifirst ∨ N.nitems = 0 then .at new else N.ifirst
    let newL := if It.new (prev items (some new)) = N.ilast ∨ N.nitems = 0 then .at new else N.ilast
    let m ← mupdLoop N.ifirst N.ilast newF newL 1 s.nextN .fin (.at x) s.node
    some ({ s with items := items, val := Function.update s.val new v, nextI := s.nextI + 1, node := m }, .at new)

end Geomc.Tree
