import Mathlib.Algebra.Order.Ring.Int
import Mathlib.Logic.Function.Basic
import Mathlib.Data.List.Basic

/-!
# `Tree`

geomc/Tree.h.  The two `std::list`s are lists of addresses, in order, with the contents of the cells beside; an iterator is an address,
or `none` for the end of the list.  As in the usual implementations of `std::list` the list is circular: the element before the first
is the end, and the element before the end is the last.  Reading the contents of the end, or going on from it, is undefined: the result
is `none`.  There is one exception, see `insertChild`.

Not modelled, for they do not compile if used: `insert_child_nodes` (`base_t::Node` lacks `typename`), `insert_items` (`n.n_items`),
`adopt` (`n.insert_items`), `erase(item)` (`n->items_begin()`).
-/

namespace Geomc.Tree

variable {D I : Type}

/-- `Tree::Node`, geomc/Tree.h:141-170. -/
structure Node (D : Type) where
  parent : Option ℕ
  cfirst : Option ℕ
  clast : Option ℕ
  ifirst : Option ℕ
  ilast : Option ℕ
  nitems : ℤ
  nkids : ℤ
  data : D

/-- `Tree`, geomc/Tree.h:172-173: the lists `_nodes` and `_items`, and addresses not yet used. -/
structure St (D I : Type) where
  nodes : List ℕ
  node : ℕ → Node D
  items : List ℕ
  val : ℕ → I
  nextN : ℕ
  nextI : ℕ

/-! ## `std::list` -/

/-- `++`: the element after `x`. -/
def next : List ℕ → ℕ → Option ℕ
  | [], _ => none
  | a :: l, x => if a = x then l.head? else next l x

/-- `--`: the element before `r`, if that before the list is `p`. -/
def prevFrom : Option ℕ → List ℕ → Option ℕ → Option ℕ
  | p, [], _ => p
  | p, a :: l, r => if some a = r then p else prevFrom (some a) l r

def prev (l : List ℕ) (r : Option ℕ) : Option ℕ := prevFrom none l r

/-- `insert`. -/
def insertBefore : List ℕ → Option ℕ → ℕ → List ℕ
  | [], _, y => [y]
  | a :: l, r, y => if some a = r then y :: a :: l else a :: insertBefore l r y

/-- The elements that a loop from `cur` to `stop` visits. -/
def walk (l : List ℕ) : (fuel : ℕ) → (cur stop : Option ℕ) → Option (List ℕ)
  | 0, _, _ => none
  | f + 1, cur, stop =>
    if cur = stop then some [] else
    match cur with
    | none => none
    | some x => (x :: ·) <$> walk l f (next l x) stop

/-- The first element with a property that such a loop visits. -/
def scan (l : List ℕ) (p : ℕ → Bool) : (fuel : ℕ) → (cur stop : Option ℕ) → Option (Option ℕ)
  | 0, _, _ => none
  | f + 1, cur, stop =>
    if cur = stop then some none else
    match cur with
    | none => none
    | some x => if p x then some (some x) else scan l p f (next l x) stop

/-! ## Reading -/

/-- The tree of one node, `Tree()`, geomc/Tree.h:178-180. -/
def empty (d : D) (v : I) : St D I :=
  ⟨[0], fun _ => ⟨none, none, none, none, none, 0, 0, d⟩, [], fun _ => v, 1, 0⟩

/-- `end()` of a node, geomc/Tree.h:690-694. -/
def St.endOf (s : St D I) (x : ℕ) : Option (Option ℕ) :=
  if (s.node x).nkids > 0 then (s.node x).clast.map (next s.nodes) else some (s.node x).clast

/-- `items_end()`, geomc/Tree.h:705-709. -/
def St.itemsEnd (s : St D I) (x : ℕ) : Option (Option ℕ) :=
  if (s.node x).nitems > 0 then (s.node x).ilast.map (next s.items) else some (s.node x).ilast

/-- The children that a loop from `begin()` to `end()` visits. -/
def St.children (s : St D I) (x : ℕ) : Option (List ℕ) := do
  let e ← s.endOf x
  walk s.nodes (s.nodes.length + 1) (s.node x).cfirst e

/-- The items that a loop from `items_begin()` to `items_end()` visits. -/
def St.itemsOf (s : St D I) (x : ℕ) : Option (List ℕ) := do
  let e ← s.itemsEnd x
  walk s.items (s.items.length + 1) (s.node x).ifirst e

/-- The loop of `node_successor`, geomc/Tree.h:862-880. -/
def St.succLoop (s : St D I) : (fuel : ℕ) → (child : ℕ) → (ancestor : Option ℕ) → Option (Option ℕ)
  | _, _, none => some none
  | 0, _, some _ => none
  | f + 1, child, some a => do
    let off ← s.endOf a
    let c ← scan s.nodes (fun c => (s.node c).nkids > 0) (s.nodes.length + 1) (some child) off
    match c.bind fun c => (s.node c).cfirst with
    | some r => some (some r)
    | none => s.succLoop f a (s.node a).parent

/-- `node_successor`, geomc/Tree.h:854-881. -/
def St.nodeSuccessor (s : St D I) (x : ℕ) : Option (Option ℕ) := s.succLoop s.nextN x (s.node x).parent

/-- `item_successor`, geomc/Tree.h:886-900. -/
def St.itemSuccLoop (s : St D I) : (fuel : ℕ) → (node : ℕ) → (parent : Option ℕ) → Option (Option ℕ)
  | _, _, none => some none
  | 0, _, some _ => none
  | f + 1, x, some a =>
    if (s.node a).nkids ≠ 0 then do
      let off ← (s.node a).clast.map (next s.nodes)
      let c ← scan s.nodes (fun c => (s.node c).nitems > 0) (s.nodes.length + 1) (some x) off
      match c with
      | some c => some (s.node c).ifirst
      | none => s.itemSuccLoop f a (s.node a).parent
    else s.itemSuccLoop f a (s.node a).parent

def St.itemSuccessor (s : St D I) (x : ℕ) : Option (Option ℕ) := s.itemSuccLoop s.nextN x (s.node x).parent

/-! ## Nodes -/

/-- `insert_before->parent`, where `insert_before` may be the end of the list: what is read there is arbitrary. -/
def St.parentAt (s : St D I) (garbage : Option ℕ) : Option ℕ → Option ℕ
  | some b => (s.node b).parent
  | none => garbage

/-- Where `insert_child_node` puts the new node, geomc/Tree.h:1014-1017. -/
def St.childPlace (s : St D I) (p : ℕ) (before : Option ℕ) : Option (Option ℕ) :=
  if (s.node p).nkids = 0 then s.nodeSuccessor p else some before

/-- `insert_child_node`, geomc/Tree.h:1003-1046; the new node, or else `end()`, is returned with the tree.  To insert the first child of a
node the code reads the field `parent` of the end of the list (:1012) before it finds that it need not; by the standard that is undefined.
Here the read gives an arbitrary value `garbage`. -/
def St.insertChild (s : St D I) (garbage : Option ℕ) (p : ℕ) (before : Option ℕ) (d : D) : Option (St D I × Option ℕ) := do
  let e ← s.endOf p
  if before = s.nodes.head? then some (s, e) else
  let par := s.parentAt garbage before
  if par ≠ some p ∧ before ≠ e then some (s, e) else
  let childless := (s.node p).nkids = 0
  let n ← s.childPlace p before
  let new := s.nextN
  let P := s.node p
  let node : Node D := ⟨some p, none, none, if childless then P.ifirst else none, if childless then P.ilast else none,
    if childless then P.nitems else 0, 0, d⟩
  let P' : Node D := { P with
    clast := if before = e then some new else P.clast
    cfirst := if before = P.cfirst then some new else P.cfirst
    nkids := P.nkids + 1 }
  some ({ s with
    nodes := insertBefore s.nodes n new
    node := Function.update (Function.update s.node new node) p P'
    nextN := s.nextN + 1 }, some new)

/-! ## Items -/

/-- The body of the loop of `update_boundary_items`, geomc/Tree.h:369-388. -/
def updNode (oldF oldL newF newL : Option ℕ) (delta : ℤ) (prevChild : Option ℕ) (N : Node D) : Node D :=
  if N.nitems + delta = 0 then { N with nitems := N.nitems + delta, ifirst := none, ilast := none }
  else { N with
    nitems := N.nitems + delta
    ifirst := if N.cfirst = prevChild ∨ N.ifirst = oldF then newF else N.ifirst
    ilast := if N.clast = prevChild ∨ N.ilast = oldL then newL else N.ilast }

/-- The loop of `update_boundary_items`, geomc/Tree.h:368-392. -/
def updLoop (oldF oldL newF newL : Option ℕ) (delta : ℤ) :
    (fuel : ℕ) → (prevChild : Option ℕ) → (n : Option ℕ) → (ℕ → Node D) → Option (ℕ → Node D)
  | _, _, none, m => some m
  | 0, _, some _, _ => none
  | f + 1, pc, some x, m =>
    updLoop oldF oldL newF newL delta f (some x) (m x).parent
      (Function.update m x (updNode oldF oldL newF newL delta pc (m x)))

/-- `update_boundary_items`, geomc/Tree.h:356-393. -/
def St.updateBoundary (s : St D I) (leaf : ℕ) (newF newL : Option ℕ) (delta : ℤ) : Option (St D I) := do
  let m ← updLoop (s.node leaf).ifirst (s.node leaf).ilast newF newL delta s.nextN none (some leaf) s.node
  some { s with node := m }

/-- Where `insert_item` puts the new item, geomc/Tree.h:1187-1191. -/
def St.itemPlace (s : St D I) (x : ℕ) (before : Option ℕ) : Option (Option ℕ) :=
  if (s.node x).nitems = 0 then s.itemSuccessor x else some before

/-- `insert_item`, geomc/Tree.h:1173-1217. -/
def St.insertItem (s : St D I) (x : ℕ) (before : Option ℕ) (v : I) : Option (St D I × Option ℕ) :=
  if (s.node x).nkids > 0 then do
    let e ← s.itemsEnd x
    some (s, e)
  else do
    let N := s.node x
    let pt ← s.itemPlace x before
    let new := s.nextI
    let items := insertBefore s.items pt new
    let newF := if pt = N.ifirst ∨ N.nitems = 0 then some new else N.ifirst
    let newL := if prev items (some new) = N.ilast ∨ N.nitems = 0 then some new else N.ilast
    let s' : St D I := { s with items := items, val := Function.update s.val new v, nextI := s.nextI + 1 }
    let s'' ← s'.updateBoundary x newF newL 1
    some (s'', some new)

/-! ## Splitting and erasing -/

/-- The loop of `split`, geomc/Tree.h:1424-1452: the end of the untested items, the items of the lower node, their number, and the first
item of the upper node. -/
def splitLoop (items : List ℕ) (lt : I → Bool) :
    (fuel : ℕ) → (i hiF loF loL : Option ℕ) → (k : ℤ) → (ℕ → I) → Option (Option ℕ × Option ℕ × Option ℕ × ℤ × (ℕ → I))
  | 0, _, _, _, _, _, _ => none
  | f + 1, i, hiF, loF, loL, k, val =>
    if i = prev items hiF then some (hiF, loF, loL, k, val) else
    match i with
    | none => none
    | some j =>
      if lt (val j) then
        match hiF with
        | none => none
        | some h => splitLoop items lt f (some j) (next items h) (if k = 0 then some h else loF) (some h) (k + 1)
            (Function.update (Function.update val j (val h)) h (val j))
      else splitLoop items lt f (prev items (some j)) hiF loF loL k val

/-- `split`, geomc/Tree.h:1402-1461, given the items below the pivot. -/
def St.split (s : St D I) (garbage : Option ℕ) (x : ℕ) (lt : I → Bool) (d : D) : Option (St D I × Option ℕ) :=
  if s.nodes.head? = some x ∨ (s.node x).nkids > 0 ∨ (s.node x).nitems < 2 then do
    let e ← s.endOf x
    some (s, e)
  else do
    let p ← (s.node x).parent
    let (s, lo?) ← s.insertChild garbage p (some x) d
    let lo ← lo?
    let L := s.node lo
    let H := s.node x
    let (hiF, loF, loL, k, val) ← splitLoop s.items lt (s.items.length + 1) H.ilast H.ifirst L.ifirst L.ilast L.nitems s.val
    let hn := H.nitems - (k - L.nitems)
    let L' : Node D := { L with ifirst := loF, ilast := loL, nitems := k }
    let H' : Node D := { H with
      ifirst := if hn = 0 then none else hiF
      ilast := if hn = 0 then none else H.ilast
      nitems := hn }
    some ({ s with node := Function.update (Function.update s.node lo L') x H', val := val }, some lo)

/-- `flatten`, geomc/Tree.h:1606-1619. -/
def St.flatten (s : St D I) (x : ℕ) : Option (St D I) :=
  if (s.node x).nkids = 0 then some s else do
  let r ← s.nodeSuccessor x
  let gone ← walk s.nodes (s.nodes.length + 1) (s.node x).cfirst r
  some { s with
    nodes := s.nodes.filter fun y => !gone.contains y
    node := Function.update s.node x { s.node x with nkids := 0, cfirst := none, clast := none } }

/-- `clear`, geomc/Tree.h:1536-1556: the loop over the items goes on from an item just erased, which is undefined. -/
def St.clear (s : St D I) (x : ℕ) : Option (St D I) := do
  let s ← s.flatten x
  if (s.node x).nitems > 0 then none else some s

/-- `erase(child)`, geomc/Tree.h:1569-1600. -/
def St.eraseChild (s : St D I) (p c : ℕ) : Option (St D I × Option ℕ) :=
  if (s.node c).parent ≠ some p then do
    let e ← s.endOf p
    some (s, e)
  else do
    let s ← s.clear c
    let nx := next s.nodes c
    let nodes := s.nodes.erase c
    let pv := prev nodes nx
    let P := s.node p
    let n := P.nkids - 1
    let P' : Node D :=
      if n = 0 then { P with nkids := n, cfirst := none, clast := none }
      else if P.cfirst = some c then { P with nkids := n, cfirst := nx }
      else if P.clast = some c then { P with nkids := n, clast := pv }
      else { P with nkids := n }
    some ({ s with nodes := nodes, node := Function.update s.node p P' }, nx)

/-! ## Searching -/

/-- Whether `find_parent` finds the item in the node, geomc/Tree.h:761-766.  The loop over the items is taken to end; see `C67_partial`. -/
def St.holds (s : St D I) (i x : ℕ) : Bool :=
  (s.node x).nkids = 0 && (s.node x).nitems > 0 && ((s.itemsOf x).getD []).contains i

/-- `find_parent`, geomc/Tree.h:758-770. -/
def St.findParent (s : St D I) (x i : ℕ) : Option (Option ℕ) := do
  let stop ← s.nodeSuccessor x
  let r ← scan s.nodes (s.holds i) (s.nodes.length + 1) (some x) stop
  match r with
  | some n => some (some n)
  | none => s.endOf x

/-- The loop of `QueryIterator::next_candidate` that leaves last children, geomc/Tree.h:541-543. -/
def St.ascend (s : St D I) (root : ℕ) : (fuel : ℕ) → (item : ℕ) → Option ℕ
  | 0, _ => none
  | f + 1, x => do
    let p ← (s.node x).parent
    if (s.node p).clast = some x ∧ p ≠ root then s.ascend root f p else some x

/-- `QueryIterator::next_candidate`, geomc/Tree.h:532-546. -/
def St.nextCandidate (s : St D I) (root : ℕ) (bound : ℕ → Bool) (x : ℕ) : Option (Option ℕ) :=
  if (s.node x).nkids > 0 ∧ bound x = true then some (s.node x).cfirst
  else if x = root then s.endOf root
  else (s.ascend root s.nextN x).map (next s.nodes)

/-- The nodes that the loop `for (q = root.query(key, bound, test); q != root.end(); ++q)` visits, geomc/Tree.h:507-565. -/
def St.queryLoop (s : St D I) (root : ℕ) (bound test : ℕ → Bool) : (fuel : ℕ) → (item stop : Option ℕ) → Option (List ℕ)
  | 0, _, _ => none
  | f + 1, item, stop =>
    if item = stop then some [] else
    match item with
    | none => none
    | some x => do
      let n ← s.nextCandidate root bound x
      let t ← s.queryLoop root bound test f n stop
      some (if test x then x :: t else t)

def St.query (s : St D I) (root : ℕ) (bound test : ℕ → Bool) : Option (List ℕ) := do
  let stop ← s.endOf root
  s.queryLoop root bound test (s.nodes.length + 1) (some root) stop

/-! ## Comparing and copying -/

/-- `Tree(begin, end)`, geomc/Tree.h:192-208. -/
def ofRange (d : D) (v : I) (vs : List I) : St D I :=
  let items := List.range vs.length
  ⟨[0], fun _ => ⟨none, none, none, items.head?, prev items none, 1, 0, d⟩, items, fun i => (vs[i]?).getD v, 1, vs.length⟩

/-- `operator==`, geomc/Tree.h:311-331, for distinct trees. -/
def St.eqTree [DecidableEq D] [DecidableEq I] (s t : St D I) : Bool :=
  if (s.node 0).nitems ≠ (t.node 0).nitems then false
  else if s.items.map s.val ≠ t.items.map t.val then false
  else (s.nodes.zip t.nodes).all (fun xy => (s.node xy.1).nitems = (t.node xy.2).nitems && (s.node xy.1).nkids = (t.node xy.2).nkids &&
    (s.node xy.1).data = (t.node xy.2).data) && s.nodes.length = t.nodes.length

/-- A node reference kept by a copied tree: to the copy, or to the tree copied. -/
inductive Ref
  | here (x : Option ℕ)
  | there (x : Option ℕ)
  deriving DecidableEq

/-- The copy constructor up to the first iteration of `node_successor`, geomc/Tree.h:212-216, 342-349, 1645 and 854-864: the copied nodes
keep their references to the tree copied, and the parent of the root is compared with the end of the copy, then followed. -/
def St.copyAncestor (s : St D I) : Option (Option (Node D)) :=
  let ancestor := Ref.there (s.node 0).parent
  if ancestor = Ref.here none then some none else
  match ancestor with
  | .there (some p) => some (some (s.node p))
  | .there none => none
  | .here (some p) => some (some (s.node p))
  | .here none => none

end Geomc.Tree
