import Verif.Index.Build

/-!
# C81: the children of a node of the index

geomc/shape/KDTree.h keeps the nodes in a `std::list`; a node's children are a range of it.  Nodes are numbered in the order of
their creation.  An iterator is the number of a node, or `none` for the end of the list.
-/

namespace Geomc.Index

/-- The references of a node, geomc/shape/KDTree.h:111-122. -/
structure Links where
  parent : Option ℕ
  childBegin : Option ℕ
  childEnd : Option ℕ
  deriving DecidableEq

/-- The list, in order, and the references of its nodes. -/
structure Nodes where
  order : List ℕ
  links : List Links
  deriving DecidableEq

/-- After `rebalance` and in the default constructor: a root without children, geomc/shape/KDTree.h:288-293, 464-471. -/
def Nodes.init : Nodes := ⟨[0], [⟨none, none, none⟩]⟩

def Nodes.get (s : Nodes) (i : ℕ) : Links := s.links.getD i ⟨none, none, none⟩
def Nodes.modify (s : Nodes) (i : ℕ) (f : Links → Links) : Nodes := { s with links := s.links.modify i f }

/-- `nodes.insert(pos, …)`: a new node before `pos`. -/
def Nodes.insertBefore (s : Nodes) (pos : Option ℕ) (l : Links) : Nodes :=
  let new := s.links.length
  ⟨match pos with
    | none => s.order ++ [new]
    | some q => s.order.takeWhile (· ≠ q) ++ new :: s.order.dropWhile (· ≠ q),
   s.links ++ [l]⟩

/-- `insertChild`, geomc/shape/KDTree.h:641-666.  The new node has the next number. -/
def Nodes.insertChild (s : Nodes) (n : ℕ) : Nodes :=
  let new := s.links.length
  let ln := s.get n
  if ln.childBegin = ln.childEnd then
    let s := s.insertBefore ln.childEnd ⟨some n, ln.childEnd, ln.childEnd⟩
    let s := s.modify n fun l => { l with childBegin := some new }
    match ln.parent with
    | none => s
    | some q => if (s.get q).childEnd = (s.get n).childEnd then s.modify q fun l => { l with childEnd := some new } else s
  else s.insertBefore ln.childEnd ⟨some n, ln.childEnd, ln.childEnd⟩

/-- The children of a node as every loop of the class visits them: `for (i = n->child_begin; i != n->child_end; ++i)`. -/
def Nodes.children (s : Nodes) (n : ℕ) : List ℕ :=
  match (s.get n).childBegin with
  | none => []
  | some b =>
    if (s.get n).childBegin = (s.get n).childEnd then [] else
    let tail := s.order.dropWhile (· ≠ b)
    match (s.get n).childEnd with
    | none => tail
    | some e => tail.takeWhile (· ≠ e)

/-- The nodes made for a node. -/
def Nodes.made (s : Nodes) (n : ℕ) : List ℕ := (List.range s.links.length).filter fun i => (s.get i).parent = some n

/-- A tree grown by `insertChild`. -/
def grow (calls : List ℕ) : Nodes := calls.foldl Nodes.insertChild Nodes.init

/-! ## One level -/

theorem grow_root (m : ℕ) : grow (List.replicate (m + 1) 0) =
    ⟨List.range (m + 2), ⟨none, some 1, none⟩ :: List.replicate (m + 1) ⟨some 0, none, none⟩⟩ := by
  induction m with
  | zero => decide
  | succ m ih =>
    rw [List.replicate_succ', grow, List.foldl_append, ← grow, ih]
    simp only [List.foldl_cons, List.foldl_nil, Nodes.insertChild, Nodes.get, List.getD_cons_zero, reduceCtorEq, if_false,
      Nodes.insertBefore]
    rw [List.length_cons, List.length_replicate]
    congr 1
    · rw [List.range_succ (n := m + 2)]
    · rw [List.cons_append, List.replicate_succ' (n := m + 1)]

/-- **C81** (partial: one level of nodes only): the children of the root are those made for it. -/
theorem C81_children_partial (m : ℕ) : (grow (List.replicate (m + 1) 0)).children 0 = List.range' 1 (m + 1) ∧
    (grow (List.replicate (m + 1) 0)).made 0 = List.range' 1 (m + 1) := by
  rw [grow_root]
  constructor
  · simp only [Nodes.children, Nodes.get, List.getD_cons_zero, reduceCtorEq, if_false]
    rw [List.range_eq_range', List.range'_succ, List.dropWhile_cons_of_pos (by simp), List.range'_succ,
      List.dropWhile_cons_of_neg (by simp)]
  · simp only [Nodes.made, List.length_cons, List.length_replicate]
    rw [List.range_eq_range', List.range'_succ, List.filter_cons_of_neg (by simp [Nodes.get]), List.filter_eq_self]
    intro i hi
    rw [List.mem_range'_1] at hi
    obtain ⟨j, rfl⟩ : ∃ j, i = j + 1 := ⟨i - 1, by omega⟩
    rw [decide_eq_true_eq, Nodes.get, List.getD_cons_succ, List.getD_eq_getElem?_getD, List.getElem?_replicate, if_pos (by omega), Option.getD_some]

/-! ## Two levels -/

/-- The calls of `buildTree` for two children with two children each. -/
def twoLevels : List ℕ := [0, 0, 1, 1, 2, 2]

/-- **C81** is refuted: the children of the first child of the root are taken to be all nodes after them, those of the second
child too. -/
theorem C81_children_refuted : (grow twoLevels).children 0 = [1, 2] ∧ (grow twoLevels).made 1 = [3, 4] ∧
    (grow twoLevels).children 1 = [3, 4, 5, 6] ∧ (grow twoLevels).children 2 = [5, 6] := by decide

/-- With 16 children each, there are 32, though the search has room for 16. -/
theorem C81_buffer_refuted :
    ((grow (([0, 0] ++ List.replicate 16 1) ++ List.replicate 16 2)).children 1).length = 32 := by decide +kernel

/-! ## The buffer of the search -/

variable {K : Type} {n : ℕ} {O : Type} [Field K] [LinearOrder K] [IsStrictOrderedRing K]

/-- **C81**: with more than 16 children that cannot be ruled out, the search writes past the end of its buffer. -/
theorem C81_overflow_refuted {T : Type} (big : K) (p : Fin n → K) (s : Srch O K) (kids : List (Geomc.Rect.Box K n × T))
    (buf : List (T × K)) (hb : buf.length ≤ 16) (hlen : 16 < kids.length + buf.length) (hs : 0 < s.best) (hw : 0 ≤ s.worst)
    (hbig : 0 ≤ big) (hk : ∀ c ∈ kids, p ∈ c.1.pts) : gather big p s kids buf = none := by
  induction kids generalizing buf s with
  | nil =>
    rw [List.length_nil] at hlen
    omega
  | cons c kids ih =>
    obtain ⟨b, t⟩ := c
    have hd : b.dist2 p = 0 := by
      have hm := hk (b, t) (by simp)
      have he : b.isEmpty = false :=
        (Geomc.Rect.not_empty_iff b).2 fun i => (Geomc.Rect.mem_pts.1 hm i).1.trans (Geomc.Rect.mem_pts.1 hm i).2
      exact (Geomc.Rect.C47_clip b he p).2.2.2.2.2 hm
    rw [gather, if_neg (by omega), hd, if_pos ⟨hs, hw⟩]
    split_ifs with h16
    · rfl
    · refine ih _ _ (by rw [List.length_cons]; omega) (by rw [List.length_cons] at hlen ⊢; omega) hs ?_ fun c hc => hk c (by simp [hc])
      show 0 ≤ Geomc.Vec.stdMin s.worst (worstCase big p b)
      rw [Geomc.Vec.stdMin_eq]
      refine le_min hw ?_
      rcases foldMin_eq (fun i => Geomc.Vec.mag2 (Function.update (farExtreme p b) i (nearExtreme p b i) - p))
        (List.finRange n) big with h | ⟨i, -, h⟩
      · rw [worstCase, h]
        exact hbig
      · rw [worstCase, h]
        exact Geomc.Rect.mag2_nonneg _

example : gather (1000 : ℚ) ![0, 0] (⟨none, 1000, 1000⟩ : Srch (Fin 2 → ℚ) ℚ)
    (List.replicate 17 ((⟨![-1, -1], ![1, 1]⟩ : Geomc.Rect.Box ℚ 2), ())) [] = none :=
  C81_overflow_refuted _ _ _ _ _ (by decide) (by decide) (by decide) (by decide) (by decide) (by
    intro c hc
    rw [List.eq_of_mem_replicate hc, Geomc.Rect.mem_pts]
    decide)

end Geomc.Index
