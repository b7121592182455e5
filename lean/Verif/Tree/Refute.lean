import Verif.Tree.Props

/-!
# Where trees go wrong: the rest of C67, C84, C85, C86
-/

namespace Geomc.Tree

variable {D I : Type}

/-! ## Runs -/

/-- `insert_child_node(obj)` and `insert_item(item)`, which insert at the end, geomc/Tree.h:1055-1057, 1221-1223. -/
inductive Op
  | child (p d : ℕ)
  | item (x v : ℕ)

def step (s : St ℕ ℕ) : Op → Option (St ℕ ℕ)
  | .child p d =>
    if p ∈ s.nodes then do
      let e ← s.endOf p
      let (s, _) ← s.insertChild none p e d
      some s
    else none
  | .item x v =>
    if x ∈ s.nodes then do
      let e ← s.itemsEnd x
      let (s, _) ← s.insertItem x e v
      some s
    else none

def run : List Op → St ℕ ℕ → Option (St ℕ ℕ)
  | [], s => some s
  | o :: os, s => do run os (← step s o)

theorem reach_step {s s' : St ℕ ℕ} {o : Op} (h : Reach s) (e : step s o = some s') : Reach s' := by
  rcases o with ⟨p, d⟩ | ⟨x, v⟩
  · by_cases hp : p ∈ s.nodes
    · rw [step, if_pos hp] at e
      rcases h1 : s.endOf p with _ | b
      · rw [h1] at e
        cases e
      · rw [h1] at e
        simp only [Option.bind_eq_bind, Option.bind_some] at e
        rcases h2 : s.insertChild none p b d with _ | ⟨s₁, r⟩
        · rw [h2] at e
          cases e
        · rw [h2] at e
          simp only [Option.bind_some, Option.some.injEq] at e
          exact e ▸ .child h hp (.inr h1) h2
    · rw [step, if_neg hp] at e
      cases e
  · by_cases hx : x ∈ s.nodes
    · rw [step, if_pos hx] at e
      rcases h1 : s.itemsEnd x with _ | b
      · rw [h1] at e
        cases e
      · rw [h1] at e
        simp only [Option.bind_eq_bind, Option.bind_some] at e
        rcases h2 : s.insertItem x b v with _ | ⟨s₁, r⟩
        · rw [h2] at e
          cases e
        · rw [h2] at e
          simp only [Option.bind_some, Option.some.injEq] at e
          exact e ▸ .item h hx (.inr h1) h2
    · rw [step, if_neg hx] at e
      cases e

theorem reach_run {os : List Op} {s s' : St ℕ ℕ} (h : Reach s) (e : run os s = some s') : Reach s' := by
  induction os generalizing s with
  | nil =>
    rw [run, Option.some.injEq] at e
    exact e ▸ h
  | cons o os ih =>
    rw [run] at e
    rcases h1 : step s o with _ | s₁
    · rw [h1] at e
      cases e
    · rw [h1] at e
      exact ih (reach_step h h1) e

/-- The tree that a run makes. -/
def made (os : List Op) (h : (run os (empty 0 0)).isSome = true) : St ℕ ℕ := (run os (empty 0 0)).get h

theorem reach_made (os : List Op) (h) : Reach (made os h) := reach_run (.empty 0 0) (Option.eq_some_of_isSome h)

/-! ## C67: ranges and order -/

/-- Three leaves; an item in the third, then one in the second: the range of the root has only the first item. -/
theorem C67_root_range_refuted : ∃ s : St ℕ ℕ, Reach s ∧ s.children 0 = some [1, 2, 3] ∧ (s.node 0).nitems = 2 ∧
    s.itemsOf 2 = some [1] ∧ s.itemsOf 3 = some [0] ∧ s.itemsOf 0 = some [0] :=
  ⟨_, reach_made [.child 0 1, .child 0 2, .child 0 3, .item 3 7, .item 2 8] (by decide +kernel), by decide +kernel⟩

/-- Leaves two levels down; an item in the first, then one in the second: the items are not in the order of the leaves, and the range of
their parent is empty. -/
theorem C67_item_order_refuted : ∃ s : St ℕ ℕ, Reach s ∧ s.children 0 = some [1] ∧ s.children 1 = some [2, 3] ∧
    s.itemsOf 2 = some [0] ∧ s.itemsOf 3 = some [1] ∧ s.items = [1, 0] ∧ (s.node 1).nitems = 2 ∧ s.itemsOf 1 = some [] :=
  ⟨_, reach_made [.child 0 1, .child 1 2, .child 1 3, .item 2 7, .item 3 8] (by decide +kernel), by decide +kernel⟩

/-- A node three levels down precedes its parent in the sequence of nodes. -/
theorem C67_node_order_refuted : ∃ s : St ℕ ℕ, Reach s ∧ s.children 0 = some [1] ∧ s.children 1 = some [2] ∧ s.children 2 = some [3] ∧
    s.nodes = [0, 1, 3, 2] :=
  ⟨_, reach_made [.child 0 1, .child 1 2, .child 2 3] (by decide +kernel), by decide +kernel⟩

/-- Splitting a leaf whose items are sorted can leave the lower items unsorted. -/
theorem C67_split_order_refuted : ∃ (s s' : St ℕ ℕ) (lo : ℕ), Reach s ∧ (s.itemsOf 1).map (·.map s.val) = some [1, 2, 5, 6] ∧
    s.split none 1 (· < 4) 0 = some (s', some lo) ∧ (s'.itemsOf lo).map (·.map s'.val) = some [2, 1] := by
  have h : (run [.child 0 1, .item 1 1, .item 1 2, .item 1 5, .item 1 6] (empty 0 0)).isSome = true := by decide +kernel
  have h2 : ((made _ h).split none 1 (· < 4) 0).isSome = true := by decide +kernel +revert
  refine ⟨made _ h, (((made _ h).split none 1 (· < 4) 0).get h2).1, 2, reach_made _ _, by decide +kernel +revert, ?_,
    by decide +kernel +revert⟩
  rw [show (some ((((made _ h).split none 1 (· < 4) 0).get h2).1, some 2) : Option (St ℕ ℕ × Option ℕ)) =
    some (((made _ h).split none 1 (· < 4) 0).get h2) from ?_]
  · exact Option.eq_some_of_isSome h2
  · have : (((made _ h).split none 1 (· < 4) 0).get h2).2 = some 2 := by decide +kernel +revert
    rw [← this]

/-! ## C84: subtrees and queries -/

/-- The successor of a node with children, other than the root, is its own first child. -/
theorem Rep.nodeSuccessor_self {s : St D I} {A : Abs} (h : Rep s A) {x : ℕ} (hx : x ∈ s.nodes) (hx0 : x ≠ 0) (hk : A.kids x ≠ []) :
    s.nodeSuccessor x = some (A.kids x).head? := by
  obtain ⟨p, hp, h1, h2⟩ := h.parent x hx hx0
  have hpk : A.kids p ≠ [] := fun e => by rw [e] at h2; cases h2
  obtain ⟨l, r, e⟩ := h.block p hp
  have hlt := h.fresh p hp
  rw [St.nodeSuccessor, h1]
  rcases hn : s.nextN with _ | f
  · omega
  · rw [St.succLoop, (h.endOf hp hpk e).1]
    have hscan : scan s.nodes (fun c => decide ((s.node c).nkids > 0)) (s.nodes.length + 1) (some x) r.head? = some (some x) := by
      rw [scan_succ, if_neg]
      · simp only
        rw [if_pos (by simpa using (h.nkids_pos hx).2 hk)]
      · intro h3
        have hxr : x ∈ r := List.mem_of_mem_head? h3.symm
        have hd := h.nodup
        rw [e, List.nodup_append] at hd
        exact hd.2.2 x (List.mem_append_right _ h2) x hxr rfl
    simp only [Option.bind_eq_bind, Option.bind_some, hscan, h.cfirst x hx]
    rcases hh : (A.kids x).head? with _ | y
    · rw [List.head?_eq_none_iff] at hh
      exact absurd hh hk
    · rfl

/-- The end of the nodes below a node other than the root is where they begin, if it has children. -/
theorem C84_subtree_end_refuted {s : St D I} (h : Reach s) {x : ℕ} (hx : x ∈ s.nodes) (hx0 : x ≠ 0) (hk : (s.node x).nkids > 0) :
    s.nodeSuccessor x = some (s.node x).cfirst ∧ walk s.nodes (s.nodes.length + 1) (s.node x).cfirst (s.node x).cfirst = some [] := by
  obtain ⟨A, hA⟩ := h.rep
  rw [hA.nodeSuccessor_self hx hx0 ((hA.nkids_pos hx).1 hk), hA.cfirst x hx]
  exact ⟨rfl, by rw [walk_succ, if_pos rfl]⟩

/-- For the root, the nodes from its first child to the end are all the others, each once. -/
theorem C84_root_partial {s : St D I} (h : Reach s) : s.nodeSuccessor 0 = some none ∧
    walk s.nodes (s.nodes.length + 1) (s.node 0).cfirst none = some s.nodes.tail ∧ s.nodes.tail.Nodup ∧
    ∀ x, x ∈ s.nodes.tail ↔ x ∈ s.nodes ∧ x ≠ 0 := by
  obtain ⟨A, hA⟩ := h.rep
  have hnd := hA.nodup
  have hroot := hA.root
  obtain ⟨l, r, e⟩ := hA.front
  have hl : l = [] := by
    rcases l with _ | ⟨a, l⟩
    · rfl
    · exfalso
      rw [e] at hroot hnd
      simp only [List.cons_append, List.head?_cons, Option.some.injEq] at hroot
      rw [hroot] at hnd
      rw [List.cons_append, List.cons_append, List.nodup_cons] at hnd
      exact hnd.1 (by simp)
  subst hl
  rw [List.nil_append] at e
  have ht : s.nodes.tail = A.kids 0 ++ r := by rw [e]; rfl
  have hmem : ∀ x, x ∈ s.nodes.tail ↔ x ∈ s.nodes ∧ x ≠ 0 := by
    intro x
    rw [ht]
    rw [e, List.cons_append, List.nodup_cons] at hnd
    rw [e, List.cons_append, List.mem_cons]
    constructor
    · exact fun h1 => ⟨.inr h1, fun h2 => hnd.1 (h2 ▸ h1)⟩
    · rintro ⟨h1 | h1, h2⟩
      · exact absurd h1 h2
      · exact h1
  refine ⟨by rw [St.nodeSuccessor, hA.parent0, St.succLoop], ?_, hnd.tail, hmem⟩
  have hfirst : (s.node 0).cfirst = (s.nodes.tail ++ []).head? := by
    rw [hA.cfirst 0 hA.zero_mem, ht, List.append_nil]
    by_cases h0 : A.kids 0 = []
    · have : r = [] := by
        rcases r with _ | ⟨a, r⟩
        · rfl
        · exfalso
          have ha : a ∈ s.nodes := by rw [e]; simp
          refine hA.kids_root ha ?_ h0
          exact ((hmem a).1 (by rw [ht]; simp)).2
      rw [h0, this]
      rfl
    · rw [List.head?_append_of_ne_nil _ h0]
  have := walk_block (l := [0]) (b := s.nodes.tail) (r := []) (f := s.nodes.length + 1) (by
    rw [ht]
    rw [e] at hnd
    simpa using hnd) (by rw [List.length_tail]; omega)
  rw [hfirst]
  have e2 : [0] ++ s.nodes.tail ++ [] = s.nodes := by
    rw [ht]
    conv_rhs => rw [e]
    simp
  rw [e2] at this
  exact this

/-- Searching a leaf for an item can find it in another leaf. -/
theorem C84_find_parent_refuted : ∃ s : St ℕ ℕ, Reach s ∧ s.children 0 = some [1, 2] ∧ s.itemsOf 1 = some [] ∧ s.itemsOf 2 = some [0] ∧
    s.findParent 1 0 = some (some 2) :=
  ⟨_, reach_made [.child 0 1, .child 0 2, .item 2 7] (by decide +kernel), by decide +kernel⟩

/-- A query visits neither the second child of the root nor the child of the first. -/
theorem C84_query_refuted : ∃ s : St ℕ ℕ, Reach s ∧ s.children 0 = some [1, 2] ∧ s.children 1 = some [3] ∧
    s.query 0 (fun _ => true) (fun _ => true) = some [0, 1] :=
  ⟨_, reach_made [.child 0 1, .child 0 2, .child 1 3] (by decide +kernel), by decide +kernel⟩

/-- A query from a node that follows its own child visits nothing. -/
theorem C84_query_self_refuted : ∃ s : St ℕ ℕ, Reach s ∧ s.children 2 = some [3] ∧ s.children 3 = some [] ∧
    s.query 2 (fun _ => true) (fun _ => true) = some [] :=
  ⟨_, reach_made [.child 0 1, .child 1 2, .child 2 3] (by decide +kernel), by decide +kernel⟩

theorem queryLoop_succ (s : St D I) (root : ℕ) (bound test : ℕ → Bool) (f : ℕ) (item stop : Option ℕ) :
    s.queryLoop root bound test (f + 1) item stop =
    if item = stop then some [] else
    match item with
    | none => none
    | some x => (s.nextCandidate root bound x).bind fun n =>
      (s.queryLoop root bound test f n stop).bind fun t => some (if test x then x :: t else t) := by
  rw [St.queryLoop.eq_def]
  rfl

theorem Rep.query_kids {s : St D I} {A : Abs} (h : Rep s A) {x : ℕ} (hx : x ∈ s.nodes) (hl : ∀ c ∈ A.kids x, A.kids c = [])
    (bound test : ℕ → Bool) {l r : List ℕ} (e : s.nodes = l ++ A.kids x ++ r) (b₁ b₂ : List ℕ) (hb : A.kids x = b₁ ++ b₂) (f : ℕ)
    (hf : b₂.length < f) : s.queryLoop x bound test f (b₂ ++ r).head? r.head? = some (b₂.filter test) := by
  induction b₂ generalizing b₁ f with
  | nil =>
    rcases f with _ | f
    · omega
    · rw [queryLoop_succ, List.nil_append, if_pos rfl]
      rfl
  | cons c b₂ ih =>
    rcases f with _ | f
    · omega
    · have hck : c ∈ A.kids x := by rw [hb]; simp
      obtain ⟨hcn, hcp, hcx⟩ := h.kid x hx c hck
      have hd := h.nodup
      have e' : s.nodes = (l ++ b₁) ++ c :: (b₂ ++ r) := by rw [e, hb]; simp
      have hcl : c ∉ l ++ b₁ := fun h1 => by
        rw [e', List.nodup_append] at hd
        exact hd.2.2 c h1 c (by simp) rfl
      have hcr : c ∉ b₂ ++ r := fun h1 => by
        rw [e', List.nodup_append] at hd
        exact (List.nodup_cons.1 hd.2.1).1 h1
      rw [queryLoop_succ, if_neg]
      · have hnc : s.nextCandidate x bound c = some (b₂ ++ r).head? := by
          have hfr := h.fresh c hcn
          rw [St.nextCandidate, if_neg (fun h1 => (h.nkids_pos hcn).1 h1.1 (hl c hck)), if_neg (by omega)]
          have : s.ascend x s.nextN c = some c := by
            rcases hn : s.nextN with _ | g
            · omega
            · rw [St.ascend, hcp]
              simp
          rw [this, Option.map_some, e', next_mid hcl]
        simp only [List.cons_append, List.head?_cons, hnc, Option.bind_eq_bind, Option.bind_some]
        rw [ih (b₁ ++ [c]) (by rw [hb]; simp) f (by rw [List.length_cons] at hf; omega)]
        simp only [Option.bind_some]
        by_cases ht : test c = true
        · rw [if_pos ht, List.filter_cons_of_pos ht]
        · rw [if_neg ht, List.filter_cons_of_neg ht]
      · rw [List.cons_append, List.head?_cons]
        intro h1
        exact hcr (List.mem_append_right _ (List.mem_of_mem_head? h1.symm))

/-- A query from a node whose children are leaves visits the node and its children, in order, if they pass the test, and not the children
if the node does not pass the bound, provided that the node does not follow its own children.  (Missing: other trees, for which it is
false.) -/
theorem C84_query_partial {s : St D I} (h : Reach s) {x : ℕ} (hx : x ∈ s.nodes) {cs : List ℕ} (hc : s.children x = some cs)
    (hl : ∀ c ∈ cs, s.children c = some []) (hs : s.endOf x ≠ some (some x)) (bound test : ℕ → Bool) :
    s.query x bound test = some ((x :: (if bound x then cs else [])).filter test) := by
  obtain ⟨A, hA⟩ := h.rep
  rw [hA.children hx, Option.some.injEq] at hc
  subst hc
  have hl' : ∀ c ∈ A.kids x, A.kids c = [] := fun c hc => by
    have := hl c hc
    rwa [hA.children (hA.kid x hx c hc).1, Option.some.injEq] at this
  obtain ⟨l, r, e⟩ := hA.block x hx
  have hlen : (A.kids x).length < s.nodes.length := by
    have h1 : (A.kids x).Nodup := hA.kids_nodup hx
    have h2 : (x :: A.kids x).Nodup := List.nodup_cons.2 ⟨fun h3 => by
      have := (hA.kid x hx x h3).2.2
      omega, h1⟩
    have h3 : x :: A.kids x ⊆ s.nodes := by
      intro y hy
      rcases List.mem_cons.1 hy with rfl | hy
      · exact hx
      · exact (hA.kid x hx y hy).1
    have := (List.subperm_of_subset h2 h3).length_le
    rw [List.length_cons] at this
    omega
  have filt : ∀ t : List ℕ, (if test x then x :: t.filter test else t.filter test) = (x :: t).filter test := fun t => by
    by_cases ht : test x = true
    · rw [if_pos ht, List.filter_cons_of_pos ht]
    · rw [if_neg ht, List.filter_cons_of_neg ht]
  rw [St.query]
  by_cases h0 : A.kids x = []
  · rw [hA.endOf_nil hx h0]
    simp only [Option.bind_eq_bind, Option.bind_some]
    rw [queryLoop_succ, if_neg (by simp)]
    have hnc : s.nextCandidate x bound x = some none := by
      rw [St.nextCandidate, if_neg (fun h1 => (hA.nkids_pos hx).1 h1.1 h0), if_pos rfl, hA.endOf_nil hx h0]
    simp only [hnc, Option.bind_eq_bind, Option.bind_some]
    rcases hn : s.nodes.length with _ | f
    · omega
    · rw [queryLoop_succ, if_pos rfl, h0]
      simp only [Option.bind_some]
      rw [← filt]
      simp
  · rw [(hA.endOf hx h0 e).1]
    simp only [Option.bind_eq_bind, Option.bind_some]
    rw [queryLoop_succ]
    have hxe : some x ≠ r.head? := fun h1 => hs (by rw [(hA.endOf hx h0 e).1, h1])
    · rw [if_neg hxe]
      by_cases hb : bound x = true
      · have hnc : s.nextCandidate x bound x = some (A.kids x ++ r).head? := by
          rw [St.nextCandidate, if_pos ⟨(hA.nkids_pos hx).2 h0, hb⟩, hA.cfirst x hx, List.head?_append_of_ne_nil _ h0]
        simp only [hnc, Option.bind_eq_bind, Option.bind_some]
        rw [hA.query_kids hx hl' bound test e [] (A.kids x) (by simp) _ (by omega), if_pos hb]
        simp only [Option.bind_some]
        rw [filt]
      · have hnc : s.nextCandidate x bound x = some r.head? := by
          rw [St.nextCandidate, if_neg (fun h1 => hb h1.2), if_pos rfl, (hA.endOf hx h0 e).1]
        simp only [hnc, Option.bind_eq_bind, Option.bind_some]
        rcases hn : s.nodes.length with _ | f
        · omega
        · rw [queryLoop_succ, if_pos rfl, if_neg hb]
          simp only [Option.bind_some]
          rw [← filt]
          simp

end Geomc.Tree
