import Mathlib.Data.List.Count
import Verif.Tree.Erase

/-!
# Properties of trees: C67, C84, C85, C86
-/

namespace Geomc.Tree

variable {D I : Type}

/-! ## C67 -/

/-- The trees made by inserting nodes and items, splitting leaves and erasing empty ones.  Positions are nodes of the tree or the end of
the parent's children, and items of the leaf or the end of its items. -/
inductive Reach : St D I → Prop
  | empty (d : D) (v : I) : Reach (empty d v)
  | child {s s' : St D I} {garbage : Option ℕ} {p : ℕ} {before r : Option ℕ} {d : D} : Reach s → p ∈ s.nodes →
      ((∃ b ∈ s.nodes, before = some b) ∨ s.endOf p = some before) → s.insertChild garbage p before d = some (s', r) → Reach s'
  | item {s s' : St D I} {x : ℕ} {before r : Option ℕ} {v : I} : Reach s → x ∈ s.nodes →
      ((∃ t i, s.itemsOf x = some t ∧ i ∈ t ∧ before = some i) ∨ s.itemsEnd x = some before) →
      s.insertItem x before v = some (s', r) → Reach s'
  | split {s s' : St D I} {garbage : Option ℕ} {x : ℕ} {lt : I → Bool} {r : Option ℕ} {d : D} : Reach s → x ∈ s.nodes →
      s.split garbage x lt d = some (s', r) → Reach s'
  | erase {s s' : St D I} {p c : ℕ} {r : Option ℕ} : Reach s → p ∈ s.nodes → c ∈ s.nodes → (s.node c).nkids = 0 →
      (s.node c).nitems = 0 → s.eraseChild p c = some (s', r) → Reach s'

theorem rep_empty (d : D) (v : I) : Rep (empty d v) ⟨fun _ => [], fun _ => []⟩ where
  nodup := by simp [empty]
  root := rfl
  fresh := by simp [empty]
  kid := by simp
  parent := by
    intro x hx h0
    simp [empty] at hx
    exact absurd hx h0
  parent0 := rfl
  block := fun x _ => ⟨[0], [], by simp [empty]⟩
  cfirst := by simp [empty]
  clast := by simp [empty]
  nkids := by simp [empty]
  front := ⟨[], [], rfl⟩
  inodup := by simp [empty]
  ifresh := by simp [empty]
  inner := by simp
  iblock := fun x _ => ⟨[], [], rfl⟩
  cover := by simp [empty]
  disj := by simp
  ifirst := by simp [empty]
  ilast := by simp [empty]
  nitems := by simp [empty]
  sum := by simp
  bound := by simp
  boundL := by simp

namespace Rep

variable {s : St D I} {A : Abs}

theorem endOf_some (h : Rep s A) {p : ℕ} (hp : p ∈ s.nodes) : ∃ e, s.endOf p = some e := by
  by_cases h0 : A.kids p = []
  · exact ⟨_, h.endOf_nil hp h0⟩
  · obtain ⟨l, r, e⟩ := h.block p hp
    exact ⟨_, (h.endOf hp h0 e).1⟩

/-- A position for a child: it is one, or the insertion has no effect. -/
theorem insertChild_any (h : Rep s A) {p : ℕ} (hp : p ∈ s.nodes) (garbage : Option ℕ) {before : Option ℕ}
    (hb : (∃ b ∈ s.nodes, before = some b) ∨ s.endOf p = some before) (d : D) :
    (∃ b₁ b₂ s', A.kids p = b₁ ++ b₂ ∧ s.insertChild garbage p before d = some (s', some s.nextN) ∧
      Rep s' (A.addKid p b₁ b₂ s.nextN)) ∨ ∃ e, s.endOf p = some e ∧ s.insertChild garbage p before d = some (s, e) := by
  obtain ⟨e, he⟩ := h.endOf_some hp
  by_cases h1 : s.endOf p = some before
  · left
    obtain ⟨s', h2, h3, -⟩ := h.insertChild hp garbage (b₁ := A.kids p) (b₂ := []) (by simp) (before := before) (by simp) (fun _ => h1) d
    exact ⟨A.kids p, [], s', by simp, h2, h3⟩
  · rcases hb with ⟨b, hb, rfl⟩ | h2
    · by_cases h3 : (s.node b).parent = some p
      · left
        obtain ⟨b₁, b₂, h4⟩ := List.append_of_mem (h.parent_lt hb h3).2.2
        obtain ⟨s', h5, h6, -⟩ := h.insertChild hp garbage (b₁ := b₁) (b₂ := b :: b₂) h4 (before := some b) (fun _ => rfl)
          (fun e => by cases e) d
        exact ⟨b₁, b :: b₂, s', h4, h5, h6⟩
      · right
        refine ⟨e, he, ?_⟩
        rw [St.insertChild, he]
        simp only [Option.bind_eq_bind, Option.bind_some]
        by_cases h4 : some b = s.nodes.head?
        · rw [if_pos h4]
        · rw [if_neg h4, if_pos]
          refine ⟨h3, fun h5 => h1 ?_⟩
          rw [he, h5]
    · exact absurd h2 h1

theorem itemsEnd_leaf (h : Rep s A) {x : ℕ} (hx : x ∈ s.nodes) (hk : A.kids x = []) : ∃ e, s.itemsEnd x = some e := by
  have := h.itemsOf hx hk
  rw [St.itemsOf] at this
  rcases he : s.itemsEnd x with _ | e
  · rw [he] at this
    cases this
  · exact ⟨e, rfl⟩

theorem insertItem_any (h : Rep s A) {x : ℕ} (hx : x ∈ s.nodes) (hk : A.kids x = []) {before : Option ℕ}
    (hb : (∃ t i, s.itemsOf x = some t ∧ i ∈ t ∧ before = some i) ∨ s.itemsEnd x = some before) (v : I) :
    ∃ c₁ c₂ s', A.own x = c₁ ++ c₂ ∧ s.insertItem x before v = some (s', some s.nextI) ∧ Rep s' (A.addItem x c₁ c₂ s.nextI) := by
  rcases hb with ⟨t, i, h1, h2, rfl⟩ | h1
  · rw [h.itemsOf hx hk, Option.some.injEq] at h1
    subst h1
    obtain ⟨c₁, c₂, h3⟩ := List.append_of_mem h2
    obtain ⟨s', h4, h5, -⟩ := h.insertItem hx hk (c₁ := c₁) (c₂ := i :: c₂) h3 (before := some i) (fun _ => rfl) (fun e => by cases e) v
    exact ⟨c₁, i :: c₂, s', h3, h4, h5⟩
  · obtain ⟨s', h4, h5, -⟩ := h.insertItem hx hk (c₁ := A.own x) (c₂ := []) (by simp) (before := before) (by simp) (fun _ _ => h1) v
    exact ⟨A.own x, [], s', by simp, h4, h5⟩

end Rep

/-- Whatever is reached represents a tree. -/
theorem Reach.rep {s : St D I} (h : Reach s) : ∃ A, Rep s A := by
  induction h with
  | empty d v => exact ⟨_, rep_empty d v⟩
  | child _ hp hb e ih =>
    obtain ⟨A, hA⟩ := ih
    rcases hA.insertChild_any hp _ hb _ with ⟨b₁, b₂, s', -, h2, h3⟩ | ⟨e', -, h2⟩
    · rw [h2, Option.some.injEq, Prod.mk.injEq] at e
      exact ⟨_, e.1 ▸ h3⟩
    · rw [h2, Option.some.injEq, Prod.mk.injEq] at e
      exact ⟨A, e.1 ▸ hA⟩
  | @item s s' x before r v _ hx hb e ih =>
    obtain ⟨A, hA⟩ := ih
    by_cases hk : A.kids x = []
    · obtain ⟨c₁, c₂, s'', -, h2, h3⟩ := hA.insertItem_any hx hk hb v
      rw [h2, Option.some.injEq, Prod.mk.injEq] at e
      exact ⟨_, e.1 ▸ h3⟩
    · rw [St.insertItem, if_pos ((hA.nkids_pos hx).2 hk)] at e
      rcases he : s.itemsEnd x with _ | e'
      · rw [he] at e
        cases e
      · rw [he] at e
        simp only [Option.bind_eq_bind, Option.bind_some, Option.some.injEq, Prod.mk.injEq] at e
        exact ⟨A, e.1 ▸ hA⟩
  | @split s s' garbage x lt r d _ hx e ih =>
    obtain ⟨A, hA⟩ := ih
    by_cases hok : x ≠ 0 ∧ A.kids x = [] ∧ 2 ≤ (A.own x).length
    · obtain ⟨s'', p, b₁, b₂, u, w, -, -, -, h2, h3, -⟩ := hA.split hx hok.1 hok.2.1 hok.2.2 garbage lt d
      rw [h2, Option.some.injEq, Prod.mk.injEq] at e
      exact ⟨_, e.1 ▸ h3⟩
    · rw [St.split, if_pos] at e
      · obtain ⟨e', he⟩ := hA.endOf_some hx
        rw [he] at e
        simp only [Option.bind_eq_bind, Option.bind_some, Option.some.injEq, Prod.mk.injEq] at e
        exact ⟨A, e.1 ▸ hA⟩
      · by_cases h0 : x = 0
        · left
          rw [hA.root, h0]
        · by_cases h1 : A.kids x = []
          · right; right
            rw [hA.nitems x hx h1]
            by_contra h2
            exact hok ⟨h0, h1, by omega⟩
          · right; left
            exact (hA.nkids_pos hx).2 h1
  | @erase s s' p c r _ hp hc hk hn e ih =>
    obtain ⟨A, hA⟩ := ih
    have kc := (hA.nkids_zero hc).1 hk
    by_cases h1 : (s.node c).parent = some p
    · obtain ⟨b₁, b₂, h2⟩ := List.append_of_mem (hA.parent_lt hc h1).2.2
      obtain ⟨s'', nx, h3, h4, -⟩ := hA.eraseChild hp h2 kc (by
        rw [hA.nitems c hc kc, Nat.cast_eq_zero, List.length_eq_zero_iff] at hn
        exact hn)
      rw [h3, Option.some.injEq, Prod.mk.injEq] at e
      exact ⟨_, e.1 ▸ h4⟩
    · rw [St.eraseChild, if_pos h1] at e
      obtain ⟨e', he⟩ := hA.endOf_some hp
      rw [he] at e
      simp only [Option.bind_eq_bind, Option.bind_some, Option.some.injEq, Prod.mk.injEq] at e
      exact ⟨A, e.1 ▸ hA⟩

/-- The nodes other than the root are the children of nodes. -/
theorem Rep.perm_kids {s : St D I} {A : Abs} (h : Rep s A) : s.nodes.Perm (0 :: s.nodes.flatMap A.kids) := by
  have hn : (0 :: s.nodes.flatMap A.kids).Nodup := by
    rw [List.nodup_cons]
    refine ⟨fun h0 => ?_, ?_⟩
    · obtain ⟨x, hx, h1⟩ := List.mem_flatMap.1 h0
      have := (h.kid x hx 0 h1).2.2
      omega
    · rw [List.nodup_flatMap]
      refine ⟨fun x hx => h.kids_nodup hx, ?_⟩
      refine h.nodup.pairwise_of_forall_ne fun x hx y hy hxy => ?_
      intro c hc hc'
      exact hxy (h.kids_disj hx hy hc hc')
  refine (List.perm_ext_iff_of_nodup h.nodup hn).2 fun x => ?_
  rw [List.mem_cons, List.mem_flatMap]
  constructor
  · intro hx
    by_cases h0 : x = 0
    · exact .inl h0
    · obtain ⟨p, hp, -, h2⟩ := h.parent x hx h0
      exact .inr ⟨p, hp, h2⟩
  · rintro (h0 | ⟨p, hp, h1⟩)
    · rw [h0]
      exact h.zero_mem
    · exact (h.kid p hp x h1).1

theorem Rep.perm_own {s : St D I} {A : Abs} (h : Rep s A) : s.items.Perm (s.nodes.flatMap A.own) := by
  have hn : (s.nodes.flatMap A.own).Nodup := by
    rw [List.nodup_flatMap]
    refine ⟨fun x hx => h.own_nodup hx, ?_⟩
    refine h.nodup.pairwise_of_forall_ne fun x hx y hy hxy => ?_
    intro c hc hc'
    exact hxy (h.disj x hx y hy c hc hc')
  refine (List.perm_ext_iff_of_nodup h.inodup hn).2 fun i => ?_
  rw [List.mem_flatMap]
  constructor
  · exact h.cover i
  · rintro ⟨x, hx, h1⟩
    exact h.own_mem hx h1

theorem sum_flatMap (l : List ℕ) (g : ℕ → List ℕ) (f : ℕ → ℤ) :
    ((l.flatMap g).map f).sum = (l.map fun x => ((g x).map f).sum).sum := by
  induction l with
  | nil => rfl
  | cons a l ih => rw [List.flatMap_cons, List.map_append, List.sum_append, List.map_cons, List.sum_cons, ih]

/-- The root counts all items. -/
theorem Rep.total {s : St D I} {A : Abs} (h : Rep s A) : (s.node 0).nitems = s.items.length := by
  have h1 := (h.perm_kids.map fun x => (s.node x).nitems).sum_eq
  rw [List.map_cons, List.sum_cons, sum_flatMap] at h1
  have h2 := h.perm_own.length_eq
  have h3 : ((s.nodes.flatMap A.own).length : ℤ) = (s.nodes.map fun x => ((A.own x).length : ℤ)).sum := by
    generalize s.nodes = l
    induction l with
    | nil => rfl
    | cons a l ih =>
      rw [List.flatMap_cons, List.length_append, List.map_cons, List.sum_cons, ← ih]
      push_cast
      rfl
  have h4 : (s.nodes.map fun x => (s.node x).nitems).sum =
      (s.nodes.map fun x => ((A.own x).length : ℤ)).sum + (s.nodes.map fun x => ((A.kids x).map fun y => (s.node y).nitems).sum).sum := by
    have key : ∀ l : List ℕ, (∀ x ∈ l, x ∈ s.nodes) → (l.map fun x => (s.node x).nitems).sum =
        (l.map fun x => ((A.own x).length : ℤ)).sum + (l.map fun x => ((A.kids x).map fun y => (s.node y).nitems).sum).sum := by
      intro l hl
      induction l with
      | nil => rfl
      | cons a l ih =>
        simp only [List.map_cons, List.sum_cons]
        rw [ih fun x hx => hl x (List.mem_cons_of_mem _ hx)]
        have ha := hl a (by simp)
        by_cases hk : A.kids a = []
        · rw [h.nitems a ha hk, hk]
          simp only [List.map_nil, List.sum_nil]
          omega
        · rw [h.sum a ha hk, h.inner a ha hk]
          simp only [List.length_nil]
          push_cast
          omega
    exact key _ fun _ hx => hx
  rw [h2, h3]
  omega

/-- In every tree reached by valid insertions, splits and removals of empty leaves: the children of each node are adjacent in the sequence
of nodes, and each node but the root is the child of exactly one node; the items of each leaf are adjacent in the sequence of items, and
each item is in exactly one leaf; the counts of children and items are right, and the count of a parent is the sum of those of its
children.  (Missing: the ranges of items of nodes that are not leaves, which can be wrong, and the order of nodes and items below different
parents: see the refutations.) -/
theorem C67_partial {s : St D I} (h : Reach s) :
    s.nodes.Nodup ∧ s.nodes.head? = some 0 ∧ (s.node 0).parent = none ∧ (s.node 0).nitems = s.items.length ∧
    (∀ x ∈ s.nodes, ∃ cs l r, s.children x = some cs ∧ s.nodes = l ++ cs ++ r ∧ (s.node x).nkids = cs.length ∧
      (∀ c, c ∈ cs ↔ c ∈ s.nodes ∧ (s.node c).parent = some x) ∧
      (cs = [] → ∃ is l r, s.itemsOf x = some is ∧ s.items = l ++ is ++ r ∧ (s.node x).nitems = is.length) ∧
      (cs ≠ [] → (s.node x).nitems = (cs.map fun c => (s.node c).nitems).sum)) ∧
    (∀ x ∈ s.nodes, x ≠ 0 → ∃ p ∈ s.nodes, (s.node x).parent = some p) ∧
    s.items.Nodup ∧ ∀ i ∈ s.items, ∃! x, x ∈ s.nodes ∧ s.children x = some [] ∧ ∃ is, s.itemsOf x = some is ∧ i ∈ is := by
  obtain ⟨A, hA⟩ := h.rep
  refine ⟨hA.nodup, hA.root, hA.parent0, hA.total, fun x hx => ?_, fun x hx h0 => ?_, hA.inodup, fun i hi => ?_⟩
  · obtain ⟨l, r, e⟩ := hA.block x hx
    refine ⟨A.kids x, l, r, hA.children hx, e, hA.nkids x hx, fun c => ⟨fun hc => ?_, fun hc => ?_⟩, fun hk => ?_, fun hk => hA.sum x hx hk⟩
    · exact ⟨(hA.kid x hx c hc).1, (hA.kid x hx c hc).2.1⟩
    · exact (hA.parent_lt hc.1 hc.2).2.2
    · obtain ⟨l', r', e'⟩ := hA.iblock x hx
      exact ⟨_, l', r', hA.itemsOf hx hk, e', hA.nitems x hx hk⟩
  · obtain ⟨p, hp, h1, -⟩ := hA.parent x hx h0
    exact ⟨p, hp, h1⟩
  · obtain ⟨x, hx, hix⟩ := hA.cover i hi
    have hk : A.kids x = [] := by
      by_contra hk
      rw [hA.inner x hx hk] at hix
      cases hix
    refine ⟨x, ⟨hx, by rw [hA.children hx, hk], A.own x, hA.itemsOf hx hk, hix⟩, ?_⟩
    rintro y ⟨hy, hyc, is, h1, h2⟩
    rw [hA.children hy, Option.some.injEq] at hyc
    rw [hA.itemsOf hy hyc, Option.some.injEq] at h1
    subst h1
    exact hA.disj y hy x hx i h2 hix

/-- Inserting a child before a child or at the end of the children does just that: no other node is changed, and a first child takes the
items of its parent. -/
theorem C67_insert_child {s : St D I} (h : Reach s) {p : ℕ} (hp : p ∈ s.nodes) (garbage : Option ℕ) {b₁ b₂ : List ℕ}
    (hk : s.children p = some (b₁ ++ b₂)) {before : Option ℕ} (hb : b₂ ≠ [] → before = b₂.head?)
    (hb' : b₂ = [] → s.endOf p = some before) (d : D) :
    ∃ s', s.insertChild garbage p before d = some (s', some s.nextN) ∧ Reach s' ∧ s.nextN ∉ s.nodes ∧
      (∀ x, x ∈ s'.nodes ↔ x = s.nextN ∨ x ∈ s.nodes) ∧ s'.children p = some (b₁ ++ s.nextN :: b₂) ∧ s'.children s.nextN = some [] ∧
      (∀ x ∈ s.nodes, x ≠ p → s'.children x = s.children x) ∧ (s'.node s.nextN).data = d ∧
      (∀ x ∈ s.nodes, (s'.node x).data = (s.node x).data) ∧
      s'.itemsOf s.nextN = (if b₁ ++ b₂ = [] then s.itemsOf p else some []) ∧
      (∀ x ∈ s.nodes, s.children x = some [] → x ≠ p → s'.itemsOf x = s.itemsOf x) ∧ s'.items = s.items ∧ s'.val = s.val := by
  obtain ⟨A, hA⟩ := h.rep
  rw [hA.children hp, Option.some.injEq] at hk
  obtain ⟨s', e, R, i1, i2, i3, i4, i5, -, -, -⟩ := hA.insertChild hp garbage hk hb hb' d
  have hnew : s.nextN ∉ s.nodes := fun h' => absurd (hA.fresh _ h') (lt_irrefl _)
  have hpn : p ≠ s.nextN := fun e => hnew (e ▸ hp)
  have hxn : ∀ x ∈ s.nodes, x ≠ s.nextN := fun x hx e => hnew (e ▸ hx)
  have mn : s.nextN ∈ s'.nodes := (i5 _).2 (.inl rfl)
  have kn : (A.addKid p b₁ b₂ s.nextN).kids s.nextN = [] := by simp [Abs.addKid, hpn.symm]
  have kx : ∀ x ∈ s.nodes, x ≠ p → (A.addKid p b₁ b₂ s.nextN).kids x = A.kids x := fun x hx hxp => by
    simp [Abs.addKid, hxp, hxn x hx]
  refine ⟨s', e, .child h hp ?_ e, hnew, i5, ?_, ?_, fun x hx hxp => ?_, i4, i3, ?_, fun x hx hk0 hxp => ?_, i1, i2⟩
  · rcases b₂ with _ | ⟨b, b₂⟩
    · exact .inr (hb' rfl)
    · exact .inl ⟨b, (hA.kid p hp b (by rw [hk]; simp)).1, hb (by simp)⟩
  · rw [R.children ((i5 p).2 (.inr hp))]
    simp [Abs.addKid]
  · rw [R.children mn, kn]
  · rw [R.children ((i5 x).2 (.inr hx)), hA.children hx, kx x hx hxp]
  · rw [R.itemsOf mn kn]
    by_cases h0 : A.kids p = []
    · rw [if_pos (by rw [← hk, h0]), hA.itemsOf hp h0]
      simp [Abs.addKid, h0]
    · rw [if_neg (by rw [← hk]; exact h0)]
      simp [Abs.addKid, h0]
  · rw [hA.children hx, Option.some.injEq] at hk0
    rw [hA.itemsOf hx hk0, R.itemsOf ((i5 x).2 (.inr hx)) (by rw [kx x hx hxp, hk0])]
    simp [Abs.addKid, hxp, hxn x hx]

/-- Inserting an item before an item of a leaf or at the end of its items does just that: the items of other leaves are not changed. -/
theorem C67_insert_item {s : St D I} (h : Reach s) {x : ℕ} (hx : x ∈ s.nodes) (hxk : s.children x = some []) {c₁ c₂ : List ℕ}
    (hk : s.itemsOf x = some (c₁ ++ c₂)) {before : Option ℕ} (hb : c₂ ≠ [] → before = c₂.head?)
    (hb' : c₂ = [] → s.itemsEnd x = some before) (v : I) :
    ∃ s', s.insertItem x before v = some (s', some s.nextI) ∧ Reach s' ∧ s.nextI ∉ s.items ∧
      (∀ i, i ∈ s'.items ↔ i = s.nextI ∨ i ∈ s.items) ∧ s'.itemsOf x = some (c₁ ++ s.nextI :: c₂) ∧
      (∀ y ∈ s.nodes, s.children y = some [] → y ≠ x → s'.itemsOf y = s.itemsOf y) ∧
      s'.val = Function.update s.val s.nextI v ∧ s'.nodes = s.nodes ∧
      (∀ y ∈ s.nodes, s'.children y = s.children y) ∧ ∀ y, (s'.node y).data = (s.node y).data := by
  obtain ⟨A, hA⟩ := h.rep
  rw [hA.children hx, Option.some.injEq] at hxk
  have hk' := hk
  rw [hA.itemsOf hx hxk, Option.some.injEq] at hk
  obtain ⟨s', e, R, i1, i2, i3, i4⟩ := hA.insertItem hx hxk hk hb (fun h1 _ => hb' h1) v
  have hnew : s.nextI ∉ s.items := fun h' => absurd (hA.ifresh _ h') (lt_irrefl _)
  refine ⟨s', e, .item h hx ?_ e, hnew, i4, ?_, fun y hy hyk hyx => ?_, i3, i1, fun y hy => ?_, fun y => (i2 y).1⟩
  · rcases c₂ with _ | ⟨c, c₂⟩
    · exact .inr (hb' rfl)
    · exact .inl ⟨_, c, hk', by simp, hb (by simp)⟩
  · rw [R.itemsOf (by rw [i1]; exact hx) hxk]
    simp [Abs.addItem]
  · rw [hA.children hy, Option.some.injEq] at hyk
    rw [hA.itemsOf hy hyk, R.itemsOf (by rw [i1]; exact hy) hyk]
    simp [Abs.addItem, Function.update_of_ne hyx]
  · rw [hA.children hy, R.children (by rw [i1]; exact hy)]
    rfl

/-- Splitting a leaf other than the root with two items or more: a new leaf before it has the items below the pivot, and it keeps the
others.  The values are exchanged among its items; no other is changed. -/
theorem C67_split {s : St D I} (h : Reach s) {x : ℕ} (hx : x ∈ s.nodes) (hx0 : x ≠ 0) (hxk : s.children x = some []) {is : List ℕ}
    (hi : s.itemsOf x = some is) (h2 : 2 ≤ is.length) (garbage : Option ℕ) (lt : I → Bool) (d : D) :
    ∃ s' p b₁ b₂ u w, s.split garbage x lt d = some (s', some s.nextN) ∧ Reach s' ∧ s.nextN ∉ s.nodes ∧ p ∈ s.nodes ∧
      s.children p = some (b₁ ++ x :: b₂) ∧ s'.children p = some (b₁ ++ s.nextN :: x :: b₂) ∧ s'.children s.nextN = some [] ∧
      (∀ y ∈ s.nodes, y ≠ p → s'.children y = s.children y) ∧
      is = u ++ w ∧ s'.itemsOf s.nextN = some u ∧ s'.itemsOf x = some w ∧
      (∀ i ∈ u, lt (s'.val i) = true) ∧ (∀ i ∈ w, lt (s'.val i) = false) ∧ (is.map s'.val).Perm (is.map s.val) ∧
      (∀ i, i ∉ is → s'.val i = s.val i) ∧ s'.items = s.items ∧ (s'.node s.nextN).data = d ∧
      ∀ y ∈ s.nodes, s.children y = some [] → y ≠ x → s'.itemsOf y = s.itemsOf y := by
  obtain ⟨A, hA⟩ := h.rep
  rw [hA.children hx, Option.some.injEq] at hxk
  rw [hA.itemsOf hx hxk, Option.some.injEq] at hi
  subst hi
  obtain ⟨s', p, b₁, b₂, u, w, hp, hk, hu, e, R, i1, i2, i3, i4, i5, i6, i7, i8⟩ := hA.split hx hx0 hxk h2 garbage lt d
  have hnew : s.nextN ∉ s.nodes := fun h' => absurd (hA.fresh _ h') (lt_irrefl _)
  have hxn : ∀ y ∈ s.nodes, y ≠ s.nextN := fun y hy e => hnew (e ▸ hy)
  have hpx : x ≠ p := fun e => by
    have := (hA.kid p hp x (by rw [hk]; simp)).2.2
    omega
  have mn : s.nextN ∈ s'.nodes := (i2 _).2 (.inl rfl)
  have mx : ∀ y ∈ s.nodes, y ∈ s'.nodes := fun y hy => (i2 y).2 (.inr hy)
  have kn : ((A.addKid p b₁ (x :: b₂) s.nextN).cut s.nextN x u w).kids s.nextN = [] := by
    simp [Abs.addKid, Abs.cut, (hxn p hp).symm]
  have ky : ∀ y ∈ s.nodes, y ≠ p → ((A.addKid p b₁ (x :: b₂) s.nextN).cut s.nextN x u w).kids y = A.kids y := fun y hy hyp => by
    simp [Abs.addKid, Abs.cut, hyp, hxn y hy]
  refine ⟨s', p, b₁, b₂, u, w, e, .split h hx e, hnew, hp, by rw [hA.children hp, hk], ?_, ?_, fun y hy hyp => ?_, hu, ?_, ?_, i5, i6, i7, i8,
    i1, i4, fun y hy hyk hyx => ?_⟩
  · rw [R.children (mx p hp)]
    simp [Abs.addKid, Abs.cut]
  · rw [R.children mn, kn]
  · rw [R.children (mx y hy), ky y hy hyp, hA.children hy]
  · rw [R.itemsOf mn kn]
    simp [Abs.cut, Function.update_of_ne (hxn x hx).symm]
  · rw [R.itemsOf (mx x hx) (by rw [ky x hx hpx, hxk])]
    simp [Abs.cut]
  · rw [hA.children hy, Option.some.injEq] at hyk
    have hyp : y ≠ p := fun e => by
      rw [e, hk] at hyk
      simp at hyk
    rw [R.itemsOf (mx y hy) (by rw [ky y hy hyp, hyk]), hA.itemsOf hy hyk]
    simp [Abs.cut, Abs.addKid, Function.update_of_ne hyx, hxn y hy, hyp]

/-- Searching the whole tree for the leaf of an item finds it. -/
theorem C67_find_parent {s : St D I} (h : Reach s) {i x : ℕ} (hx : x ∈ s.nodes) (hxk : s.children x = some []) {is : List ℕ}
    (hi : s.itemsOf x = some is) (hm : i ∈ is) : s.findParent 0 i = some (some x) := by
  obtain ⟨A, hA⟩ := h.rep
  rw [hA.children hx, Option.some.injEq] at hxk
  rw [hA.itemsOf hx hxk, Option.some.injEq] at hi
  subst hi
  have hold : ∀ y ∈ s.nodes, s.holds i y = true ↔ y = x := by
    intro y hy
    rw [St.holds]
    simp only [Bool.and_eq_true, decide_eq_true_eq, List.contains_eq_mem]
    constructor
    · rintro ⟨⟨h1, h2⟩, h3⟩
      have hyk := (hA.nkids_zero hy).1 h1
      rw [hA.itemsOf hy hyk, Option.getD_some] at h3
      exact hA.disj y hy x hx i h3 hm
    · rintro rfl
      refine ⟨⟨(hA.nkids_zero hy).2 hxk, ?_⟩, ?_⟩
      · rw [hA.nitems y hy hxk]
        exact_mod_cast List.length_pos_of_mem hm
      · rw [hA.itemsOf hy hxk]
        exact hm
  have hsucc : s.nodeSuccessor 0 = some none := by
    rw [St.nodeSuccessor, hA.parent0, St.succLoop]
  have hf : s.nodes.find? (s.holds i) = some x := by
    rcases hf : s.nodes.find? (s.holds i) with _ | y
    · rw [List.find?_eq_none] at hf
      exact absurd ((hold x hx).2 rfl) (hf x hx)
    · have h1 := List.find?_some hf
      rw [(hold y (List.mem_of_find?_eq_some hf)).1 h1]
  have hs := scan_block (l := []) (b := s.nodes) (r := []) (by simpa using hA.nodup) (s.holds i) (f := s.nodes.length + 1) (by omega)
  simp only [List.nil_append, List.append_nil, List.head?_nil, hA.root, hf] at hs
  rw [St.findParent, hsucc]
  simp only [Option.bind_eq_bind, Option.bind_some, hs]

end Geomc.Tree
