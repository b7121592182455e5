import Verif.Tree.MoveModel
import Verif.Tree.Whole

/-!
# Moved trees: C120
-/

namespace Geomc.Tree

variable {D I : Type}

theorem It.new_inj {a b : Option ℕ} (h : It.new a = It.new b) : a = b := by
  rcases a with _ | a <;> rcases b with _ | b <;> simp_all [It.new]

theorem mwalk_eq (l : List ℕ) (f : ℕ) (cur stop : Option ℕ) : mwalk l f (.new cur) (.new stop) = walk l f cur stop := by
  induction f generalizing cur with
  | zero => rw [mwalk, walk]
  | succ f ih =>
    rw [walk_succ]
    by_cases h : cur = stop
    · rw [if_pos h, h]
      rcases stop with _ | z <;> simp [It.new, mwalk]
    · rw [if_neg h]
      have h' := fun e => h (It.new_inj e)
      rcases cur with _ | x
      · rw [show It.new none = It.fin from rfl] at h' ⊢
        rw [mwalk, if_neg h']
        simp
      · rw [show It.new (some x) = It.at x from rfl] at h' ⊢
        rw [mwalk, if_neg h', ih]

theorem mscan_eq (l : List ℕ) (p : ℕ → Bool) (f : ℕ) (cur stop : Option ℕ) : mscan l p f (.new cur) (.new stop) = scan l p f cur stop := by
  induction f generalizing cur with
  | zero => rw [mscan, scan]
  | succ f ih =>
    rw [scan_succ]
    by_cases h : cur = stop
    · rw [if_pos h, h]
      rcases stop with _ | z <;> simp [It.new, mscan]
    · rw [if_neg h]
      have h' := fun e => h (It.new_inj e)
      rcases cur with _ | x
      · rw [show It.new none = It.fin from rfl] at h' ⊢
        rw [mscan, if_neg h']
        simp
      · rw [show It.new (some x) = It.at x from rfl] at h' ⊢
        rw [mscan, if_neg h', ih]

namespace Rep

variable {s : St D I} {A : Abs}

theorem moved_end (h : Rep s A) {x : ℕ} (hx : x ∈ s.nodes) (hk : A.kids x ≠ []) {l r : List ℕ} (e : s.nodes = l ++ A.kids x ++ r) :
    s.moved.endOf x = some (.new r.head?) ∧ (s.moved.node x).clast.succ s.moved.nodes = some (.new r.head?) := by
  have h2 : (s.moved.node x).clast.succ s.moved.nodes = some (.new r.head?) := by
    have := (h.endOf hx hk e).2
    show (It.old (s.node x).clast).succ s.nodes = _
    rcases hc : (s.node x).clast with _ | z
    · rw [hc] at this
      cases this
    · rw [hc, Option.map_some, Option.some.injEq] at this
      simp only [It.old, It.succ, this]
  refine ⟨?_, h2⟩
  have h3 : (s.moved.node x).nkids > 0 := (h.nkids_pos hx).2 hk
  rw [MSt.endOf, if_pos h3, h2]

theorem moved_children (h : Rep s A) {x : ℕ} (hx : x ∈ s.nodes) : s.moved.children x = some (A.kids x) := by
  by_cases hk : A.kids x = []
  · have h1 : ¬(s.moved.node x).nkids > 0 := fun h' => (h.nkids_pos hx).1 h' hk
    have h2 : (s.moved.node x).clast = .stale := by
      show It.old (s.node x).clast = _
      rw [h.clast x hx, hk]
      rfl
    have h3 : (s.moved.node x).cfirst = .stale := by
      show It.old (s.node x).cfirst = _
      rw [h.cfirst x hx, hk]
      rfl
    rw [MSt.children, MSt.endOf, if_neg h1, h2, h3, hk]
    simp [mwalk]
  · obtain ⟨l, r, e⟩ := h.block x hx
    have h3 : (s.moved.node x).cfirst = .new (s.node x).cfirst := by
      show It.old (s.node x).cfirst = _
      rw [h.cfirst x hx]
      rcases hh : A.kids x with _ | ⟨y, t⟩
      · exact absurd hh hk
      · rfl
    have h4 := h.children hx
    rw [St.children, (h.endOf hx hk e).1] at h4
    rw [MSt.children, (h.moved_end hx hk e).1, h3]
    simp only [Option.bind_eq_bind, Option.bind_some] at h4 ⊢
    rw [mwalk_eq]
    exact h4

theorem moved_items (h : Rep s A) {x : ℕ} (hx : x ∈ s.nodes) (hk : A.kids x = []) : s.moved.itemsOf x = some (A.own x) := by
  have h1 := h.nitems x hx hk
  have h2 := h.ifirst x hx hk
  have h3 := h.ilast x hx hk
  have h4 := h.itemsOf hx hk
  rw [MSt.itemsOf, MSt.itemsEnd]
  show (if (s.node x).nitems > 0 then (It.old (s.node x).ilast).succ s.items else some (It.old (s.node x).ilast)).bind
    (fun e => mwalk s.items (s.items.length + 1) (It.old (s.node x).ifirst) e) = _
  rw [St.itemsOf, St.itemsEnd] at h4
  by_cases ho : A.own x = []
  · rw [ho] at h1 h2 h3 ⊢
    rw [h1, h2, h3]
    simp [mwalk, It.old]
  · have hp : (s.node x).nitems > 0 := by
      have := List.length_pos_of_ne_nil ho
      omega
    rw [if_pos hp] at h4 ⊢
    rcases hl : (s.node x).ilast with _ | z
    · rw [hl, eq_comm, List.getLast?_eq_none_iff] at h3
      exact absurd h3 ho
    · rcases hf : (s.node x).ifirst with _ | y
      · rw [hf, eq_comm, List.head?_eq_none_iff] at h2
        exact absurd h2 ho
      · rw [hl, hf] at h4
        simp only [Option.map_some, Option.bind_eq_bind, Option.bind_some] at h4
        simp only [It.old, It.succ, Option.bind_some]
        rw [← h4, ← mwalk_eq]
        rfl

/-- `node_successor` in a moved tree, where it does not go past the root. -/
theorem moved_succLoop (h : Rep s A) (f : ℕ) (child : ℕ) (a : Option ℕ)
    (ha : ∀ q, a = some q → q < f ∧ q ∈ s.nodes ∧ child ∈ A.kids q) :
    s.moved.succLoop f child (.old a) = (s.succLoop f child a).bind fun r => r.map .at := by
  induction f generalizing child a with
  | zero =>
    rcases a with _ | q
    · rw [St.succLoop]
      simp [It.old, MSt.succLoop]
    · exact absurd (ha q rfl).1 (by omega)
  | succ f ih =>
    rcases a with _ | q
    · rw [St.succLoop]
      simp [It.old, MSt.succLoop]
    · obtain ⟨hqf, hq, hc⟩ := ha q rfl
      have hk : A.kids q ≠ [] := fun e => by rw [e] at hc; cases hc
      obtain ⟨l, r, e⟩ := h.block q hq
      obtain ⟨b₁, b₂, eb⟩ := List.append_of_mem hc
      have hs : scan s.nodes (fun c => (s.node c).nkids > 0) (s.nodes.length + 1) (some child) r.head? =
          some ((child :: b₂).find? fun c => (s.node c).nkids > 0) := by
        rw [e, eb]
        refine scan_from (by rw [← eb, ← e]; exact h.nodup) _ ?_
        rw [← eb, ← e]
        exact Nat.lt_succ_self _
      have hm : mscan s.moved.nodes (fun c => (s.moved.node c).nkids > 0) (s.moved.nodes.length + 1) (.at child) (.new r.head?) =
          some ((child :: b₂).find? fun c => (s.node c).nkids > 0) := by
        rw [← hs, ← mscan_eq]
        rfl
      rw [St.succLoop, (h.endOf hq hk e).1, show It.old (some q) = .at q from rfl, MSt.succLoop, (h.moved_end hq hk e).1]
      simp only [Option.bind_eq_bind, Option.bind_some, hs, hm]
      rcases hf : (child :: b₂).find? (fun c => decide ((s.node c).nkids > 0)) with _ | z
      · simp only [Option.bind_none, Option.map_none, Option.getD_none, ne_eq, not_true_eq_false, if_false]
        refine ih q _ fun p hp => ?_
        obtain ⟨h1, h2, h3⟩ := h.parent_lt hq hp
        exact ⟨by omega, h2, h3⟩
      · have hz : z ∈ A.kids q := by
          rw [eb]
          exact List.mem_append_right _ (List.mem_of_find?_eq_some hf)
        have hzn := (h.kid q hq z hz).1
        have hzk : A.kids z ≠ [] := (h.nkids_pos hzn).1 (by simpa using List.find?_some hf)
        have hcf : (s.moved.node z).cfirst = It.old (s.node z).cfirst := rfl
        simp only [Option.bind_some, Option.map_some, Option.getD_some, hcf, h.cfirst z hzn]
        rcases hh : (A.kids z).head? with _ | y
        · rw [List.head?_eq_none_iff] at hh
          exact absurd hh hzk
        · simp [It.old]

theorem moved_successor (h : Rep s A) {x : ℕ} (hx : x ∈ s.nodes) :
    s.moved.nodeSuccessor x = (s.nodeSuccessor x).bind fun r => r.map .at := by
  refine h.moved_succLoop _ x _ fun p hp => ?_
  obtain ⟨h1, h2, h3⟩ := h.parent_lt hx hp
  exact ⟨h.fresh p h2, h2, h3⟩

/-- `update_boundary_items` goes past the root. -/
theorem moved_upd (h : Rep s A) (oldF oldL newF newL : It) (delta : ℤ) (f : ℕ) (pc : It) {x : ℕ} (hx : x ∈ s.nodes) (m : ℕ → MNode D)
    (hm : ∀ y ∈ s.nodes, (m y).parent = .old (s.node y).parent) : mupdLoop oldF oldL newF newL delta f pc (.at x) m = none := by
  induction f generalizing x pc m with
  | zero => rw [mupdLoop]
  | succ f ih =>
    rw [mupdLoop]
    simp only [hm x hx]
    rcases hp : (s.node x).parent with _ | q
    · simp [It.old, mupdLoop]
    · refine ih _ (h.parent_lt hx hp).2.1 _ fun y hy => ?_
      by_cases hyx : y = x
      · subst hyx
        rw [Function.update_self]
        by_cases h0 : (m y).nitems + delta = 0
        · rw [if_pos h0]
          exact congrArg It.old hp.symm
        · rw [if_neg h0]
          exact congrArg It.old hp.symm
      · rw [Function.update_of_ne hyx]
        exact hm y hy

end Rep

/-! ## C120 -/

/-- A moved tree has the nodes, the children, the items, the data and the counts of the original. -/
theorem C120_reads {s : St D I} (h : Reach s) : s.moved.nodes = s.nodes ∧ s.moved.items = s.items ∧ s.moved.val = s.val ∧
    ∀ x ∈ s.nodes, s.moved.children x = s.children x ∧ (s.children x = some [] → s.moved.itemsOf x = s.itemsOf x) ∧
      (s.moved.node x).nitems = (s.node x).nitems ∧ (s.moved.node x).nkids = (s.node x).nkids ∧
      (s.moved.node x).data = (s.node x).data := by
  obtain ⟨A, hA⟩ := h.rep
  refine ⟨rfl, rfl, rfl, fun x hx => ⟨by rw [hA.moved_children hx, hA.children hx], fun hk => ?_, rfl, rfl, rfl⟩⟩
  rw [hA.children hx, Option.some.injEq] at hk
  rw [hA.moved_items hx hk, hA.itemsOf hx hk]

/-- To insert an item in a moved tree is undefined, in every leaf and at every place. -/
theorem C120_insert_item_refuted {s : St D I} (h : Reach s) {x : ℕ} (hx : x ∈ s.nodes) (hk : s.children x = some []) (before : It) (v : I) :
    s.moved.insertItem x before v = none := by
  obtain ⟨A, hA⟩ := h.rep
  rw [hA.children hx, Option.some.injEq] at hk
  have h1 : ¬(s.moved.node x).nkids > 0 := fun h' => (hA.nkids_pos hx).1 h' hk
  rw [MSt.insertItem, if_neg h1]
  simp only [hA.moved_upd _ _ _ _ _ _ _ hx s.moved.node fun _ _ => rfl, Option.bind_eq_bind, Option.bind_none, Option.bind_fun_none, ite_self]

/-- The place of the first child of a node of a moved tree is found exactly if it is not at the end of the nodes. -/
theorem C120_successor {s : St D I} (h : Reach s) {x : ℕ} (hx : x ∈ s.nodes) {r : Option ℕ} (hr : s.nodeSuccessor x = some r) :
    s.moved.nodeSuccessor x = r.map .at := by
  obtain ⟨A, hA⟩ := h.rep
  rw [hA.moved_successor hx, hr, Option.bind_some]

theorem insertChild_go (m : MSt D I) (garbage : It) (p : ℕ) (before : It) (d : D) {e : It} (he : m.endOf p = some e)
    (h0 : before ≠ .new m.nodes.head?) (hp : (∃ b, before = .at b ∧ (m.node b).parent = .at p) ∨ before = e) :
    m.insertChild garbage p before d = (m.childPlace p before).bind fun n => (minsert m.nodes n m.nextN).bind fun nodes =>
      some ({ m with
        nodes := nodes
        node := Function.update (Function.update m.node m.nextN (m.childNode p d)) p (m.childParent p before e)
        nextN := m.nextN + 1 }, .at m.nextN) := by
  rw [MSt.insertChild, he, Option.bind_some, if_neg h0, if_neg]
  rintro ⟨h1, h2⟩
  rcases hp with ⟨b, rfl, h3⟩ | h3
  · exact h1 h3
  · exact h2 h3

/-- So inserting the first child of a node is undefined if it would come last, as it does for a tree of one node. -/
theorem C120_insert_child_refuted {s : St D I} (h : Reach s) {x : ℕ} (hx : x ∈ s.nodes) (hk : s.children x = some [])
    (hs : s.nodeSuccessor x = some none) (garbage : It) (d : D) {e : It} (he : s.moved.endOf x = some e) :
    s.moved.insertChild garbage x e d = none := by
  obtain ⟨A, hA⟩ := h.rep
  rw [hA.children hx, Option.some.injEq] at hk
  have h1 : (s.moved.node x).nkids = 0 := (hA.nkids_zero hx).2 hk
  have h2 : (s.moved.node x).clast = .stale := by
    show It.old (s.node x).clast = _
    rw [hA.clast x hx, hk]
    rfl
  have he' : e = .stale := by
    rw [MSt.endOf, if_neg (by omega), Option.some.injEq, h2] at he
    exact he.symm
  have h3 : e ≠ It.new s.moved.nodes.head? := by
    show e ≠ It.new s.nodes.head?
    rw [hA.root, he']
    simp [It.new]
  rw [insertChild_go _ _ _ _ _ he h3 (.inr rfl), MSt.childPlace, if_pos h1, C120_successor h hx hs, Option.map_none, Option.bind_none]

theorem C120_single_refuted (d d' : D) (v : I) (garbage : It) :
    (empty d v : St D I).moved.insertChild garbage 0 .stale d' = none :=
  C120_insert_child_refuted (.empty d v) (by simp [empty]) (by simp [empty, St.children, St.endOf, walk])
    (by simp [empty, St.nodeSuccessor, St.succLoop]) garbage d' (by simp [empty, St.moved, MSt.endOf, It.old])

/-- A node that has children can be given another, at any place, and then has it. -/
theorem C120_insert_child {s : St D I} (h : Reach s) {p : ℕ} (hp : p ∈ s.nodes) {b₁ b₂ : List ℕ} (hk : s.children p = some (b₁ ++ b₂))
    (hne : b₁ ++ b₂ ≠ []) {before : It} (hb : (∃ c, b₂.head? = some c ∧ before = .at c) ∨ (b₂ = [] ∧ s.moved.endOf p = some before))
    (garbage : It) (d : D) : ∃ m, s.moved.insertChild garbage p before d = some (m, .at s.nextN) ∧
      m.children p = some (b₁ ++ s.nextN :: b₂) ∧ (m.node s.nextN).data = d ∧ (m.node s.nextN).parent = .at p ∧ m.children s.nextN = some [] := by
  obtain ⟨A, hA⟩ := h.rep
  rw [hA.children hp, Option.some.injEq] at hk
  have hkn : A.kids p ≠ [] := by rwa [hk]
  obtain ⟨l, r, e⟩ := hA.block p hp
  have he := (hA.moved_end hp hkn e).1
  have hnd := hA.nodup
  have hpos : (s.moved.node p).nkids > 0 := (hA.nkids_pos hp).2 hkn
  have hroot0 : ∀ c ∈ A.kids p, c ≠ 0 := fun c hc => by
    have := (hA.kid p hp c hc).2.2
    omega
  have hnew : s.nextN ∉ s.nodes := fun hm => absurd (hA.fresh _ hm) (by omega)
  have hpn : s.nextN ≠ p := fun e => hnew (e ▸ hp)
  have hb' : before = .new (b₂ ++ r).head? := by
    rcases hb with ⟨c, hc, rfl⟩ | ⟨h2, h3⟩
    · rcases b₂ with _ | ⟨a, t⟩
      · cases hc
      · rw [List.head?_cons] at hc
        cases hc
        rfl
    · rw [he, Option.some.injEq] at h3
      rw [← h3, h2, List.nil_append]
  have hnodes : s.moved.nodes = s.nodes := rfl
  have hins : minsert s.nodes before s.nextN = some (l ++ (b₁ ++ s.nextN :: b₂) ++ r) := by
    have h1 : insertBefore s.nodes (b₂ ++ r).head? s.nextN = l ++ (b₁ ++ s.nextN :: b₂) ++ r := by
      rw [e, hk]
      refine block_insert ?_ _
      rw [← hk, ← e]
      exact hnd
    rw [hb', ← h1]
    rcases (b₂ ++ r).head? with _ | z <;> rfl
  have h0 : before ≠ .new s.moved.nodes.head? := by
    rw [hnodes, hA.root, hb']
    intro h0
    have h1 := It.new_inj h0
    rcases b₂ with _ | ⟨c, t⟩
    · rw [List.nil_append] at h1
      rw [List.append_nil] at hk
      rcases r with _ | ⟨a, r⟩
      · cases h1
      · rw [List.head?_cons, Option.some.injEq] at h1
        subst h1
        rcases hl : l ++ A.kids p with _ | ⟨y, t⟩
        · exact hkn (List.append_eq_nil_iff.1 hl).2
        · have hr := hA.root
          rw [e, hl, List.cons_append, List.head?_cons, Option.some.injEq] at hr
          rw [e, hl, hr] at hnd
          simp at hnd
    · rw [List.cons_append, List.head?_cons, Option.some.injEq] at h1
      exact hroot0 c (by rw [hk]; simp) h1
  have hcond : (∃ b, before = .at b ∧ (s.moved.node b).parent = .at p) ∨ before = .new r.head? := by
    rcases b₂ with _ | ⟨c, t⟩
    · exact .inr (by rw [hb', List.nil_append])
    · refine .inl ⟨c, by rw [hb']; rfl, ?_⟩
      show It.old (s.node c).parent = _
      rw [(hA.kid p hp c (by rw [hk]; simp)).2.1]
      rfl
  have hplace : s.moved.childPlace p before = some before := by rw [MSt.childPlace, if_neg (by omega)]
  have hcn : s.moved.childNode p d = ⟨.at p, .fin, .fin, .fin, .fin, 0, 0, d⟩ := by
    simp only [MSt.childNode]
    rw [if_neg (by omega)]
  have hnd' : (l ++ (b₁ ++ b₂) ++ r).Nodup := by
    rw [← hk, ← e]
    exact hnd
  have hclast : (s.moved.childParent p before (.new r.head?)).clast = .old (b₁ ++ s.nextN :: b₂).getLast? := by
    rw [MSt.childParent]
    simp only
    rcases b₂ with _ | ⟨c, t⟩
    · rw [if_pos (by rw [hb', List.nil_append])]
      simp [It.old]
      rfl
    · rw [if_neg]
      · show It.old (s.node p).clast = _
        rw [hA.clast p hp, hk]
        simp [List.getLast?_append, List.getLast?_cons]
      · intro h1
        rw [hb'] at h1
        have h2 := It.new_inj h1
        rcases r with _ | ⟨a, r⟩
        · cases h2
        · rw [List.cons_append, List.head?_cons, List.head?_cons, Option.some.injEq] at h2
          rw [h2, List.nodup_append] at hnd'
          exact hnd'.2.2 a (by simp) a (by simp) rfl
  have hcfirst : (s.moved.childParent p before (.new r.head?)).cfirst = .old (b₁ ++ s.nextN :: b₂).head? := by
    rw [MSt.childParent]
    simp only
    have hc : (s.moved.node p).cfirst = .old (b₁ ++ b₂).head? := by
      show It.old (s.node p).cfirst = _
      rw [hA.cfirst p hp, hk]
    rw [hc]
    rcases b₁ with _ | ⟨a, t⟩
    · rw [List.nil_append] at hne ⊢
      rw [if_pos]
      · rfl
      · rw [hb', List.head?_append_of_ne_nil _ hne]
        rcases b₂ with _ | ⟨c, t⟩
        · exact absurd rfl hne
        · rfl
    · rw [if_neg]
      · rfl
      · intro h1
        rw [hb', List.cons_append, List.head?_cons] at h1
        have h2 : (b₂ ++ r).head? = some a := It.new_inj h1
        have h3 := List.mem_of_mem_head? h2
        rw [show l ++ (a :: t ++ b₂) ++ r = (l ++ a :: t) ++ (b₂ ++ r) by simp, List.nodup_append] at hnd'
        exact hnd'.2.2 a (by simp) a h3 rfl
  refine ⟨_, by rw [insertChild_go _ _ _ _ _ he h0 hcond, hplace, Option.bind_some, hnodes,
    show s.moved.nextN = s.nextN from rfl, hins, Option.bind_some, hcn], ?_, ?_, ?_, ?_⟩
  · rw [MSt.children, MSt.endOf]
    simp only [Function.update_self]
    rw [if_pos (by rw [MSt.childParent]; simp only; omega), hclast, hcfirst]
    rcases hl : (b₁ ++ s.nextN :: b₂).getLast? with _ | z
    · simp at hl
    · have hd' : (l ++ (b₁ ++ s.nextN :: b₂) ++ r).Nodup := by
        have h1 : insertBefore s.nodes (b₂ ++ r).head? s.nextN = l ++ (b₁ ++ s.nextN :: b₂) ++ r := by
          rw [e, hk]
          refine block_insert ?_ _
          rw [← hk, ← e]
          exact hnd
        rw [← h1]
        exact insertBefore_nodup hnd _ hnew
      simp only [It.old, It.succ, Option.bind_eq_bind, Option.bind_some]
      rw [next_last hd' hl]
      have hw := walk_block hd' (f := (l ++ (b₁ ++ s.nextN :: b₂) ++ r).length + 1) (by
        simp only [List.length_append]
        omega)
      rw [List.head?_append_of_ne_nil _ (by simp)] at hw
      rw [← hw, ← mwalk_eq]
      congr 1
      rcases hh : (b₁ ++ s.nextN :: b₂).head? with _ | y
      · simp at hh
      · rfl
  · simp [Function.update_of_ne hpn]
  · simp [Function.update_of_ne hpn]
  · simp [Function.update_of_ne hpn, MSt.children, MSt.endOf, mwalk]

/-! ## Examples -/

example : ∃ s : St ℕ ℕ, Reach s ∧ s.moved.children 0 = some [1, 2] ∧ s.moved.itemsOf 1 = some [0, 1] ∧ s.moved.itemsOf 2 = some [] ∧
    s.moved.insertItem 1 (.at 1) 5 = none ∧ s.moved.insertItem 2 .stale 5 = none ∧ s.moved.insertChild .stale 1 .stale 7 = none ∧
    s.insertItem 1 (some 1) 5 ≠ none ∧ (s.moved.insertChild .stale 0 (.at 2) 7).map (fun r => r.1.children 0) = some (some [1, 3, 2]) :=
  ⟨_, reach_made [.child 0 1, .child 0 2, .item 1 8, .item 1 9] (by decide +kernel), by decide +kernel⟩

end Geomc.Tree
