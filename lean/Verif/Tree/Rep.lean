import Mathlib.Algebra.Order.BigOperators.Group.List
import Mathlib.Logic.Relation
import Verif.Tree.Lists

/-!
# Trees of nodes and items, and what it is for the two lists to represent one
-/

namespace Geomc.Tree

variable {D I : Type}

/-- A tree: the children of each node and the items of each leaf, in order. -/
structure Abs where
  kids : ℕ → List ℕ
  own : ℕ → List ℕ

/-- `b` is the parent of `a`. -/
def Up (s : St D I) (a b : ℕ) : Prop := (s.node a).parent = some b

/-- The lists and links represent the tree: the children of each node are adjacent in the list of nodes, the items of each leaf are
adjacent in the list of items, and the counts are right.  Nothing is said of the first and last items of inner nodes, but that the
first is the first of a leaf below, and the last the last of one. -/
structure Rep (s : St D I) (A : Abs) : Prop where
  nodup : s.nodes.Nodup
  root : s.nodes.head? = some 0
  fresh : ∀ x ∈ s.nodes, x < s.nextN
  kid : ∀ x ∈ s.nodes, ∀ c ∈ A.kids x, c ∈ s.nodes ∧ (s.node c).parent = some x ∧ x < c
  parent : ∀ x ∈ s.nodes, x ≠ 0 → ∃ p ∈ s.nodes, (s.node x).parent = some p ∧ x ∈ A.kids p
  parent0 : (s.node 0).parent = none
  block : ∀ x ∈ s.nodes, ∃ l r, s.nodes = l ++ A.kids x ++ r
  cfirst : ∀ x ∈ s.nodes, (s.node x).cfirst = (A.kids x).head?
  clast : ∀ x ∈ s.nodes, (s.node x).clast = (A.kids x).getLast?
  nkids : ∀ x ∈ s.nodes, (s.node x).nkids = (A.kids x).length
  front : ∃ l r, s.nodes = l ++ (0 :: A.kids 0) ++ r
  inodup : s.items.Nodup
  ifresh : ∀ i ∈ s.items, i < s.nextI
  inner : ∀ x ∈ s.nodes, A.kids x ≠ [] → A.own x = []
  iblock : ∀ x ∈ s.nodes, ∃ l r, s.items = l ++ A.own x ++ r
  cover : ∀ i ∈ s.items, ∃ x ∈ s.nodes, i ∈ A.own x
  disj : ∀ x ∈ s.nodes, ∀ y ∈ s.nodes, ∀ i, i ∈ A.own x → i ∈ A.own y → x = y
  ifirst : ∀ x ∈ s.nodes, A.kids x = [] → (s.node x).ifirst = (A.own x).head?
  ilast : ∀ x ∈ s.nodes, A.kids x = [] → (s.node x).ilast = (A.own x).getLast?
  nitems : ∀ x ∈ s.nodes, A.kids x = [] → (s.node x).nitems = (A.own x).length
  sum : ∀ x ∈ s.nodes, A.kids x ≠ [] → (s.node x).nitems = ((A.kids x).map fun c => (s.node c).nitems).sum
  bound : ∀ x ∈ s.nodes, A.kids x ≠ [] → (s.node x).ifirst = none ∨
    ∃ y ∈ s.nodes, Relation.TransGen (Up s) y x ∧ A.own y ≠ [] ∧ (s.node x).ifirst = (A.own y).head?
  boundL : ∀ x ∈ s.nodes, A.kids x ≠ [] → (s.node x).ilast = none ∨
    ∃ y ∈ s.nodes, Relation.TransGen (Up s) y x ∧ A.own y ≠ [] ∧ (s.node x).ilast = (A.own y).getLast?

namespace Rep

variable {s : St D I} {A : Abs}

theorem zero_mem (h : Rep s A) : 0 ∈ s.nodes := List.mem_of_mem_head? h.root

theorem kids_nodup (h : Rep s A) {x : ℕ} (hx : x ∈ s.nodes) : (A.kids x).Nodup := by
  obtain ⟨l, r, e⟩ := h.block x hx
  have := h.nodup
  rw [e, List.append_assoc, List.nodup_append] at this
  exact (List.nodup_append.1 this.2.1).1

theorem kids_disj (h : Rep s A) {x y c : ℕ} (hx : x ∈ s.nodes) (hy : y ∈ s.nodes) (hcx : c ∈ A.kids x) (hcy : c ∈ A.kids y) : x = y := by
  have h1 := (h.kid x hx c hcx).2.1
  have h2 := (h.kid y hy c hcy).2.1
  rw [h1] at h2
  exact Option.some.inj h2

theorem parent_lt (h : Rep s A) {x p : ℕ} (hx : x ∈ s.nodes) (hp : (s.node x).parent = some p) : p < x ∧ p ∈ s.nodes ∧ x ∈ A.kids p := by
  by_cases h0 : x = 0
  · subst h0
    rw [h.parent0] at hp
    cases hp
  · obtain ⟨q, hq, e, hk⟩ := h.parent x hx h0
    rw [hp] at e
    cases e
    exact ⟨(h.kid p hq x hk).2.2, hq, hk⟩

/-- If the root has no children it is the only node. -/
theorem kids_root (h : Rep s A) {x : ℕ} (hx : x ∈ s.nodes) (hx0 : x ≠ 0) : A.kids 0 ≠ [] := by
  induction x using Nat.strong_induction_on with
  | _ x ih =>
    obtain ⟨p, hp, h1, h2⟩ := h.parent x hx hx0
    by_cases hp0 : p = 0
    · intro e
      rw [hp0, e] at h2
      cases h2
    · exact ih p (h.parent_lt hx h1).1 hp hp0

theorem nkids_pos (h : Rep s A) {x : ℕ} (hx : x ∈ s.nodes) : (s.node x).nkids > 0 ↔ A.kids x ≠ [] := by
  rw [h.nkids x hx]
  constructor
  · intro h' e
    rw [e] at h'
    simp at h'
  · intro h'
    have := List.length_pos_of_ne_nil h'
    exact_mod_cast this

theorem nkids_zero (h : Rep s A) {x : ℕ} (hx : x ∈ s.nodes) : (s.node x).nkids = 0 ↔ A.kids x = [] := by
  rw [h.nkids x hx, Nat.cast_eq_zero, List.length_eq_zero_iff]

/-- The end of a node's children is what follows them. -/
theorem endOf (h : Rep s A) {x : ℕ} (hx : x ∈ s.nodes) (hk : A.kids x ≠ []) {l r : List ℕ} (e : s.nodes = l ++ A.kids x ++ r) :
    s.endOf x = some r.head? ∧ (s.node x).clast.map (next s.nodes) = some r.head? := by
  have h2 : (s.node x).clast.map (next s.nodes) = some r.head? := by
    rw [h.clast x hx]
    rcases hl : (A.kids x).getLast? with _ | z
    · rw [List.getLast?_eq_none_iff] at hl
      exact absurd hl hk
    · rw [Option.map_some, e, next_last (by rw [← e]; exact h.nodup) hl]
  refine ⟨?_, h2⟩
  rw [St.endOf, if_pos ((h.nkids_pos hx).2 hk), h2]

theorem endOf_nil (h : Rep s A) {x : ℕ} (hx : x ∈ s.nodes) (hk : A.kids x = []) : s.endOf x = some none := by
  rw [St.endOf, if_neg (fun h' => (h.nkids_pos hx).1 h' hk), h.clast x hx, hk]
  rfl

/-- **Children**: the loop over the children of a node visits them. -/
theorem children (h : Rep s A) {x : ℕ} (hx : x ∈ s.nodes) : s.children x = some (A.kids x) := by
  rw [St.children]
  by_cases hk : A.kids x = []
  · rw [h.endOf_nil hx hk, h.cfirst x hx, hk]
    simp [walk_succ]
  · obtain ⟨l, r, e⟩ := h.block x hx
    rw [(h.endOf hx hk e).1, h.cfirst x hx]
    simp only [Option.bind_eq_bind, Option.bind_some]
    have := walk_block (l := l) (b := A.kids x) (r := r) (by rw [← e]; exact h.nodup) (f := s.nodes.length + 1) (by
      rw [e]
      simp only [List.length_append]
      omega)
    rw [← e] at this
    rwa [List.head?_append_of_ne_nil _ hk] at this

/-- **Items**: the loop over the items of a leaf visits them. -/
theorem itemsOf (h : Rep s A) {x : ℕ} (hx : x ∈ s.nodes) (hk : A.kids x = []) : s.itemsOf x = some (A.own x) := by
  rw [St.itemsOf, St.itemsEnd, h.nitems x hx hk, h.ilast x hx hk, h.ifirst x hx hk]
  by_cases ho : A.own x = []
  · rw [ho]
    simp [walk_succ]
  · obtain ⟨l, r, e⟩ := h.iblock x hx
    have hp := List.length_pos_of_ne_nil ho
    rw [if_pos (by exact_mod_cast hp)]
    rcases hl : (A.own x).getLast? with _ | z
    · rw [List.getLast?_eq_none_iff] at hl
      exact absurd hl ho
    · have hn : next s.items z = r.head? := by
        rw [e]
        exact next_last (by rw [← e]; exact h.inodup) hl
      simp only [Option.map_some, Option.bind_eq_bind, Option.bind_some, hn]
      have := walk_block (l := l) (b := A.own x) (r := r) (by rw [← e]; exact h.inodup) (f := s.items.length + 1) (by
        rw [e]
        simp only [List.length_append]
        omega)
      rw [← e] at this
      rwa [List.head?_append_of_ne_nil _ ho] at this

theorem own_nodup (h : Rep s A) {x : ℕ} (hx : x ∈ s.nodes) : (A.own x).Nodup := by
  obtain ⟨l, r, e⟩ := h.iblock x hx
  have := h.inodup
  rw [e, List.append_assoc, List.nodup_append] at this
  exact (List.nodup_append.1 this.2.1).1

theorem own_mem (h : Rep s A) {x i : ℕ} (hx : x ∈ s.nodes) (hi : i ∈ A.own x) : i ∈ s.items := by
  obtain ⟨l, r, e⟩ := h.iblock x hx
  rw [e]
  simp [hi]

/-- Counts are not negative. -/
theorem nitems_nonneg (h : Rep s A) (x : ℕ) (hx : x ∈ s.nodes) : 0 ≤ (s.node x).nitems := by
  have key : ∀ n x, x ∈ s.nodes → s.nextN - x ≤ n → 0 ≤ (s.node x).nitems := by
    intro n
    induction n with
    | zero =>
      intro x hx hn
      have := h.fresh x hx
      omega
    | succ n ih =>
      intro x hx hn
      by_cases hk : A.kids x = []
      · rw [h.nitems x hx hk]
        exact Int.natCast_nonneg _
      · rw [h.sum x hx hk]
        refine List.sum_nonneg fun v hv => ?_
        rw [List.mem_map] at hv
        obtain ⟨c, hc, rfl⟩ := hv
        obtain ⟨h1, -, h3⟩ := h.kid x hx c hc
        exact ih c h1 (by omega)
  exact key _ x hx le_rfl

/-- Where `node_successor` points: the end, or the first of the children of a node. -/
theorem succLoop (h : Rep s A) (f : ℕ) (child : ℕ) (a : Option ℕ) (ha : ∀ q, a = some q → q < f ∧ q ∈ s.nodes ∧ child ∈ A.kids q) :
    ∃ r, s.succLoop f child a = some r ∧ (r = none ∨ ∃ z ∈ s.nodes, z ≠ 0 ∧ A.kids z ≠ [] ∧ r = (A.kids z).head?) := by
  induction f generalizing child a with
  | zero =>
    rcases a with _ | q
    · exact ⟨none, by rw [St.succLoop], .inl rfl⟩
    · exact absurd (ha q rfl).1 (by omega)
  | succ f ih =>
    rcases a with _ | q
    · exact ⟨none, by rw [St.succLoop], .inl rfl⟩
    · obtain ⟨hqf, hq, hc⟩ := ha q rfl
      have hk : A.kids q ≠ [] := fun e => by rw [e] at hc; cases hc
      obtain ⟨l, r, e⟩ := h.block q hq
      obtain ⟨b₁, b₂, eb⟩ := List.append_of_mem hc
      have hs : scan s.nodes (fun c => (s.node c).nkids > 0) (s.nodes.length + 1) (some child) r.head? =
          some ((child :: b₂).find? fun c => (s.node c).nkids > 0) := by
        rw [e, eb]
        refine scan_from (by rw [← eb, ← e]; exact h.nodup) _ ?_
        rw [← eb, ← e]
        exact Nat.lt_succ_self _
      rw [St.succLoop, (h.endOf hq hk e).1]
      simp only [Option.bind_eq_bind, Option.bind_some, hs]
      rcases hf : (child :: b₂).find? (fun c => decide ((s.node c).nkids > 0)) with _ | z
      · simp only [Option.bind_none]
        refine ih q _ fun p hp => ?_
        obtain ⟨h1, h2, h3⟩ := h.parent_lt hq hp
        exact ⟨by omega, h2, h3⟩
      · have hz : z ∈ A.kids q := by
          rw [eb]
          exact List.mem_append_right _ (List.mem_of_find?_eq_some hf)
        have hzn := (h.kid q hq z hz).1
        have hzk : A.kids z ≠ [] := (h.nkids_pos hzn).1 (by simpa using List.find?_some hf)
        simp only [Option.bind_some, h.cfirst z hzn]
        rcases hh : (A.kids z).head? with _ | y
        · rw [List.head?_eq_none_iff] at hh
          exact absurd hh hzk
        · refine ⟨some y, rfl, .inr ⟨z, hzn, fun e0 => ?_, hzk, hh.symm⟩⟩
          have := (h.kid q hq z hz).2.2
          omega

theorem nodeSuccessor (h : Rep s A) {x : ℕ} (hx : x ∈ s.nodes) :
    ∃ r, s.nodeSuccessor x = some r ∧ (r = none ∨ ∃ z ∈ s.nodes, z ≠ 0 ∧ A.kids z ≠ [] ∧ r = (A.kids z).head?) := by
  refine h.succLoop _ x _ fun p hp => ?_
  obtain ⟨h1, h2, h3⟩ := h.parent_lt hx hp
  exact ⟨h.fresh p h2, h2, h3⟩

/-- Where `item_successor` points: the end, or the first of the items of a leaf. -/
theorem itemSuccLoop (h : Rep s A) (f : ℕ) (child : ℕ) (a : Option ℕ) (ha : ∀ q, a = some q → q < f ∧ q ∈ s.nodes ∧ child ∈ A.kids q) :
    ∃ r, s.itemSuccLoop f child a = some r ∧ (r = none ∨ ∃ z ∈ s.nodes, A.own z ≠ [] ∧ r = (A.own z).head?) := by
  induction f generalizing child a with
  | zero =>
    rcases a with _ | q
    · exact ⟨none, by rw [St.itemSuccLoop], .inl rfl⟩
    · exact absurd (ha q rfl).1 (by omega)
  | succ f ih =>
    rcases a with _ | q
    · exact ⟨none, by rw [St.itemSuccLoop], .inl rfl⟩
    · obtain ⟨hqf, hq, hc⟩ := ha q rfl
      have hk : A.kids q ≠ [] := fun e => by rw [e] at hc; cases hc
      obtain ⟨l, r, e⟩ := h.block q hq
      obtain ⟨b₁, b₂, eb⟩ := List.append_of_mem hc
      have hs : scan s.nodes (fun c => (s.node c).nitems > 0) (s.nodes.length + 1) (some child) r.head? =
          some ((child :: b₂).find? fun c => (s.node c).nitems > 0) := by
        rw [e, eb]
        refine scan_from (by rw [← eb, ← e]; exact h.nodup) _ ?_
        rw [← eb, ← e]
        exact Nat.lt_succ_self _
      rw [St.itemSuccLoop, if_pos (fun e => hk ((h.nkids_zero hq).1 e)), (h.endOf hq hk e).2]
      simp only [Option.bind_eq_bind, Option.bind_some, hs]
      rcases hf : (child :: b₂).find? (fun c => decide ((s.node c).nitems > 0)) with _ | z
      · refine ih q _ fun p hp => ?_
        obtain ⟨h1, h2, h3⟩ := h.parent_lt hq hp
        exact ⟨by omega, h2, h3⟩
      · have hz : z ∈ A.kids q := by
          rw [eb]
          exact List.mem_append_right _ (List.mem_of_find?_eq_some hf)
        have hzn := (h.kid q hq z hz).1
        have hzp : (s.node z).nitems > 0 := by simpa using List.find?_some hf
        refine ⟨_, rfl, ?_⟩
        by_cases hzk : A.kids z = []
        · refine .inr ⟨z, hzn, fun e => ?_, h.ifirst z hzn hzk⟩
          rw [h.nitems z hzn hzk, e] at hzp
          simp at hzp
        · rcases h.bound z hzn hzk with hb | ⟨y, hy, -, ho, e⟩
          · exact .inl hb
          · exact .inr ⟨y, hy, ho, e⟩

theorem itemSuccessor (h : Rep s A) {x : ℕ} (hx : x ∈ s.nodes) :
    ∃ r, s.itemSuccessor x = some r ∧ (r = none ∨ ∃ z ∈ s.nodes, A.own z ≠ [] ∧ r = (A.own z).head?) := by
  refine h.itemSuccLoop _ x _ fun p hp => ?_
  obtain ⟨h1, h2, h3⟩ := h.parent_lt hx hp
  exact ⟨h.fresh p h2, h2, h3⟩

end Rep

end Geomc.Tree
