import Verif.Tree.Nodes

/-!
# Inserting items
-/

namespace Geomc.Tree

variable {D I : Type}

/-- The tree with an item inserted among those of the leaf `x`, between `c₁` and `c₂`. -/
def Abs.addItem (A : Abs) (x : ℕ) (c₁ c₂ : List ℕ) (new : ℕ) : Abs where
  kids := A.kids
  own := Function.update A.own x (c₁ ++ new :: c₂)

theorem updNode_same (oldF oldL newF newL : Option ℕ) (delta : ℤ) (pc : Option ℕ) (N : Node D) :
    let N' := updNode oldF oldL newF newL delta pc N
    N'.parent = N.parent ∧ N'.cfirst = N.cfirst ∧ N'.clast = N.clast ∧ N'.nkids = N.nkids ∧ N'.data = N.data ∧
      N'.nitems = N.nitems + delta := by
  by_cases h : N.nitems + delta = 0
  · simp [updNode, h]
  · simp [updNode, h]

theorem sum_map_bump {t : List ℕ} {f g : ℕ → ℤ} {c : ℕ} (hn : t.Nodup) (hc : c ∈ t) (k : ℤ) (h1 : g c = f c + k)
    (h2 : ∀ y ∈ t, y ≠ c → g y = f y) : (t.map g).sum = (t.map f).sum + k := by
  induction t with
  | nil => cases hc
  | cons a t ih =>
    rw [List.nodup_cons] at hn
    rw [List.map_cons, List.map_cons, List.sum_cons, List.sum_cons]
    by_cases ha : a = c
    · subst ha
      have : t.map g = t.map f := by
        refine List.map_congr_left fun y hy => h2 y (List.mem_cons_of_mem _ hy) fun e => hn.1 (e ▸ hy)
      rw [this, h1]
      omega
    · have := ih hn.2 (by
        rcases List.mem_cons.1 hc with h | h
        · exact absurd h.symm ha
        · exact h) (fun y hy => h2 y (List.mem_cons_of_mem _ hy))
      rw [this, h2 a (by simp) ha]
      omega

namespace Rep

variable {s : St D I} {A : Abs}

theorem chain_le (h : Rep s A) {a b : ℕ} (ha : a ∈ s.nodes) (hc : Relation.ReflTransGen (Up s) a b) : b ≤ a ∧ b ∈ s.nodes := by
  induction hc with
  | refl => exact ⟨le_rfl, ha⟩
  | tail _ hb ih =>
    obtain ⟨h1, h2, -⟩ := h.parent_lt ih.2 hb
    exact ⟨by omega, h2⟩

theorem chain_lt (h : Rep s A) {a b : ℕ} (ha : a ∈ s.nodes) (hc : Relation.TransGen (Up s) a b) : b < a ∧ b ∈ s.nodes := by
  obtain ⟨c, hac, hcb⟩ := Relation.TransGen.head'_iff.1 hc
  obtain ⟨h1, h2, -⟩ := h.parent_lt ha hac
  have := h.chain_le h2 hcb
  exact ⟨by omega, this.2⟩

/-- Of the children of a node, only one is on the way to a given node below. -/
theorem chain_unique (h : Rep s A) {x c c' y : ℕ} (hx : x ∈ s.nodes) (h1 : Relation.ReflTransGen (Up s) x c)
    (h2 : Relation.ReflTransGen (Up s) x c') (h3 : Up s c y) (h4 : Up s c' y) : c = c' := by
  have key : ∀ c c', c ∈ s.nodes → c' ∈ s.nodes → Up s c y → Up s c' y → Relation.ReflTransGen (Up s) c c' → c = c' := by
    intro c c' hc hc' h3 h4 h5
    rcases Relation.ReflTransGen.cases_head h5 with h6 | ⟨z, h6, h7⟩
    · exact h6
    · exfalso
      rw [Up] at h3 h6
      rw [h3] at h6
      cases h6
      have := h.chain_le (h.parent_lt hc h3).2.1 h7
      have := (h.parent_lt hc' h4).1
      omega
  have hc := (h.chain_le hx h1).2
  have hc' := (h.chain_le hx h2).2
  rcases Relation.ReflTransGen.total_of_right_unique (fun a b c (hb : Up s a b) (hc : Up s a c) => by
    rw [Up] at hb hc
    rw [hb] at hc
    exact Option.some.inj hc) h1 h2 with h5 | h5
  · exact key c c' hc hc' h3 h4 h5
  · exact (key c' c hc' hc h4 h3 h5).symm

/-- What `update_boundary_items` does: it revises a node and all above it. -/
theorem updLoop (h : Rep s A) (oldF oldL newF newL : Option ℕ) (delta : ℤ) (f : ℕ) (pc : Option ℕ) (x : ℕ) (m : ℕ → Node D)
    (hx : x ∈ s.nodes) (hf : x < f) (hm : ∀ y ≤ x, m y = s.node y) :
    ∃ m', updLoop oldF oldL newF newL delta f pc (some x) m = some m' ∧
      m' x = updNode oldF oldL newF newL delta pc (s.node x) ∧
      (∀ y, Relation.TransGen (Up s) x y → ∃ pc', m' y = updNode oldF oldL newF newL delta pc' (s.node y)) ∧
      ∀ y, y ≠ x → ¬ Relation.TransGen (Up s) x y → m' y = m y := by
  induction f generalizing pc x m with
  | zero => omega
  | succ f ih =>
    rw [Tree.updLoop, hm x le_rfl]
    rcases hp : (s.node x).parent with _ | p
    · refine ⟨_, by rw [Tree.updLoop], by simp, fun y hy => ?_, fun y hy _ => by simp [Function.update_of_ne hy]⟩
      obtain ⟨c, h1, -⟩ := Relation.TransGen.head'_iff.1 hy
      rw [Up, hp] at h1
      cases h1
    · obtain ⟨h1, h2, -⟩ := h.parent_lt hx hp
      obtain ⟨m', e, e1, e2, e3⟩ := ih (some x) p (Function.update m x (updNode oldF oldL newF newL delta pc (s.node x))) h2 (by omega)
        (fun y hy => by rw [Function.update_of_ne (by omega), hm y (by omega)])
      have hxp : ¬ Relation.TransGen (Up s) p x := fun hc => by
        have := (h.chain_lt h2 hc).1
        omega
      refine ⟨m', e, ?_, fun y hy => ?_, fun y hy hc => ?_⟩
      · rw [e3 x (by omega) hxp]
        simp
      · obtain ⟨c, h3, h4⟩ := Relation.TransGen.head'_iff.1 hy
        rw [Up, hp] at h3
        cases h3
        rcases Relation.reflTransGen_iff_eq_or_transGen.1 h4 with h5 | h5
        · exact ⟨some x, by rw [h5]; exact e1⟩
        · exact e2 y h5
      · rw [e3 y (fun e => hc (.single (e ▸ hp))) (fun h5 => hc (.head hp h5)), Function.update_of_ne hy]

set_option maxHeartbeats 800000 in
theorem insertItem (h : Rep s A) {x : ℕ} (hx : x ∈ s.nodes) (hxk : A.kids x = []) {c₁ c₂ : List ℕ} (hk : A.own x = c₁ ++ c₂)
    {before : Option ℕ} (hb : c₂ ≠ [] → before = c₂.head?) (hb' : c₂ = [] → A.own x ≠ [] → s.itemsEnd x = some before) (v : I) :
    ∃ s', s.insertItem x before v = some (s', some s.nextI) ∧ Rep s' (A.addItem x c₁ c₂ s.nextI) ∧
      s'.nodes = s.nodes ∧ (∀ y, (s'.node y).data = (s.node y).data ∧ (s'.node y).parent = (s.node y).parent) ∧
      s'.val = Function.update s.val s.nextI v ∧ (∀ i, i ∈ s'.items ↔ i = s.nextI ∨ i ∈ s.items) := by
  have hnew : s.nextI ∉ s.items := fun h' => absurd (h.ifresh _ h') (lt_irrefl _)
  obtain ⟨l, r, e⟩ := h.iblock x hx
  have hcount := h.nitems x hx hxk
  have hz : (s.node x).nitems = 0 ↔ A.own x = [] := by
    rw [hcount, Nat.cast_eq_zero, List.length_eq_zero_iff]
  have hbr : A.own x ≠ [] → before = (c₂ ++ r).head? := by
    intro h0
    by_cases h2 : c₂ = []
    · have h3 := hb' h2 h0
      rw [St.itemsEnd, if_pos (by rw [hcount]; exact_mod_cast List.length_pos_of_ne_nil h0), h.ilast x hx hxk] at h3
      rcases hl : (A.own x).getLast? with _ | z
      · rw [List.getLast?_eq_none_iff] at hl
        exact absurd hl h0
      · rw [hl] at h3
        rw [e] at h3
        rw [h2, List.nil_append]
        have h4 := next_last (l := l) (b := A.own x) (r := r) (by rw [← e]; exact h.inodup) hl
        simp only [Option.map_some, Option.some.injEq] at h3
        rw [← h3, h4]
    · rw [hb h2, List.head?_append_of_ne_nil _ h2]
  obtain ⟨pt, hpt, hins, hself, hblocks⟩ : ∃ pt, s.itemPlace x before = some pt ∧ (A.own x ≠ [] → pt = (c₂ ++ r).head?) ∧
      (∃ l' r', insertBefore s.items pt s.nextI = l' ++ (c₁ ++ s.nextI :: c₂) ++ r' ∧ (A.own x ≠ [] → l' = l)) ∧
      (∀ y ∈ s.nodes, y ≠ x → ∃ l' r', insertBefore s.items pt s.nextI = l' ++ A.own y ++ r') := by
    by_cases h0 : A.own x = []
    · obtain ⟨n, hn, hr⟩ := h.itemSuccessor hx
      refine ⟨n, by rw [St.itemPlace, if_pos (hz.2 h0), hn], fun h' => absurd h0 h', ?_, fun y hy _ => ?_⟩
      · rw [h0] at hk
        obtain ⟨h1, h2⟩ := List.append_eq_nil_iff.1 hk.symm
        obtain ⟨u, v, -, h4, -, -⟩ := insertBefore_split s.items n s.nextI
        exact ⟨u, v, by rw [h4, h1, h2]; simp, fun h' => absurd h0 h'⟩
      · obtain ⟨l', r', e'⟩ := h.iblock y hy
        rw [e']
        refine block_keep (fun i hi => ?_) _
        rcases hr with hr | ⟨z, hz, hzk, hr⟩
        · rw [hr]
          simp
        · intro h3
          rw [hr] at h3
          have hiz := List.mem_of_mem_head? h3
          have hyz : y = z := h.disj y hy z hz i (List.mem_of_mem_tail hi) hiz
          subst hyz
          have hnd := h.own_nodup hy
          rcases hc : A.own y with _ | ⟨c, t⟩
          · exact hzk hc
          · rw [hc] at hnd h3 hi
            rw [List.head?_cons, Option.some.injEq] at h3
            subst h3
            exact (List.nodup_cons.1 hnd).1 hi
    · refine ⟨before, by rw [St.itemPlace, if_neg (fun h' => h0 (hz.1 h'))], hbr, ?_, fun y hy hyx => ?_⟩
      · rw [hbr h0, e, hk]
        refine ⟨l, r, block_insert ?_ _, fun _ => rfl⟩
        rw [← hk, ← e]
        exact h.inodup
      · obtain ⟨l', r', e'⟩ := h.iblock y hy
        by_cases h2 : c₂ = []
        · have hi : insertBefore s.items before s.nextI = l ++ A.own x ++ s.nextI :: r := by
            rw [hbr h0, h2, List.nil_append]
            conv_lhs => rw [e]
            exact insertBefore_head (by rw [← e]; exact h.inodup) _
          rw [hi]
          rcases List.eq_nil_or_concat (A.own x) with h3 | ⟨t, z, h3⟩
          · exact absurd h3 h0
          · rw [List.concat_eq_append] at h3
            have hz : z ∈ A.own x := by rw [h3]; simp
            have := block_keep_after (l := l') (b := A.own y) (t := r') (u := l ++ t) (v := r) (x := z)
              (by rw [← e', e, h3]; simp) (fun h4 => hyx (h.disj y hy x hx z h4 hz)) s.nextI
            rw [h3]
            simpa using this
        · rw [e']
          refine block_keep (fun i hi => ?_) _
          rw [hb h2]
          intro h3
          have hix : i ∈ A.own x := by
            rw [hk]
            exact List.mem_append_right _ (List.mem_of_mem_head? h3)
          exact hyx (h.disj y hy x hx i (List.mem_of_mem_tail hi) hix)
  -- the new first and last items of the leaf
  have hd : (l ++ (c₁ ++ c₂) ++ r).Nodup := by rw [← hk, ← e]; exact h.inodup
  have hF : (if pt = (s.node x).ifirst ∨ (s.node x).nitems = 0 then some s.nextI else (s.node x).ifirst) =
      (c₁ ++ s.nextI :: c₂).head? := by
    by_cases h0 : A.own x = []
    · rw [if_pos (.inr (hz.2 h0))]
      rw [h0] at hk
      rw [(List.append_eq_nil_iff.1 hk.symm).1]
      rfl
    · rw [h.ifirst x hx hxk, hk, hins h0]
      rcases c₁ with _ | ⟨c, c₁⟩
      · rw [hk, List.nil_append] at h0
        rw [if_pos (.inl (by rw [List.nil_append, List.head?_append_of_ne_nil _ h0]))]
        rfl
      · rw [if_neg]
        · rfl
        · rintro (h1 | h1)
          · rw [List.cons_append, List.head?_cons] at h1
            have hm := List.mem_of_mem_head? h1
            rw [List.append_assoc, List.nodup_append] at hd
            have := hd.2.1
            rw [List.cons_append, List.cons_append, List.append_assoc, List.nodup_cons] at this
            exact this.1 (List.mem_append_right _ hm)
          · exact h0 (hz.1 h1)
  have hL : (if prev (insertBefore s.items pt s.nextI) (some s.nextI) = (s.node x).ilast ∨ (s.node x).nitems = 0 then some s.nextI
      else (s.node x).ilast) = (c₁ ++ s.nextI :: c₂).getLast? := by
    by_cases h0 : A.own x = []
    · rw [if_pos (.inr (hz.2 h0))]
      rw [h0] at hk
      obtain ⟨h1, h2⟩ := List.append_eq_nil_iff.1 hk.symm
      rw [h1, h2]
      rfl
    · obtain ⟨l', r', h1, h2⟩ := hself
      rw [h2 h0] at h1
      have hni : s.nextI ∉ l ++ c₁ := by
        intro h'
        refine hnew ?_
        rw [e, hk]
        simp only [List.mem_append] at h' ⊢
        tauto
      have h3 : l ++ (c₁ ++ s.nextI :: c₂) ++ r' = (l ++ c₁) ++ s.nextI :: (c₂ ++ r') := by simp
      rw [h1, h3, prev_mid hni, h.ilast x hx hxk, hk]
      rcases List.eq_nil_or_concat c₂ with h4 | ⟨c', z, h4⟩
      · rw [h4, List.append_nil, if_pos]
        · simp
        · left
          rw [hk, h4, List.append_nil] at h0
          exact List.getLast?_append_of_ne_nil _ h0
      · rw [List.concat_eq_append] at h4
        rw [if_neg, h4]
        · simp [List.getLast?_append, List.getLast?_cons]
        · rintro (h5 | h5)
          · rw [h4] at h5
            have hm : z ∈ l ++ c₁ := by
              refine List.mem_of_getLast? (h5.trans ?_)
              simp
            have h6 : l ++ (c₁ ++ c₂) ++ r = (l ++ c₁) ++ (c₂ ++ r) := by simp
            rw [h6, List.nodup_append] at hd
            exact hd.2.2 z hm z (by rw [h4]; simp) rfl
          · exact h0 (hz.1 h5)
  rw [St.insertItem, if_neg (fun h' => (h.nkids_pos hx).1 h' hxk)]
  simp only [Option.bind_eq_bind, hpt, Option.bind_some, hF, hL, St.updateBoundary]
  obtain ⟨m', e0, e1, e2, e3⟩ := h.updLoop (s.node x).ifirst (s.node x).ilast (c₁ ++ s.nextI :: c₂).head?
    (c₁ ++ s.nextI :: c₂).getLast? 1 s.nextN none x s.node hx (h.fresh x hx) (fun _ _ => rfl)
  rw [e0]
  simp only [Option.bind_some]
  -- fields that do not change
  have hsame : ∀ y, (m' y).parent = (s.node y).parent ∧ (m' y).cfirst = (s.node y).cfirst ∧ (m' y).clast = (s.node y).clast ∧
      (m' y).nkids = (s.node y).nkids ∧ (m' y).data = (s.node y).data := by
    intro y
    by_cases hyx : y = x
    · subst hyx
      rw [e1]
      obtain ⟨h1, h2, h3, h4, h5, -⟩ := updNode_same (s.node y).ifirst (s.node y).ilast (c₁ ++ s.nextI :: c₂).head?
        (c₁ ++ s.nextI :: c₂).getLast? 1 none (s.node y)
      exact ⟨h1, h2, h3, h4, h5⟩
    · by_cases hc : Relation.TransGen (Up s) x y
      · obtain ⟨pc, h0⟩ := e2 y hc
        rw [h0]
        obtain ⟨h1, h2, h3, h4, h5, -⟩ := updNode_same (s.node x).ifirst (s.node x).ilast (c₁ ++ s.nextI :: c₂).head?
          (c₁ ++ s.nextI :: c₂).getLast? 1 pc (s.node y)
        exact ⟨h1, h2, h3, h4, h5⟩
      · rw [e3 y hyx hc]
        exact ⟨rfl, rfl, rfl, rfl, rfl⟩
  have hcnt : ∀ y, Relation.ReflTransGen (Up s) x y → (m' y).nitems = (s.node y).nitems + 1 := by
    intro y hc
    rcases Relation.reflTransGen_iff_eq_or_transGen.1 hc with h1 | h1
    · rw [h1, e1]
      exact (updNode_same _ _ _ _ _ _ _).2.2.2.2.2
    · obtain ⟨pc, h0⟩ := e2 y h1
      rw [h0]
      exact (updNode_same _ _ _ _ _ _ _).2.2.2.2.2
  have hcnt' : ∀ y, ¬ Relation.ReflTransGen (Up s) x y → m' y = s.node y := by
    intro y hc
    refine e3 y (fun e => hc (e ▸ .refl)) fun h1 => hc h1.to_reflTransGen
  have upd : ∀ y ∈ s.nodes, ∀ pc, (updNode (s.node x).ifirst (s.node x).ilast (c₁ ++ s.nextI :: c₂).head?
      (c₁ ++ s.nextI :: c₂).getLast? 1 pc (s.node y)) = { s.node y with
        nitems := (s.node y).nitems + 1
        ifirst := if (s.node y).cfirst = pc ∨ (s.node y).ifirst = (s.node x).ifirst then (c₁ ++ s.nextI :: c₂).head?
          else (s.node y).ifirst
        ilast := if (s.node y).clast = pc ∨ (s.node y).ilast = (s.node x).ilast then (c₁ ++ s.nextI :: c₂).getLast?
          else (s.node y).ilast } := by
    intro y hy pc
    have := h.nitems_nonneg y hy
    rw [updNode, if_neg (by omega)]
  have hxnode : (m' x).ifirst = (c₁ ++ s.nextI :: c₂).head? ∧ (m' x).ilast = (c₁ ++ s.nextI :: c₂).getLast? := by
    rw [e1, upd x hx]
    have hcf : (s.node x).cfirst = none := by rw [h.cfirst x hx, hxk]; rfl
    have hcl : (s.node x).clast = none := by rw [h.clast x hx, hxk]; rfl
    simp [hcf, hcl]
  set s' : St D I := { s with
    items := insertBefore s.items pt s.nextI
    val := Function.update s.val s.nextI v
    nextI := s.nextI + 1
    node := m' } with hs'
  have hup : ∀ a b, Up s a b → Up s' a b := by
    intro a b hab
    rw [Up]
    show (m' a).parent = some b
    rw [(hsame a).1]
    exact hab
  have oX : (A.addItem x c₁ c₂ s.nextI).own x = c₁ ++ s.nextI :: c₂ := by simp [Abs.addItem]
  have oY : ∀ y, y ≠ x → (A.addItem x c₁ c₂ s.nextI).own y = A.own y := fun y hy => by simp [Abs.addItem, Function.update_of_ne hy]
  have memi : ∀ i, i ∈ s'.items ↔ i = s.nextI ∨ i ∈ s.items := fun i => mem_insertBefore
  have leaf_not_above : ∀ y ∈ s.nodes, A.kids y = [] → y ≠ x → ¬ Relation.ReflTransGen (Up s) x y := by
    intro y hy hyk hyx hc
    rcases Relation.reflTransGen_iff_eq_or_transGen.1 hc with h1 | h1
    · exact hyx h1
    · obtain ⟨c, h2, h3⟩ := Relation.TransGen.tail'_iff.1 h1
      have := (h.parent_lt (h.chain_le hx h2).2 h3).2.2
      rw [hyk] at this
      cases this
  refine ⟨s', rfl, ?_, rfl, fun y => ⟨(hsame y).2.2.2.2, (hsame y).1⟩, rfl, memi⟩
  exact
  { nodup := h.nodup
    root := h.root
    fresh := h.fresh
    kid := by
      intro y hy c hc
      obtain ⟨h1, h2, h3⟩ := h.kid y hy c hc
      exact ⟨h1, (hsame c).1.trans h2, h3⟩
    parent := by
      intro y hy hy0
      obtain ⟨q, hq, h1, h2⟩ := h.parent y hy hy0
      exact ⟨q, hq, (hsame y).1.trans h1, h2⟩
    parent0 := (hsame 0).1.trans h.parent0
    block := h.block
    cfirst := fun y hy => (hsame y).2.1.trans (h.cfirst y hy)
    clast := fun y hy => (hsame y).2.2.1.trans (h.clast y hy)
    nkids := fun y hy => (hsame y).2.2.2.1.trans (h.nkids y hy)
    front := h.front
    inodup := insertBefore_nodup h.inodup pt hnew
    ifresh := by
      intro i hi
      show i < s.nextI + 1
      rcases (memi i).1 hi with h1 | h1
      · omega
      · have := h.ifresh i h1
        omega
    inner := by
      intro y hy hyk
      have hyx : y ≠ x := fun e => hyk (e ▸ hxk)
      rw [oY y hyx]
      exact h.inner y hy hyk
    iblock := by
      intro y hy
      by_cases hyx : y = x
      · rw [hyx, oX]
        obtain ⟨l', r', h1, -⟩ := hself
        exact ⟨l', r', h1⟩
      · rw [oY y hyx]
        exact hblocks y hy hyx
    cover := by
      intro i hi
      rcases (memi i).1 hi with h1 | h1
      · exact ⟨x, hx, by rw [oX, h1]; simp⟩
      · obtain ⟨y, hy, hiy⟩ := h.cover i h1
        refine ⟨y, hy, ?_⟩
        by_cases hyx : y = x
        · rw [hyx, oX]
          rw [hyx, hk] at hiy
          simp only [List.mem_append, List.mem_cons] at hiy ⊢
          tauto
        · rw [oY y hyx]
          exact hiy
    disj := by
      have key : ∀ y ∈ s.nodes, y ≠ x → ∀ i, i ∈ A.own y → i ∉ c₁ ++ s.nextI :: c₂ := by
        intro y hy hyx i hiy hix
        simp only [List.mem_append, List.mem_cons] at hix
        have hii : i ∈ s.items := h.own_mem hy hiy
        by_cases hin : i = s.nextI
        · exact hnew (hin ▸ hii)
        · have : i ∈ A.own x := by
            rw [hk, List.mem_append]
            tauto
          exact hyx (h.disj y hy x hx i hiy this)
      intro y hy z hz i hiy hiz
      by_cases hyx : y = x
      · by_cases hzx : z = x
        · rw [hyx, hzx]
        · rw [hyx, oX] at hiy
          rw [oY z hzx] at hiz
          exact absurd hiy (key z hz hzx i hiz)
      · rw [oY y hyx] at hiy
        by_cases hzx : z = x
        · rw [hzx, oX] at hiz
          exact absurd hiz (key y hy hyx i hiy)
        · rw [oY z hzx] at hiz
          exact h.disj y hy z hz i hiy hiz
    ifirst := by
      intro y hy hyk
      by_cases hyx : y = x
      · rw [hyx, oX]
        exact hxnode.1
      · rw [oY y hyx]
        show (m' y).ifirst = _
        rw [hcnt' y (leaf_not_above y hy hyk hyx)]
        exact h.ifirst y hy hyk
    ilast := by
      intro y hy hyk
      by_cases hyx : y = x
      · rw [hyx, oX]
        exact hxnode.2
      · rw [oY y hyx]
        show (m' y).ilast = _
        rw [hcnt' y (leaf_not_above y hy hyk hyx)]
        exact h.ilast y hy hyk
    nitems := by
      intro y hy hyk
      by_cases hyx : y = x
      · rw [hyx, oX]
        show (m' x).nitems = _
        rw [hcnt x .refl, hcount, hk]
        simp only [List.length_append, List.length_cons]
        push_cast
        omega
      · rw [oY y hyx]
        show (m' y).nitems = _
        rw [hcnt' y (leaf_not_above y hy hyk hyx)]
        exact h.nitems y hy hyk
    sum := by
      intro y hy hyk
      show (m' y).nitems = ((A.kids y).map fun c => (m' c).nitems).sum
      have hyx : y ≠ x := fun e => hyk (e ▸ hxk)
      by_cases hc : Relation.TransGen (Up s) x y
      · obtain ⟨c, h1, h2⟩ := Relation.TransGen.tail'_iff.1 hc
        have hcn := (h.chain_le hx h1).2
        rw [hcnt y hc.to_reflTransGen, h.sum y hy hyk]
        symm
        refine sum_map_bump (h.kids_nodup hy) (h.parent_lt hcn h2).2.2 1 (hcnt c h1) fun c' hc' hne => ?_
        rw [hcnt' c' fun h3 => hne (h.chain_unique hx h3 h1 (h.kid y hy c' hc').2.1 h2)]
      · rw [hcnt' y (fun h1 => by
          rcases Relation.reflTransGen_iff_eq_or_transGen.1 h1 with h2 | h2
          · exact hyx h2
          · exact hc h2), h.sum y hy hyk]
        refine congrArg List.sum (List.map_congr_left fun c' hc' => ?_)
        rw [hcnt' c' fun h3 => hc (Relation.TransGen.tail' h3 (h.kid y hy c' hc').2.1)]
    bound := by
      intro y hy hyk
      show (m' y).ifirst = none ∨ ∃ z ∈ s.nodes, Relation.TransGen (Up s') z y ∧ _ ∧ (m' y).ifirst = _
      have hyx : y ≠ x := fun e => hyk (e ▸ hxk)
      by_cases hc : Relation.TransGen (Up s) x y
      · obtain ⟨pc, h1⟩ := e2 y hc
        rw [h1, upd y hy]
        by_cases h2 : (s.node y).cfirst = pc ∨ (s.node y).ifirst = (s.node x).ifirst
        · refine .inr ⟨x, hx, hc.lift id fun a b => hup a b, by rw [oX]; simp, ?_⟩
          rw [oX]
          exact if_pos h2
        · simp only [if_neg h2]
          rcases h.bound y hy hyk with h3 | ⟨z, hz, h4, h5, h6⟩
          · exact .inl h3
          · have hzx : z ≠ x := by
              intro ezx
              refine h2 (.inr ?_)
              rw [h6, ezx, h.ifirst x hx hxk]
            exact .inr ⟨z, hz, h4.lift id fun a b => hup a b, by rw [oY z hzx]; exact h5, by rw [oY z hzx]; exact h6⟩
      · rw [hcnt' y (fun h1 => by
          rcases Relation.reflTransGen_iff_eq_or_transGen.1 h1 with h2 | h2
          · exact hyx h2
          · exact hc h2)]
        rcases h.bound y hy hyk with h3 | ⟨z, hz, h4, h5, h6⟩
        · exact .inl h3
        · have hzx : z ≠ x := fun ezx => hc (ezx ▸ h4)
          exact .inr ⟨z, hz, h4.lift id fun a b => hup a b, by rw [oY z hzx]; exact h5, by rw [oY z hzx]; exact h6⟩
    boundL := by
      intro y hy hyk
      show (m' y).ilast = none ∨ ∃ z ∈ s.nodes, Relation.TransGen (Up s') z y ∧ _ ∧ (m' y).ilast = _
      have hyx : y ≠ x := fun e => hyk (e ▸ hxk)
      by_cases hc : Relation.TransGen (Up s) x y
      · obtain ⟨pc, h1⟩ := e2 y hc
        rw [h1, upd y hy]
        by_cases h2 : (s.node y).clast = pc ∨ (s.node y).ilast = (s.node x).ilast
        · refine .inr ⟨x, hx, hc.lift id fun a b => hup a b, by rw [oX]; simp, ?_⟩
          rw [oX]
          exact if_pos h2
        · simp only [if_neg h2]
          rcases h.boundL y hy hyk with h3 | ⟨z, hz, h4, h5, h6⟩
          · exact .inl h3
          · have hzx : z ≠ x := by
              intro ezx
              refine h2 (.inr ?_)
              rw [h6, ezx, h.ilast x hx hxk]
            exact .inr ⟨z, hz, h4.lift id fun a b => hup a b, by rw [oY z hzx]; exact h5, by rw [oY z hzx]; exact h6⟩
      · rw [hcnt' y (fun h1 => by
          rcases Relation.reflTransGen_iff_eq_or_transGen.1 h1 with h2 | h2
          · exact hyx h2
          · exact hc h2)]
        rcases h.boundL y hy hyk with h3 | ⟨z, hz, h4, h5, h6⟩
        · exact .inl h3
        · have hzx : z ≠ x := fun ezx => hc (ezx ▸ h4)
          exact .inr ⟨z, hz, h4.lift id fun a b => hup a b, by rw [oY z hzx]; exact h5, by rw [oY z hzx]; exact h6⟩ }

end Rep

end Geomc.Tree
