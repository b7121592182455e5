import Verif.Tree.Rep

/-!
# Inserting nodes
-/

namespace Geomc.Tree

variable {D I : Type}

/-- The tree with a node inserted among the children of `p`, between `b₁` and `b₂`; if it is the first child it takes the items. -/
def Abs.addKid (A : Abs) (p : ℕ) (b₁ b₂ : List ℕ) (new : ℕ) : Abs where
  kids x := if x = p then b₁ ++ new :: b₂ else if x = new then [] else A.kids x
  own x := if x = new then (if A.kids p = [] then A.own p else []) else if x = p then [] else A.own x

namespace Rep

variable {s : St D I} {A : Abs}

/-- Chains of parents are in the tree. -/
theorem chain_mono (h : Rep s A) {s' : St D I} (hu : ∀ a ∈ s.nodes, ∀ b, Up s a b → Up s' a b) {y x : ℕ} (hy : y ∈ s.nodes)
    (hc : Relation.TransGen (Up s) y x) : Relation.TransGen (Up s') y x ∧ x ∈ s.nodes := by
  induction hc with
  | single hb => exact ⟨.single (hu y hy _ hb), (h.parent_lt hy hb).2.1⟩
  | tail _ hb ih => exact ⟨ih.1.tail (hu _ ih.2 _ hb), (h.parent_lt ih.2 hb).2.1⟩

set_option maxHeartbeats 800000 in
theorem insertChild (h : Rep s A) {p : ℕ} (hp : p ∈ s.nodes) (garbage : Option ℕ) {b₁ b₂ : List ℕ} (hk : A.kids p = b₁ ++ b₂)
    {before : Option ℕ} (hb : b₂ ≠ [] → before = b₂.head?) (hb' : b₂ = [] → s.endOf p = some before) (d : D) :
    ∃ s', s.insertChild garbage p before d = some (s', some s.nextN) ∧ Rep s' (A.addKid p b₁ b₂ s.nextN) ∧
      s'.items = s.items ∧ s'.val = s.val ∧ (∀ x ∈ s.nodes, (s'.node x).data = (s.node x).data) ∧ (s'.node s.nextN).data = d ∧
      (∀ x, x ∈ s'.nodes ↔ x = s.nextN ∨ x ∈ s.nodes) ∧ (s'.node s.nextN).parent = some p ∧
      (∀ x ∈ s.nodes, x ≠ p → s'.node x = s.node x) ∧
      (A.kids p ≠ [] → (s'.node s.nextN).nitems = 0) := by
  have hnew : s.nextN ∉ s.nodes := fun h' => absurd (h.fresh _ h') (lt_irrefl _)
  have hpn : p ≠ s.nextN := fun e => hnew (e ▸ hp)
  obtain ⟨l, r, e⟩ := h.block p hp
  -- the end of the children
  obtain ⟨en, hen⟩ : ∃ en, s.endOf p = some en := by
    by_cases h0 : A.kids p = []
    · exact ⟨_, h.endOf_nil hp h0⟩
    · exact ⟨_, (h.endOf hp h0 e).1⟩
  have h00 : (0 : ℕ) ∉ A.kids p := fun h0 => by
    have := (h.kid p hp 0 h0).2.2
    omega
  have hbr : A.kids p ≠ [] → before = (b₂ ++ r).head? := by
    intro h0
    by_cases h2 : b₂ = []
    · have := hb' h2
      rw [(h.endOf hp h0 e).1] at this
      rw [h2, List.nil_append]
      exact (Option.some.inj this).symm
    · rw [hb h2, List.head?_append_of_ne_nil _ h2]
  have hbn : A.kids p = [] → before = none := by
    intro h0
    have h2 : b₂ = [] := by
      rw [h0] at hk
      exact (List.append_eq_nil_iff.1 hk.symm).2
    have := hb' h2
    rw [h.endOf_nil hp h0] at this
    exact (Option.some.inj this).symm
  -- the tests
  have t1 : before ≠ s.nodes.head? := by
    rw [h.root]
    by_cases h0 : A.kids p = []
    · rw [hbn h0]
      simp
    · rw [hbr h0]
      intro h1
      have hm : (0 : ℕ) ∈ b₂ ++ r := List.mem_of_mem_head? h1
      have hd := h.nodup
      have hroot := h.root
      rw [e] at hd hroot
      rcases hl : l with _ | ⟨a, l'⟩
      · rw [hl, List.nil_append, List.head?_append_of_ne_nil _ h0] at hroot
        exact h00 (List.mem_of_mem_head? hroot)
      · rw [hl] at hd hroot
        simp only [List.cons_append, List.head?_cons, Option.some.injEq] at hroot
        subst hroot
        rw [hk] at hd
        simp only [List.cons_append, List.nodup_cons, List.mem_append] at hd hm
        tauto
  have t2 : ¬ (s.parentAt garbage before ≠ some p ∧ before ≠ en) := by
    rintro ⟨h1, h2⟩
    by_cases h3 : b₂ = []
    · have := hb' h3
      rw [hen] at this
      exact h2 (Option.some.inj this).symm
    · rcases b₂ with _ | ⟨c, b₂⟩
      · exact h3 rfl
      · have := hb h3
        rw [List.head?_cons] at this
        rw [this] at h1
        exact h1 (h.kid p hp c (by rw [hk]; simp)).2.1
  -- the place of insertion
  obtain ⟨n, hn, hblocks⟩ : ∃ n, (if (s.node p).nkids = 0 then s.nodeSuccessor p else some before) = some n ∧
      (∃ l' r', insertBefore s.nodes n s.nextN = l' ++ (b₁ ++ s.nextN :: b₂) ++ r') ∧
      (∀ x ∈ s.nodes, x ≠ p → ∃ l' r', insertBefore s.nodes n s.nextN = l' ++ A.kids x ++ r') := by
    by_cases h0 : A.kids p = []
    · obtain ⟨n, hn, hr⟩ := h.nodeSuccessor hp
      refine ⟨n, by rw [if_pos ((h.nkids_zero hp).2 h0), hn], ?_, fun x hx _ => ?_⟩
      · rw [h0] at hk
        obtain ⟨h1, h2⟩ := List.append_eq_nil_iff.1 hk.symm
        obtain ⟨u, v, -, h4, -, -⟩ := insertBefore_split s.nodes n s.nextN
        exact ⟨u, v, by rw [h4, h1, h2]; simp⟩
      · obtain ⟨l', r', e'⟩ := h.block x hx
        rw [e']
        refine block_keep (fun y hy => ?_) _
        rcases hr with hr | ⟨z, hz, -, hzk, hr⟩
        · rw [hr]
          simp
        · intro h3
          rw [hr] at h3
          have hyz := List.mem_of_mem_head? h3
          have hxz : x = z := h.kids_disj hx hz (List.mem_of_mem_tail hy) hyz
          subst hxz
          have hnd := h.kids_nodup hx
          rcases hc : A.kids x with _ | ⟨c, t⟩
          · exact hzk hc
          · rw [hc] at hnd h3 hy
            rw [List.head?_cons, Option.some.injEq] at h3
            subst h3
            exact (List.nodup_cons.1 hnd).1 hy
    · refine ⟨before, by rw [if_neg (fun h' => h0 ((h.nkids_zero hp).1 h'))], ?_, fun x hx hxp => ?_⟩
      · rw [hbr h0, e, hk]
        refine ⟨l, r, block_insert ?_ _⟩
        rw [← hk, ← e]
        exact h.nodup
      · obtain ⟨l', r', e'⟩ := h.block x hx
        by_cases h2 : b₂ = []
        · have hi : insertBefore s.nodes before s.nextN = l ++ A.kids p ++ s.nextN :: r := by
            rw [hbr h0, h2, List.nil_append]
            conv_lhs => rw [e]
            exact insertBefore_head (by rw [← e]; exact h.nodup) _
          rw [hi]
          rcases List.eq_nil_or_concat (A.kids p) with h3 | ⟨t, z, h3⟩
          · exact absurd h3 h0
          · rw [List.concat_eq_append] at h3
            have hz : z ∈ A.kids p := by rw [h3]; simp
            have := block_keep_after (l := l') (b := A.kids x) (t := r') (u := l ++ t) (v := r) (x := z)
              (by rw [← e', e, h3]; simp) (fun h4 => hxp (h.kids_disj hx hp h4 hz)) s.nextN
            rw [h3]
            simpa using this
        · rw [e']
          refine block_keep (fun y hy => ?_) _
          rw [hb h2]
          intro h3
          have hyp : y ∈ A.kids p := by
            rw [hk]
            exact List.mem_append_right _ (List.mem_of_mem_head? h3)
          exact hxp (h.kids_disj hx hp (List.mem_of_mem_tail hy) hyp)
  obtain ⟨hbp, hbx⟩ := hblocks
  -- the children of the root stay after the root
  have hfr : ∃ l' r', insertBefore s.nodes n s.nextN = l' ++ (0 :: (A.addKid p b₁ b₂ s.nextN).kids 0) ++ r' := by
    obtain ⟨l₀, r₀, e₀⟩ := h.front
    by_cases hp0 : p = 0
    · subst hp0
      have hk0 : (A.addKid 0 b₁ b₂ s.nextN).kids 0 = b₁ ++ s.nextN :: b₂ := by simp [Abs.addKid]
      rw [hk0]
      by_cases h0 : A.kids 0 = []
      · rw [if_pos ((h.nkids_zero hp).2 h0)] at hn
        obtain ⟨n', hn', hr⟩ := h.nodeSuccessor hp
        rcases hr with hr | ⟨z, hz, hz0, -, -⟩
        · rw [hn', hr, Option.some.injEq] at hn
          have hall : ∀ x ∈ s.nodes, x = 0 := fun x hx => by
            by_contra hx0
            exact h.kids_root hx hx0 h0
          rw [← hn, insertBefore_none]
          rw [h0] at hk
          obtain ⟨h1, h2⟩ := List.append_eq_nil_iff.1 hk.symm
          have hone : s.nodes = [0] := by
            have hroot := h.root
            have hnd := h.nodup
            rcases hs : s.nodes with _ | ⟨a, t⟩
            · rw [hs] at hroot
              cases hroot
            · rw [hs] at hall hnd
              have ha := hall a (by simp)
              rcases t with _ | ⟨c, t⟩
              · rw [ha]
              · have hc := hall c (by simp)
                rw [ha, hc] at hnd
                simp at hnd
          exact ⟨[], [], by rw [hone, h1, h2]; rfl⟩
        · exact absurd h0 (h.kids_root hz hz0)
      · rw [if_neg (fun h' => h0 ((h.nkids_zero hp).1 h')), Option.some.injEq] at hn
        have hd := h.nodup
        have e₁ : s.nodes = (l₀ ++ [0]) ++ (b₁ ++ b₂) ++ r₀ := by
          rw [e₀, hk]
          simp
        have hr : r = r₀ := by
          have h3 := (h.endOf hp h0 (l := l₀ ++ [0]) (r := r₀) (by rw [hk]; exact e₁)).1
          rw [(h.endOf hp h0 e).1, Option.some.injEq] at h3
          have h4 : l ++ A.kids 0 ++ r = (l₀ ++ [0]) ++ A.kids 0 ++ r₀ := by
            rw [← e, hk]
            exact e₁
          have h5 : l = l₀ ++ [0] := by
            rcases hkk : A.kids 0 with _ | ⟨c, t⟩
            · exact absurd hkk h0
            · rw [hkk] at h4
              rw [e, hkk] at hd
              rw [List.append_assoc, List.append_assoc] at h4
              rw [List.append_assoc] at hd
              rw [List.cons_append, List.cons_append] at h4
              rw [List.cons_append] at hd
              have hcl : c ∉ l := fun h6 => (List.nodup_append.1 hd).2.2 c h6 c (by simp) rfl
              rw [h4] at hd
              have hcl' : c ∉ l₀ ++ [0] := fun h6 => (List.nodup_append.1 hd).2.2 c h6 c (by simp) rfl
              rcases cut_eq h4 with ⟨g, h7, h8⟩ | ⟨g, h7, h8⟩
              · rcases g with _ | ⟨a, g⟩
                · rw [h7, List.append_nil]
                · rw [List.cons_append, List.cons.injEq] at h8
                  exact absurd (by rw [h7, ← h8.1]; simp) hcl'
              · rcases g with _ | ⟨a, g⟩
                · rw [h7, List.append_nil]
                · rw [List.cons_append, List.cons.injEq] at h8
                  exact absurd (by rw [h7, ← h8.1]; simp) hcl
          rw [h5] at h4
          exact List.append_cancel_left h4
        rw [← hn, hbr h0, hr, e₁, block_insert (by rw [← e₁]; exact hd)]
        exact ⟨l₀, r₀, by simp⟩
    · have hk0 : (A.addKid p b₁ b₂ s.nextN).kids 0 = A.kids 0 := by
        have : (0 : ℕ) ≠ s.nextN := fun e => hnew (e ▸ h.zero_mem)
        simp [Abs.addKid, this, Ne.symm hp0]
      rw [hk0]
      have hno : ∀ y ∈ A.kids 0, ∀ z ∈ s.nodes, z ≠ 0 → y ∉ A.kids z := fun y hy z hz hz0 h1 => hz0 (h.kids_disj hz h.zero_mem h1 hy)
      by_cases h0 : A.kids p = []
      · rw [if_pos ((h.nkids_zero hp).2 h0)] at hn
        obtain ⟨n', hn', hr⟩ := h.nodeSuccessor hp
        rw [hn', Option.some.injEq] at hn
        rw [e₀]
        refine block_keep (fun y hy => ?_) _
        rcases hr with hr | ⟨z, hz, hz0, -, hr⟩
        · rw [← hn, hr]
          simp
        · rw [← hn, hr]
          intro h3
          exact hno y hy z hz hz0 (List.mem_of_mem_head? h3)
      · rw [if_neg (fun h' => h0 ((h.nkids_zero hp).1 h')), Option.some.injEq] at hn
        rw [← hn]
        by_cases h2 : b₂ = []
        · have hi : insertBefore s.nodes before s.nextN = l ++ A.kids p ++ s.nextN :: r := by
            rw [hbr h0, h2, List.nil_append]
            conv_lhs => rw [e]
            exact insertBefore_head (by rw [← e]; exact h.nodup) _
          rw [hi]
          rcases List.eq_nil_or_concat (A.kids p) with h3 | ⟨t, z, h3⟩
          · exact absurd h3 h0
          · rw [List.concat_eq_append] at h3
            have hz : z ∈ A.kids p := by rw [h3]; simp
            have := block_keep_after (l := l₀) (b := 0 :: A.kids 0) (t := r₀) (u := l ++ t) (v := r) (x := z)
              (by rw [← e₀, e, h3]; simp) (fun h4 => by
                rcases List.mem_cons.1 h4 with h5 | h5
                · have := (h.kid p hp z hz).2.2
                  omega
                · exact hno z h5 p hp hp0 hz) s.nextN
            rw [h3]
            simpa using this
        · rw [e₀]
          refine block_keep (fun y hy => ?_) _
          rw [hb h2]
          intro h3
          refine hno y hy p hp hp0 ?_
          rw [hk]
          exact List.mem_append_right _ (List.mem_of_mem_head? h3)
  rw [St.insertChild, hen]
  simp only [Option.bind_eq_bind, Option.bind_some]
  rw [if_neg t1, if_neg t2, St.childPlace, hn]
  simp only [Option.bind_some]
  refine ⟨_, rfl, ?_, rfl, rfl, fun x hx => ?_, ?_, fun x => mem_insertBefore, ?_, fun x hx hxp => ?_, fun h0 => ?_⟩
  rotate_left
  · have hxn : x ≠ s.nextN := fun e => hnew (e ▸ hx)
    by_cases hxp : x = p
    · subst hxp
      simp
    · simp [Function.update_of_ne hxp, Function.update_of_ne hxn]
  · simp [Function.update_of_ne hpn.symm]
  · simp [Function.update_of_ne hpn.symm]
  · have hxn : x ≠ s.nextN := fun e => hnew (e ▸ hx)
    simp [Function.update_of_ne hxp, Function.update_of_ne hxn]
  · have h1 : ¬ (s.node p).nkids = 0 := fun h' => h0 ((h.nkids_zero hp).1 h')
    simp [Function.update_of_ne hpn.symm, h1]
  -- the new state
  set N : Node D := ⟨some p, none, none, if (s.node p).nkids = 0 then (s.node p).ifirst else none,
    if (s.node p).nkids = 0 then (s.node p).ilast else none, if (s.node p).nkids = 0 then (s.node p).nitems else 0, 0, d⟩ with hN
  set P : Node D := { s.node p with
    clast := if before = en then some s.nextN else (s.node p).clast
    cfirst := if before = (s.node p).cfirst then some s.nextN else (s.node p).cfirst
    nkids := (s.node p).nkids + 1 } with hP
  set s' : St D I := { s with
    nodes := insertBefore s.nodes n s.nextN
    node := Function.update (Function.update s.node s.nextN N) p P
    nextN := s.nextN + 1 } with hs'
  have nP : s'.node p = P := by simp [hs']
  have nN : s'.node s.nextN = N := by simp [hs', Function.update_of_ne hpn.symm]
  have nX : ∀ x ∈ s.nodes, x ≠ p → s'.node x = s.node x := by
    intro x hx hxp
    have hxn : x ≠ s.nextN := fun e => hnew (e ▸ hx)
    simp [hs', Function.update_of_ne hxp, Function.update_of_ne hxn]
  have kP : (A.addKid p b₁ b₂ s.nextN).kids p = b₁ ++ s.nextN :: b₂ := by simp [Abs.addKid]
  have kN : (A.addKid p b₁ b₂ s.nextN).kids s.nextN = [] := by simp [Abs.addKid, hpn.symm]
  have kX : ∀ x ∈ s.nodes, x ≠ p → (A.addKid p b₁ b₂ s.nextN).kids x = A.kids x := by
    intro x hx hxp
    have hxn : x ≠ s.nextN := fun e => hnew (e ▸ hx)
    simp [Abs.addKid, hxp, hxn]
  have oP : (A.addKid p b₁ b₂ s.nextN).own p = [] := by simp [Abs.addKid, hpn]
  have oN : (A.addKid p b₁ b₂ s.nextN).own s.nextN = A.own p := by
    by_cases h0 : A.kids p = []
    · simp [Abs.addKid, h0]
    · simp [Abs.addKid, h0, h.inner p hp h0]
  have oX : ∀ x ∈ s.nodes, x ≠ p → (A.addKid p b₁ b₂ s.nextN).own x = A.own x := by
    intro x hx hxp
    have hxn : x ≠ s.nextN := fun e => hnew (e ▸ hx)
    simp [Abs.addKid, hxp, hxn]
  have mem : ∀ x, x ∈ s'.nodes ↔ x = s.nextN ∨ x ∈ s.nodes := fun x => mem_insertBefore
  have cases3 : ∀ x ∈ s'.nodes, x = s.nextN ∨ x = p ∨ (x ∈ s.nodes ∧ x ≠ p) := by
    intro x hx
    rcases (mem x).1 hx with h1 | h1
    · exact .inl h1
    · by_cases h2 : x = p
      · exact .inr (.inl h2)
      · exact .inr (.inr ⟨h1, h2⟩)
  have par : ∀ x ∈ s.nodes, (s'.node x).parent = (s.node x).parent := by
    intro x hx
    by_cases hxp : x = p
    · rw [hxp, nP]
    · rw [nX x hx hxp]
  have nit : ∀ x ∈ s.nodes, (s'.node x).nitems = (s.node x).nitems := by
    intro x hx
    by_cases hxp : x = p
    · rw [hxp, nP]
    · rw [nX x hx hxp]
  have up : ∀ a ∈ s.nodes, ∀ b, Up s a b → Up s' a b := by
    intro a ha b hab
    rw [Up, par a ha]
    exact hab
  have upN : Up s' s.nextN p := by
    rw [Up, nN]
  exact
  { nodup := insertBefore_nodup h.nodup n hnew
    root := by
      show (insertBefore s.nodes n s.nextN).head? = some 0
      obtain ⟨u, v, h1, h2, h3, h4⟩ := insertBefore_split s.nodes n s.nextN
      rw [h2]
      rcases u with _ | ⟨a, u⟩
      · exfalso
        rw [List.nil_append] at h1
        have hv : v.head? = some 0 := by rw [← h1]; exact h.root
        rcases h4 with h4 | h4
        · rw [h4] at hv
          cases hv
        · rw [hv] at h4
          by_cases h0 : A.kids p = []
          · obtain ⟨n', hn', hr⟩ := h.nodeSuccessor hp
            rw [if_pos ((h.nkids_zero hp).2 h0), hn', ← h4, Option.some.injEq] at hn
            rcases hr with hr | ⟨z, hz, -, -, hr⟩
            · rw [hr] at hn
              cases hn
            · rw [hn] at hr
              have := (h.kid z hz 0 (List.mem_of_mem_head? hr.symm)).2.2
              omega
          · rw [if_neg (fun h' => h0 ((h.nkids_zero hp).1 h')), ← h4, Option.some.injEq] at hn
            exact t1 (hn.trans h.root.symm)
      · have := h.root
        rw [h1] at this
        simpa using this
    fresh := by
      intro x hx
      show x < s.nextN + 1
      rcases (mem x).1 hx with h1 | h1
      · omega
      · have := h.fresh x h1
        omega
    kid := by
      intro x hx c hc
      rcases cases3 x hx with rfl | rfl | ⟨hx, hxp⟩
      · rw [kN] at hc
        cases hc
      · rw [kP] at hc
        by_cases hcn : c = s.nextN
        · subst hcn
          exact ⟨(mem _).2 (.inl rfl), by rw [nN], h.fresh x hp⟩
        · have hc' : c ∈ A.kids x := by
            rw [hk]
            simp only [List.mem_append, List.mem_cons] at hc ⊢
            tauto
          obtain ⟨h1, h2, h3⟩ := h.kid x hp c hc'
          exact ⟨(mem _).2 (.inr h1), by rw [par c h1, h2], h3⟩
      · rw [kX x hx hxp] at hc
        obtain ⟨h1, h2, h3⟩ := h.kid x hx c hc
        exact ⟨(mem _).2 (.inr h1), by rw [par c h1, h2], h3⟩
    parent := by
      intro x hx hx0
      rcases (mem x).1 hx with rfl | hx
      · exact ⟨p, (mem p).2 (.inr hp), by rw [nN], by rw [kP]; simp⟩
      · obtain ⟨q, hq, h1, h2⟩ := h.parent x hx hx0
        refine ⟨q, (mem q).2 (.inr hq), by rw [par x hx, h1], ?_⟩
        by_cases hqp : q = p
        · rw [hqp] at h2 ⊢
          rw [kP]
          rw [hk] at h2
          simp only [List.mem_append, List.mem_cons] at h2 ⊢
          tauto
        · rw [kX q hq hqp]
          exact h2
    parent0 := by rw [par 0 h.zero_mem, h.parent0]
    block := by
      intro x hx
      rcases cases3 x hx with rfl | rfl | ⟨hx, hxp⟩
      · exact ⟨s'.nodes, [], by rw [kN]; simp⟩
      · rw [kP]
        exact hbp
      · rw [kX x hx hxp]
        exact hbx x hx hxp
    cfirst := by
      intro x hx
      rcases cases3 x hx with rfl | rfl | ⟨hx, hxp⟩
      · rw [nN, kN]
        rfl
      · rw [nP, kP]
        show (if before = (s.node x).cfirst then some s.nextN else (s.node x).cfirst) = _
        rw [h.cfirst x hp, hk]
        rcases b₁ with _ | ⟨c, b₁⟩
        · rw [List.nil_append, List.nil_append, List.head?_cons, if_pos]
          by_cases h0 : A.kids x = []
          · rw [hbn h0]
            rw [h0, List.nil_append] at hk
            rw [← hk]
            rfl
          · rw [hk, List.nil_append] at h0
            exact hb h0
        · rw [List.cons_append, List.cons_append, List.head?_cons, List.head?_cons, if_neg]
          have h0 : A.kids x ≠ [] := by rw [hk]; simp
          rw [hbr h0]
          intro h1
          have hm := List.mem_of_mem_head? h1
          have hd := h.nodup
          rw [e, hk, List.append_assoc, List.nodup_append] at hd
          have := hd.2.1
          rw [List.cons_append, List.cons_append, List.append_assoc, List.nodup_cons] at this
          exact this.1 (List.mem_append_right _ hm)
      · rw [nX x hx hxp, kX x hx hxp]
        exact h.cfirst x hx
    clast := by
      intro x hx
      rcases cases3 x hx with rfl | rfl | ⟨hx, hxp⟩
      · rw [nN, kN]
        rfl
      · rw [nP, kP]
        show (if before = en then some s.nextN else (s.node x).clast) = _
        rw [h.clast x hp, hk]
        rcases b₂ with _ | ⟨c, b₂⟩
        · have := hb' rfl
          rw [hen] at this
          rw [if_pos (Option.some.inj this).symm]
          simp
        · have h0 : A.kids x ≠ [] := by rw [hk]; simp
          rw [(h.endOf hp h0 e).1, Option.some.injEq] at hen
          rw [if_neg]
          · simp [List.getLast?_append, List.getLast?_cons]
          · rw [hbr h0, ← hen, List.cons_append, List.head?_cons]
            intro h1
            have hm := List.mem_of_mem_head? h1.symm
            have hd := h.nodup
            rw [e, hk, List.nodup_append] at hd
            exact hd.2.2 c (by simp) c hm rfl
      · rw [nX x hx hxp, kX x hx hxp]
        exact h.clast x hx
    nkids := by
      intro x hx
      rcases cases3 x hx with rfl | rfl | ⟨hx, hxp⟩
      · rw [nN, kN]
        rfl
      · rw [nP, kP]
        show (s.node x).nkids + 1 = _
        rw [h.nkids x hp, hk]
        simp only [List.length_append, List.length_cons]
        push_cast
        omega
      · rw [nX x hx hxp, kX x hx hxp]
        exact h.nkids x hx
    front := hfr
    inodup := h.inodup
    ifresh := h.ifresh
    inner := by
      intro x hx hkx
      rcases cases3 x hx with rfl | rfl | ⟨hx, hxp⟩
      · exact absurd kN hkx
      · exact oP
      · rw [kX x hx hxp] at hkx
        rw [oX x hx hxp]
        exact h.inner x hx hkx
    iblock := by
      intro x hx
      show ∃ l r, s.items = _
      rcases cases3 x hx with rfl | rfl | ⟨hx, hxp⟩
      · rw [oN]
        exact h.iblock p hp
      · exact ⟨s.items, [], by rw [oP]; simp⟩
      · rw [oX x hx hxp]
        exact h.iblock x hx
    cover := by
      intro i hi
      obtain ⟨x, hx, hix⟩ := h.cover i hi
      by_cases hxp : x = p
      · exact ⟨s.nextN, (mem _).2 (.inl rfl), by rw [oN, ← hxp]; exact hix⟩
      · exact ⟨x, (mem _).2 (.inr hx), by rw [oX x hx hxp]; exact hix⟩
    disj := by
      intro x hx y hy i hix hiy
      rcases cases3 x hx with rfl | rfl | ⟨hx, hxp⟩
      · rw [oN] at hix
        rcases cases3 y hy with rfl | rfl | ⟨hy, hyp⟩
        · rfl
        · rw [oP] at hiy
          cases hiy
        · rw [oX y hy hyp] at hiy
          exact absurd (h.disj p hp y hy i hix hiy).symm hyp
      · rw [oP] at hix
        cases hix
      · rw [oX x hx hxp] at hix
        rcases cases3 y hy with rfl | rfl | ⟨hy, hyp⟩
        · rw [oN] at hiy
          exact absurd (h.disj x hx p hp i hix hiy) hxp
        · rw [oP] at hiy
          cases hiy
        · rw [oX y hy hyp] at hiy
          exact h.disj x hx y hy i hix hiy
    ifirst := by
      intro x hx hkx
      rcases cases3 x hx with rfl | rfl | ⟨hx, hxp⟩
      · rw [nN, oN]
        show (if (s.node p).nkids = 0 then (s.node p).ifirst else none) = _
        by_cases h0 : A.kids p = []
        · rw [if_pos ((h.nkids_zero hp).2 h0), h.ifirst p hp h0]
        · rw [if_neg (fun h' => h0 ((h.nkids_zero hp).1 h')), h.inner p hp h0]
          rfl
      · rw [kP] at hkx
        simp at hkx
      · rw [kX x hx hxp] at hkx
        rw [nX x hx hxp, oX x hx hxp]
        exact h.ifirst x hx hkx
    ilast := by
      intro x hx hkx
      rcases cases3 x hx with rfl | rfl | ⟨hx, hxp⟩
      · rw [nN, oN]
        show (if (s.node p).nkids = 0 then (s.node p).ilast else none) = _
        by_cases h0 : A.kids p = []
        · rw [if_pos ((h.nkids_zero hp).2 h0), h.ilast p hp h0]
        · rw [if_neg (fun h' => h0 ((h.nkids_zero hp).1 h')), h.inner p hp h0]
          rfl
      · rw [kP] at hkx
        simp at hkx
      · rw [kX x hx hxp] at hkx
        rw [nX x hx hxp, oX x hx hxp]
        exact h.ilast x hx hkx
    nitems := by
      intro x hx hkx
      rcases cases3 x hx with rfl | rfl | ⟨hx, hxp⟩
      · rw [nN, oN]
        show (if (s.node p).nkids = 0 then (s.node p).nitems else 0) = _
        by_cases h0 : A.kids p = []
        · rw [if_pos ((h.nkids_zero hp).2 h0), h.nitems p hp h0]
        · rw [if_neg (fun h' => h0 ((h.nkids_zero hp).1 h')), h.inner p hp h0]
          rfl
      · rw [kP] at hkx
        simp at hkx
      · rw [kX x hx hxp] at hkx
        rw [nX x hx hxp, oX x hx hxp]
        exact h.nitems x hx hkx
    sum := by
      intro x hx hkx
      rcases cases3 x hx with rfl | rfl | ⟨hx, hxp⟩
      · exact absurd kN hkx
      · rw [kP, nit x hp]
        have hmap : ∀ t : List ℕ, (∀ c ∈ t, c ∈ A.kids x) →
            (t.map fun c => (s'.node c).nitems) = t.map fun c => (s.node c).nitems := by
          intro t ht
          refine List.map_congr_left fun c hc => ?_
          exact nit c (h.kid x hp c (ht c hc)).1
        rw [List.map_append, List.map_cons, List.sum_append, List.sum_cons,
          hmap b₁ (fun c hc => by rw [hk]; simp [hc]), hmap b₂ (fun c hc => by rw [hk]; simp [hc]), nN]
        show _ = _ + ((if (s.node x).nkids = 0 then (s.node x).nitems else 0) + _)
        by_cases h0 : A.kids x = []
        · rw [if_pos ((h.nkids_zero hp).2 h0)]
          rw [h0] at hk
          obtain ⟨h1, h2⟩ := List.append_eq_nil_iff.1 hk.symm
          rw [h1, h2]
          simp
        · rw [if_neg (fun h' => h0 ((h.nkids_zero hp).1 h')), h.sum x hp h0, hk, List.map_append, List.sum_append]
          omega
      · rw [kX x hx hxp] at hkx ⊢
        rw [nX x hx hxp, h.sum x hx hkx]
        refine congrArg List.sum (List.map_congr_left fun c hc => ?_)
        exact (nit c (h.kid x hx c hc).1).symm
    bound := by
      intro x hx hkx
      have old : ∀ y ∈ s.nodes, Relation.TransGen (Up s) y x → A.own y ≠ [] → ∃ y' ∈ s'.nodes, Relation.TransGen (Up s') y' x ∧
          (A.addKid p b₁ b₂ s.nextN).own y' = A.own y := by
        intro y hy hc ho
        by_cases hyp : y = p
        · refine ⟨s.nextN, (mem _).2 (.inl rfl), .trans (.single upN) ?_, by rw [oN, hyp]⟩
          rw [← hyp]
          exact (h.chain_mono up hy hc).1
        · exact ⟨y, (mem _).2 (.inr hy), (h.chain_mono up hy hc).1, oX y hy hyp⟩
      rcases cases3 x hx with rfl | rfl | ⟨hx, hxp⟩
      · exact absurd kN hkx
      · rw [nP]
        show (s.node x).ifirst = none ∨ ∃ y ∈ s'.nodes, _ ∧ _ ∧ (s.node x).ifirst = _
        by_cases h0 : A.kids x = []
        · rw [h.ifirst x hp h0]
          by_cases ho : A.own x = []
          · rw [ho]
            exact .inl rfl
          · exact .inr ⟨s.nextN, (mem _).2 (.inl rfl), .single upN, by rw [oN]; exact ho, by rw [oN]⟩
        · rcases h.bound x hp h0 with h1 | ⟨y, hy, hc, ho, h1⟩
          · exact .inl h1
          · obtain ⟨y', hy', hc', ho'⟩ := old y hy hc ho
            exact .inr ⟨y', hy', hc', by rw [ho']; exact ho, by rw [ho']; exact h1⟩
      · rw [kX x hx hxp] at hkx
        rw [nX x hx hxp]
        rcases h.bound x hx hkx with h1 | ⟨y, hy, hc, ho, h1⟩
        · exact .inl h1
        · obtain ⟨y', hy', hc', ho'⟩ := old y hy hc ho
          exact .inr ⟨y', hy', hc', by rw [ho']; exact ho, by rw [ho']; exact h1⟩
    boundL := by
      intro x hx hkx
      have old : ∀ y ∈ s.nodes, Relation.TransGen (Up s) y x → A.own y ≠ [] → ∃ y' ∈ s'.nodes, Relation.TransGen (Up s') y' x ∧
          (A.addKid p b₁ b₂ s.nextN).own y' = A.own y := by
        intro y hy hc ho
        by_cases hyp : y = p
        · refine ⟨s.nextN, (mem _).2 (.inl rfl), .trans (.single upN) ?_, by rw [oN, hyp]⟩
          rw [← hyp]
          exact (h.chain_mono up hy hc).1
        · exact ⟨y, (mem _).2 (.inr hy), (h.chain_mono up hy hc).1, oX y hy hyp⟩
      rcases cases3 x hx with rfl | rfl | ⟨hx, hxp⟩
      · exact absurd kN hkx
      · rw [nP]
        show (s.node x).ilast = none ∨ ∃ y ∈ s'.nodes, _ ∧ _ ∧ (s.node x).ilast = _
        by_cases h0 : A.kids x = []
        · rw [h.ilast x hp h0]
          by_cases ho : A.own x = []
          · rw [ho]
            exact .inl rfl
          · exact .inr ⟨s.nextN, (mem _).2 (.inl rfl), .single upN, by rw [oN]; exact ho, by rw [oN]⟩
        · rcases h.boundL x hp h0 with h1 | ⟨y, hy, hc, ho, h1⟩
          · exact .inl h1
          · obtain ⟨y', hy', hc', ho'⟩ := old y hy hc ho
            exact .inr ⟨y', hy', hc', by rw [ho']; exact ho, by rw [ho']; exact h1⟩
      · rw [kX x hx hxp] at hkx
        rw [nX x hx hxp]
        rcases h.boundL x hx hkx with h1 | ⟨y, hy, hc, ho, h1⟩
        · exact .inl h1
        · obtain ⟨y', hy', hc', ho'⟩ := old y hy hc ho
          exact .inr ⟨y', hy', hc', by rw [ho']; exact ho, by rw [ho']; exact h1⟩ }

end Rep

end Geomc.Tree
