import Verif.Tree.Split

/-!
# Erasing empty leaves
-/

namespace Geomc.Tree

variable {D I : Type}

/-- The tree without a child of `p`; the others are `b`. -/
def Abs.delKid (A : Abs) (p : ℕ) (b : List ℕ) : Abs where
  kids := Function.update A.kids p b
  own := A.own

theorem erase_mid {a b : List ℕ} {c : ℕ} (h : c ∉ a) : (a ++ c :: b).erase c = a ++ b := by
  rw [List.erase_append_right _ h, List.erase_cons_head]

namespace Rep

variable {s : St D I} {A : Abs}

theorem eraseChild (h : Rep s A) {p c : ℕ} (hp : p ∈ s.nodes) {b₁ b₂ : List ℕ} (hk : A.kids p = b₁ ++ c :: b₂) (kc : A.kids c = [])
    (oc : A.own c = []) :
    ∃ s' nx, s.eraseChild p c = some (s', nx) ∧ Rep s' (A.delKid p (b₁ ++ b₂)) ∧ s'.items = s.items ∧ s'.val = s.val ∧
      (∀ y, y ∈ s'.nodes ↔ y ∈ s.nodes ∧ y ≠ c) ∧ (∀ y, (s'.node y).data = (s.node y).data) ∧ (b₂ ≠ [] → nx = b₂.head?) ∧
      (b₂ = [] → b₁ ≠ [] → s'.endOf p = some nx) := by
  have hcp : c ∈ A.kids p := by rw [hk]; simp
  obtain ⟨mc, pc, ltc⟩ := h.kid p hp c hcp
  have hpc : p ≠ c := by omega
  have hpk : A.kids p ≠ [] := by rw [hk]; simp
  have nc : (s.node c).nitems = 0 := by rw [h.nitems c mc kc, oc]; rfl
  obtain ⟨l, r, e⟩ := h.block p hp
  rw [hk] at e
  have hd := h.nodup
  have e' : s.nodes = (l ++ b₁) ++ c :: (b₂ ++ r) := by rw [e]; simp
  have hcl : c ∉ l ++ b₁ := fun h1 => by
    rw [e', List.nodup_append] at hd
    exact hd.2.2 c h1 c (by simp) rfl
  have hcr : c ∉ b₂ ++ r := fun h1 => by
    rw [e', List.nodup_append] at hd
    exact (List.nodup_cons.1 hd.2.1).1 h1
  have hne : next s.nodes c = (b₂ ++ r).head? := by
    rw [e']
    exact next_mid hcl
  have her : s.nodes.erase c = (l ++ b₁) ++ (b₂ ++ r) := by
    rw [e']
    exact erase_mid hcl
  have hpv : prev (s.nodes.erase c) (b₂ ++ r).head? = (l ++ b₁).getLast? := by
    rw [her]
    refine prev_head ?_
    rw [← her]
    exact hd.erase c
  rw [St.eraseChild, if_neg (fun h1 => h1 pc), St.clear, St.flatten, if_pos ((h.nkids_zero mc).2 kc)]
  simp only [Option.bind_eq_bind, Option.bind_some, nc, gt_iff_lt, lt_irrefl, if_false, hne, hpv]
  set P : Node D := if (s.node p).nkids - 1 = 0 then { s.node p with nkids := (s.node p).nkids - 1, cfirst := none, clast := none }
      else if (s.node p).cfirst = some c then { s.node p with nkids := (s.node p).nkids - 1, cfirst := (b₂ ++ r).head? }
      else if (s.node p).clast = some c then { s.node p with nkids := (s.node p).nkids - 1, clast := (l ++ b₁).getLast? }
      else { s.node p with nkids := (s.node p).nkids - 1 } with hP
  have hcnt : (s.node p).nkids - 1 = ((b₁ ++ b₂).length : ℤ) := by
    rw [h.nkids p hp, hk]
    simp only [List.length_append, List.length_cons]
    push_cast
    omega
  have hPs : P.parent = (s.node p).parent ∧ P.ifirst = (s.node p).ifirst ∧ P.ilast = (s.node p).ilast ∧ P.nitems = (s.node p).nitems ∧
      P.data = (s.node p).data ∧ P.nkids = ((b₁ ++ b₂).length : ℤ) := by
    rw [← hcnt, hP]
    by_cases h1 : (s.node p).nkids - 1 = 0
    · simp [h1]
    · by_cases h2 : (s.node p).cfirst = some c
      · simp [h1, h2]
      · by_cases h3 : (s.node p).clast = some c
        · simp [h1, h2, h3]
        · simp [h1, h2, h3]
  have hPc : P.cfirst = (b₁ ++ b₂).head? ∧ P.clast = (b₁ ++ b₂).getLast? := by
    have hf := h.cfirst p hp
    have hl := h.clast p hp
    rw [hk] at hf hl
    rw [hP, hcnt]
    rcases b₁ with _ | ⟨a, b₁⟩
    · rw [List.nil_append, List.head?_cons] at hf
      rcases List.eq_nil_or_concat b₂ with h3 | ⟨t, z, h3⟩
      · subst h3
        simp
      · rw [List.concat_eq_append] at h3
        have hb : b₂ ≠ [] := by rw [h3]; simp
        have hlen : ((([] : List ℕ) ++ b₂).length : ℤ) ≠ 0 := by
          have := List.length_pos_of_ne_nil hb
          rw [List.nil_append]
          omega
        rw [if_neg hlen, if_pos hf]
        refine ⟨?_, ?_⟩
        · show (b₂ ++ r).head? = _
          rw [List.nil_append, List.head?_append_of_ne_nil _ hb]
        · show (s.node p).clast = _
          rw [hl, h3]
          simp [List.getLast?_cons]
    · have hac : a ≠ c := fun e => hcl (by rw [← e]; simp)
      have hlen : (((a :: b₁) ++ b₂).length : ℤ) ≠ 0 := by
        simp only [List.cons_append, List.length_cons]
        push_cast
        omega
      have hcf : (s.node p).cfirst ≠ some c := by
        rw [hf, List.cons_append, List.head?_cons]
        intro h1
        exact hac (Option.some.inj h1)
      rw [if_neg hlen, if_neg hcf]
      rcases List.eq_nil_or_concat b₂ with h3 | ⟨t, z, h3⟩
      · subst h3
        have hcl2 : (s.node p).clast = some c := by
          rw [hl, List.getLast?_append_of_ne_nil _ (by simp)]
          rfl
        rw [if_pos hcl2]
        refine ⟨?_, ?_⟩
        · show (s.node p).cfirst = _
          rw [hf]
          simp
        · show (l ++ a :: b₁).getLast? = _
          rw [List.append_nil]
          exact List.getLast?_append_of_ne_nil _ (by simp)
      · rw [List.concat_eq_append] at h3
        have hz : (s.node p).clast = some z := by
          rw [hl, h3]
          simp [List.getLast?_append, List.getLast?_cons]
        have hzc : z ≠ c := fun e => hcr (by rw [h3, e]; simp)
        have hcl2 : (s.node p).clast ≠ some c := by
          rw [hz]
          exact fun h1 => hzc (Option.some.inj h1)
        rw [if_neg hcl2]
        refine ⟨?_, ?_⟩
        · show (s.node p).cfirst = _
          rw [hf]
          simp
        · show (s.node p).clast = _
          rw [hz, h3]
          simp [List.getLast?_append, List.getLast?_cons]
  set s' : St D I := { s with nodes := s.nodes.erase c, node := Function.update s.node p P } with hs'
  have np : s'.node p = P := by simp [hs']
  have ny : ∀ y, y ≠ p → s'.node y = s.node y := fun y hy => by simp [hs', Function.update_of_ne hy]
  have mem : ∀ y, y ∈ s'.nodes ↔ y ∈ s.nodes ∧ y ≠ c := by
    intro y
    show y ∈ s.nodes.erase c ↔ _
    rw [hd.mem_erase_iff]
    tauto
  have kp : (A.delKid p (b₁ ++ b₂)).kids p = b₁ ++ b₂ := by simp [Abs.delKid]
  have ky : ∀ y, y ≠ p → (A.delKid p (b₁ ++ b₂)).kids y = A.kids y := fun y hy => by simp [Abs.delKid, Function.update_of_ne hy]
  have hsub : ∀ y, y ∈ b₁ ++ b₂ ↔ y ∈ A.kids p ∧ y ≠ c := by
    intro y
    rw [hk]
    simp only [List.mem_append, List.mem_cons]
    constructor
    · intro h1
      refine ⟨by tauto, fun e => ?_⟩
      subst e
      rcases h1 with h1 | h1
      · exact hcl (List.mem_append_right _ h1)
      · exact hcr (List.mem_append_left _ h1)
    · tauto
  have par : ∀ y, (s'.node y).parent = (s.node y).parent := fun y => by
    by_cases hy : y = p
    · rw [hy, np, hPs.1]
    · rw [ny y hy]
  have nit : ∀ y, (s'.node y).nitems = (s.node y).nitems := fun y => by
    by_cases hy : y = p
    · rw [hy, np, hPs.2.2.2.1]
    · rw [ny y hy]
  have fir : ∀ y, (s'.node y).ifirst = (s.node y).ifirst := fun y => by
    by_cases hy : y = p
    · rw [hy, np, hPs.2.1]
    · rw [ny y hy]
  have las : ∀ y, (s'.node y).ilast = (s.node y).ilast := fun y => by
    by_cases hy : y = p
    · rw [hy, np, hPs.2.2.1]
    · rw [ny y hy]
  have hup : ∀ a b, Up s a b → Up s' a b := fun a b hab => by
    rw [Up, par]
    exact hab
  have hcsum : (s.node p).nitems = ((b₁ ++ b₂).map fun y => (s.node y).nitems).sum := by
    rw [h.sum p hp hpk, hk, List.map_append, List.map_append, List.map_cons, List.sum_append, List.sum_append, List.sum_cons, nc]
    omega
  -- if there are no other children, nothing is below with items
  have hempty : b₁ ++ b₂ = [] → ∀ y ∈ s.nodes, Relation.TransGen (Up s) y p → A.own y ≠ [] → False := by
    intro hb y hy hc ho
    obtain ⟨z, h1, h2⟩ := Relation.TransGen.tail'_iff.1 hc
    have hz := (h.parent_lt (h.chain_le hy h1).2 h2).2.2
    have hzc : z = c := by
      by_contra hne
      have := (hsub z).2 ⟨hz, hne⟩
      rw [hb] at this
      cases this
    subst hzc
    rcases Relation.reflTransGen_iff_eq_or_transGen.1 h1 with h3 | h3
    · subst h3
      exact ho oc
    · obtain ⟨z', h4, h5⟩ := Relation.TransGen.tail'_iff.1 h3
      have := (h.parent_lt (h.chain_le hy h4).2 h5).2.2
      rw [kc] at this
      cases this
  have hblock : ∀ b : List ℕ, c ∉ b → (∃ l r, s.nodes = l ++ b ++ r) → ∃ l r, s'.nodes = l ++ b ++ r := by
    rintro b hb ⟨l', r', h1⟩
    show ∃ l r, s.nodes.erase c = _
    rw [h1]
    by_cases h2 : c ∈ l'
    · exact ⟨l'.erase c, r', by rw [List.append_assoc, List.erase_append_left _ h2, List.append_assoc]⟩
    · refine ⟨l', r'.erase c, ?_⟩
      rw [List.erase_append_right]
      rw [List.mem_append]
      tauto
  have ckid : ∀ y ∈ s.nodes, y ≠ p → c ∉ A.kids y := fun y hy hyp h1 => hyp (h.kids_disj hy hp h1 hcp)
  have R : Rep s' (A.delKid p (b₁ ++ b₂)) :=
  { nodup := hd.erase c
    root := by
      show (s.nodes.erase c).head? = _
      have hroot := h.root
      rcases hs : s.nodes with _ | ⟨a, t⟩
      · rw [hs] at hroot
        cases hroot
      · rw [hs, List.head?_cons, Option.some.injEq] at hroot
        subst hroot
        have hc0 : ¬ (0 : ℕ) = c := by omega
        rw [List.erase_cons_tail (by simpa using hc0)]
        rfl
    fresh := fun y hy => h.fresh y ((mem y).1 hy).1
    kid := fun y hy' z hz => by
      have hy := ((mem y).1 hy').1
      by_cases hyp : y = p
      · subst hyp
        rw [kp, hsub] at hz
        obtain ⟨h1, h2, h3⟩ := h.kid y hy z hz.1
        exact ⟨(mem z).2 ⟨h1, hz.2⟩, (par z).trans h2, h3⟩
      · rw [ky y hyp] at hz
        obtain ⟨h1, h2, h3⟩ := h.kid y hy z hz
        exact ⟨(mem z).2 ⟨h1, fun e => ckid y hy hyp (e ▸ hz)⟩, (par z).trans h2, h3⟩
    parent := fun y hy hy0 => by
      obtain ⟨hy, hyc⟩ := (mem y).1 hy
      obtain ⟨q, hq, h1, h2⟩ := h.parent y hy hy0
      have hqc : q ≠ c := fun e => by
        rw [e, kc] at h2
        cases h2
      refine ⟨q, (mem q).2 ⟨hq, hqc⟩, (par y).trans h1, ?_⟩
      by_cases hqp : q = p
      · rw [hqp] at h2 ⊢
        rw [kp, hsub]
        exact ⟨h2, hyc⟩
      · rw [ky q hqp]
        exact h2
    parent0 := (par 0).trans h.parent0
    block := fun y hy => by
      have hy := ((mem y).1 hy).1
      by_cases hyp : y = p
      · rw [hyp, kp]
        show ∃ l r, s.nodes.erase c = _
        rw [her]
        exact ⟨l, r, by simp⟩
      · rw [ky y hyp]
        exact hblock _ (ckid y hy hyp) (h.block y hy)
    cfirst := fun y hy => by
      by_cases hyp : y = p
      · rw [hyp, kp, np]
        exact hPc.1
      · rw [ky y hyp, ny y hyp]
        exact h.cfirst y ((mem y).1 hy).1
    clast := fun y hy => by
      by_cases hyp : y = p
      · rw [hyp, kp, np]
        exact hPc.2
      · rw [ky y hyp, ny y hyp]
        exact h.clast y ((mem y).1 hy).1
    nkids := fun y hy => by
      by_cases hyp : y = p
      · rw [hyp, kp, np]
        exact hPs.2.2.2.2.2
      · rw [ky y hyp, ny y hyp]
        exact h.nkids y ((mem y).1 hy).1
    front := by
      by_cases hp0 : p = 0
      · rw [← hp0, kp]
        obtain ⟨l₀, r₀, e₀⟩ := h.front
        rw [← hp0, hk] at e₀
        have e₁ : s.nodes = (l₀ ++ p :: b₁) ++ c :: (b₂ ++ r₀) := by rw [e₀]; simp
        show ∃ l r, s.nodes.erase c = _
        rw [e₁, erase_mid]
        · exact ⟨l₀, r₀, by simp⟩
        · intro h1
          rw [e₁, List.nodup_append] at hd
          exact hd.2.2 c h1 c (by simp) rfl
      · rw [ky 0 (Ne.symm hp0)]
        refine hblock _ ?_ h.front
        rw [List.mem_cons]
        rintro (h1 | h1)
        · omega
        · exact ckid 0 h.zero_mem (Ne.symm hp0) h1
    inodup := h.inodup
    ifresh := h.ifresh
    inner := fun y hy hyk => by
      have hy := ((mem y).1 hy).1
      show A.own y = []
      by_cases hyp : y = p
      · rw [hyp]
        exact h.inner p hp hpk
      · rw [ky y hyp] at hyk
        exact h.inner y hy hyk
    iblock := fun y hy => h.iblock y ((mem y).1 hy).1
    cover := fun i hi => by
      obtain ⟨y, hy, h1⟩ := h.cover i hi
      refine ⟨y, (mem y).2 ⟨hy, fun e => ?_⟩, h1⟩
      rw [e, oc] at h1
      cases h1
    disj := fun y hy z hz => h.disj y ((mem y).1 hy).1 z ((mem z).1 hz).1
    ifirst := fun y hy hyk => by
      have hy := ((mem y).1 hy).1
      show _ = (A.own y).head?
      rw [fir]
      by_cases hyp : y = p
      · subst hyp
        rw [kp] at hyk
        rw [h.inner y hp hpk]
        rcases h.bound y hp hpk with h1 | ⟨z, hz, hc, ho, -⟩
        · exact h1
        · exact (hempty hyk z hz hc ho).elim
      · rw [ky y hyp] at hyk
        exact h.ifirst y hy hyk
    ilast := fun y hy hyk => by
      have hy := ((mem y).1 hy).1
      show _ = (A.own y).getLast?
      rw [las]
      by_cases hyp : y = p
      · subst hyp
        rw [kp] at hyk
        rw [h.inner y hp hpk]
        rcases h.boundL y hp hpk with h1 | ⟨z, hz, hc, ho, -⟩
        · exact h1
        · exact (hempty hyk z hz hc ho).elim
      · rw [ky y hyp] at hyk
        exact h.ilast y hy hyk
    nitems := fun y hy hyk => by
      have hy := ((mem y).1 hy).1
      show _ = ((A.own y).length : ℤ)
      rw [nit]
      by_cases hyp : y = p
      · subst hyp
        rw [kp] at hyk
        rw [h.inner y hp hpk, hcsum, hyk]
        rfl
      · rw [ky y hyp] at hyk
        exact h.nitems y hy hyk
    sum := fun y hy hyk => by
      have hy := ((mem y).1 hy).1
      simp only [nit]
      by_cases hyp : y = p
      · subst hyp
        rw [kp, hcsum]
      · rw [ky y hyp] at hyk ⊢
        exact h.sum y hy hyk
    bound := fun y hy hyk => by
      have hy := ((mem y).1 hy).1
      have hyk' : A.kids y ≠ [] := by
        by_cases hyp : y = p
        · rw [hyp]
          exact hpk
        · rwa [ky y hyp] at hyk
      rw [fir]
      rcases h.bound y hy hyk' with h1 | ⟨z, hz, hc, ho, h1⟩
      · exact .inl h1
      · exact .inr ⟨z, (mem z).2 ⟨hz, fun e => ho (e ▸ oc)⟩, hc.lift id fun a b => hup a b, ho, h1⟩
    boundL := fun y hy hyk => by
      have hy := ((mem y).1 hy).1
      have hyk' : A.kids y ≠ [] := by
        by_cases hyp : y = p
        · rw [hyp]
          exact hpk
        · rwa [ky y hyp] at hyk
      rw [las]
      rcases h.boundL y hy hyk' with h1 | ⟨z, hz, hc, ho, h1⟩
      · exact .inl h1
      · exact .inr ⟨z, (mem z).2 ⟨hz, fun e => ho (e ▸ oc)⟩, hc.lift id fun a b => hup a b, ho, h1⟩ }
  refine ⟨s', _, rfl, R, rfl, rfl, mem, fun y => ?_, fun hb => List.head?_append_of_ne_nil _ hb, fun hb hb' => ?_⟩
  · by_cases hy : y = p
    · rw [hy, np]
      exact hPs.2.2.2.2.1
    · rw [ny y hy]
  · have := (R.endOf (x := p) ((mem p).2 ⟨hp, hpc⟩) (by rw [kp, hb]; simpa using hb') (l := l) (r := r) (by
      show s.nodes.erase c = _
      rw [kp, her]
      simp)).1
    rw [this, hb, List.nil_append]

end Rep

end Geomc.Tree
