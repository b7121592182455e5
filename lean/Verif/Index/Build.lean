import Verif.Index.Props

/-!
# C80: building a spatial index
-/

namespace Geomc.Index

open Geomc.Vec Geomc.Rect

variable {K : Type} {n : ℕ} {O : Type} [Field K] [LinearOrder K]

theorem partition_nil (h : Helper O K n) (a : Fin n) (pv : K) (lo up : Cell O K n) : partition h a pv [] lo up = (lo, up) := by
  rw [partition]

theorem partition_le (h : Helper O K n) (a : Fin n) (pv : K) (x : O) (rest : List O) (lo up : Cell O K n)
    (hx : ¬ pv < h.point x a) :
    partition h a pv (x :: rest) lo up = partition h a pv rest (lo.1.unionAssign (h.bounds x), lo.2 ++ [x]) up := by
  conv_lhs => rw [partition]
  rw [if_neg hx]

theorem partition_gt_last (h : Helper O K n) (a : Fin n) (pv : K) (x : O) (lo up : Cell O K n) (hx : pv < h.point x a) :
    partition h a pv [x] lo up = (lo, (up.1.unionAssign (h.bounds x), x :: up.2)) := by
  rw [partition, if_pos hx]
  rfl

theorem partition_gt (h : Helper O K n) (a : Fin n) (pv : K) (x y : O) (rest : List O) (lo up : Cell O K n)
    (hx : pv < h.point x a) :
    partition h a pv (x :: (rest ++ [y])) lo up =
      partition h a pv (y :: rest) lo (up.1.unionAssign (h.bounds y), x :: up.2) := by
  conv_lhs => rw [partition]
  rw [if_pos hx]
  have e : (rest ++ [y]).getLast? = some y := by simp
  split
  · rename_i e'
    rw [e] at e'
    cases e'
  · rename_i z e'
    rw [e] at e'
    cases e'
    rw [List.dropLast_concat]

/-- What the partition does for the objects: the lower half has those up to the pivot, the upper half those beyond it, and
the box of the lower half is the one of its objects. -/
theorem partition_spec (h : Helper O K n) (mx lw : K) (a : Fin n) (pv : K) (todo : List O) (lo up : Cell O K n)
    (hb : lo.1 = boundsOf h mx lw lo.2) (hlo : ∀ o ∈ lo.2, h.point o a ≤ pv) (hup : ∀ o ∈ up.2, pv < h.point o a) :
    ((partition h a pv todo lo up).1.2 ++ (partition h a pv todo lo up).2.2).Perm (lo.2 ++ todo ++ up.2) ∧
    (∀ o ∈ (partition h a pv todo lo up).1.2, h.point o a ≤ pv) ∧
    (∀ o ∈ (partition h a pv todo lo up).2.2, pv < h.point o a) ∧
    (partition h a pv todo lo up).1.1 = boundsOf h mx lw (partition h a pv todo lo up).1.2 := by
  generalize hm : todo.length = m
  induction m generalizing todo lo up with
  | zero =>
    rw [List.length_eq_zero_iff] at hm
    subst hm
    rw [partition_nil]
    exact ⟨by simp, hlo, hup, hb⟩
  | succ m ih =>
    obtain ⟨x, rest, rfl⟩ := List.exists_cons_of_length_eq_add_one hm
    rw [List.length_cons, add_left_inj] at hm
    by_cases hx : pv < h.point x a
    · rcases List.eq_nil_or_concat rest with rfl | ⟨rest, y, rfl⟩
      · rw [partition_gt_last h a pv x lo up hx]
        refine ⟨by simp, hlo, ?_, hb⟩
        intro o ho
        rcases List.mem_cons.1 ho with rfl | ho
        · exact hx
        · exact hup o ho
      · rw [List.concat_eq_append] at hm ⊢
        rw [partition_gt h a pv x y rest lo up hx]
        obtain ⟨i1, i2⟩ := ih (y :: rest) lo (up.1.unionAssign (h.bounds y), x :: up.2) hb hlo (by
          intro o ho
          rcases List.mem_cons.1 ho with rfl | ho
          · exact hx
          · exact hup o ho) (by simp at hm ⊢; omega)
        refine ⟨i1.trans ?_, i2⟩
        simp only [List.append_assoc]
        refine List.Perm.append_left _ ?_
        have h1 : (x :: (rest ++ [y])).Perm (y :: rest ++ [x]) := by
          have : (rest ++ [y]).Perm (y :: rest) := List.perm_append_singleton _ _
          exact (this.cons x).trans (List.perm_append_singleton x (y :: rest)).symm
        have := (h1.symm.append_right up.2)
        simpa using this
    · rw [partition_le h a pv x rest lo up hx]
      obtain ⟨i1, i2⟩ := ih rest (lo.1.unionAssign (h.bounds x), lo.2 ++ [x]) up
        (by rw [boundsOf, List.foldl_append, ← boundsOf, hb]; rfl) (by
          intro o ho
          rcases List.mem_append.1 ho with ho | ho
          · exact hlo o ho
          · rw [List.mem_singleton.1 ho]
            exact not_lt.1 hx) hup hm
      exact ⟨i1.trans (by simp), i2⟩

section Build
variable [NeZero n] (h : Helper O K n) (mx lw : K) (par : Params)

theorem split_some (c lo up : Cell O K n) (hs : split h mx lw par c = some (lo, up)) :
    ∃ a pv, chooseSplit h par c = some (a, pv) ∧ (lo.2 ++ up.2).Perm c.2 ∧ (∀ o ∈ lo.2, h.point o a ≤ pv) ∧
      (∀ o ∈ up.2, pv < h.point o a) ∧ lo.1 = boundsOf h mx lw lo.2 := by
  unfold split at hs
  rcases e : chooseSplit h par c with _ | ⟨a, pv⟩
  · rw [e] at hs
    cases hs
  · rw [e] at hs
    obtain ⟨h1, h2, h3, h4⟩ := partition_spec h mx lw a pv c.2 (Box.default mx lw, []) (Box.default mx lw, []) rfl (by simp)
      (by simp)
    simp only [Option.bind_eq_bind, Option.bind_some, Option.some.injEq] at hs
    rw [hs] at h1 h2 h3 h4
    exact ⟨a, pv, rfl, by simpa using h1, h2, h3, h4⟩

theorem set_perm (cs : List (Cell O K n)) (k : ℕ) (c lo up : Cell O K n) (hk : cs[k]? = some c)
    (hp : (lo.2 ++ up.2).Perm c.2) : ((cs.set k lo ++ [up]).flatMap Prod.snd).Perm (cs.flatMap Prod.snd) := by
  obtain ⟨hlt, hc⟩ := List.getElem?_eq_some_iff.1 hk
  rw [List.set_eq_take_append_cons_drop, if_pos hlt]
  have e : cs = cs.take k ++ c :: cs.drop (k + 1) := by
    conv_lhs => rw [← List.take_append_drop k cs, List.drop_eq_getElem_cons hlt, hc]
  conv_rhs => rw [e]
  simp only [List.flatMap_append, List.flatMap_cons, List.flatMap_nil, List.append_nil, List.append_assoc]
  refine List.Perm.append_left _ ?_
  have h1 : (lo.2 ++ ((cs.drop (k + 1)).flatMap Prod.snd ++ up.2)).Perm (lo.2 ++ up.2 ++ (cs.drop (k + 1)).flatMap Prod.snd) := by
    rw [List.append_assoc]
    exact List.Perm.append_left _ List.perm_append_comm
  exact h1.trans (hp.append_right _)

theorem splitLoop_perm (f : ℕ) (cs out : List (Cell O K n)) (k : ℕ) (hs : splitLoop h mx lw par f cs k = some out) :
    (out.flatMap Prod.snd).Perm (cs.flatMap Prod.snd) := by
  induction f generalizing cs k with
  | zero =>
    cases hs
    exact List.Perm.refl _
  | succ f ih =>
    rw [splitLoop] at hs
    by_cases hl : cs.length < par.nodeArity
    · rw [if_pos hl] at hs
      rcases e : cs[k]? with _ | c
      · rw [e] at hs
        cases hs
        exact List.Perm.refl _
      · rw [e] at hs
        simp only at hs
        by_cases hc : par.leafArity < c.2.length
        · rw [if_pos hc] at hs
          rcases e' : split h mx lw par c with _ | ⟨lo, up⟩
          · rw [e'] at hs
            cases hs
          · rw [e'] at hs
            obtain ⟨_, _, -, hp, -⟩ := split_some h mx lw par c lo up e'
            exact (ih _ _ hs).trans (set_perm cs k c lo up e hp)
        · rw [if_neg hc] at hs
          exact ih _ _ hs
    · rw [if_neg hl] at hs
      cases hs
      exact List.Perm.refl _

/-- No leaf has more than `m` objects. -/
def LeavesLe (m : ℕ) : (d : ℕ) → Kd O K n d → Prop
  | 0, l => l.length ≤ m
  | _ + 1, .inl l => l.length ≤ m
  | d + 1, .inr kids => ∀ c ∈ kids, LeavesLe m d c.2

theorem mapM_spec {A B : Type} (f : A → Option B) (P : A → B → Prop) (l : List A) (out : List B)
    (hm : l.mapM f = some out) (hP : ∀ a ∈ l, ∀ b, f a = some b → P a b) : List.Forall₂ P l out := by
  induction l generalizing out with
  | nil =>
    cases hm
    exact .nil
  | cons a l ih =>
    rw [List.mapM_cons] at hm
    rcases e : f a with _ | b
    · rw [e] at hm
      cases hm
    · rw [e] at hm
      rcases e' : l.mapM f with _ | bs
      · rw [e'] at hm
        cases hm
      · rw [e'] at hm
        cases hm
        exact .cons (hP a (by simp) b e) (ih bs e' fun a ha => hP a (by simp [ha]))

theorem build_spec (d : ℕ) (c : Cell O K n) (t : Kd O K n d) (hb : build h mx lw par d c = some t) :
    (objs d t).Perm c.2 ∧ LeavesLe par.leafArity d t := by
  induction d generalizing c with
  | zero =>
    rw [build] at hb
    split_ifs at hb with hl
    cases hb
    exact ⟨List.Perm.refl _, not_lt.1 hl⟩
  | succ d ih =>
    rw [build] at hb
    by_cases hl : par.leafArity < c.2.length
    · rw [if_pos hl] at hb
      rcases e : splitLoop h mx lw par par.nodeArity [c] 0 with _ | cs
      · rw [e] at hb
        cases hb
      · rw [e] at hb
        simp only [Option.bind_eq_bind, Option.bind_some] at hb
        rcases e' : cs.mapM (fun c => (build h mx lw par d c).map fun t => (c.1, t)) with _ | kids
        · rw [e'] at hb
          cases hb
        · rw [e'] at hb
          cases hb
          have hF := mapM_spec _ (fun (c : Cell O K n) (x : Box K n × Kd O K n d) =>
            (objs d x.2).Perm c.2 ∧ LeavesLe par.leafArity d x.2) cs kids e' (by
              intro c _ x hx
              rw [Option.map_eq_some_iff] at hx
              obtain ⟨t, ht, rfl⟩ := hx
              exact ih c t ht)
          have hp := splitLoop_perm h mx lw par _ _ _ _ e
          rw [List.flatMap_cons, List.flatMap_nil, List.append_nil] at hp
          refine ⟨List.Perm.trans ?_ hp, ?_⟩
          · show (kids.flatMap fun c => objs d c.2).Perm _
            clear e e' hp
            induction hF with
            | nil => exact List.Perm.refl _
            | cons hab _ ih =>
              rw [List.flatMap_cons, List.flatMap_cons]
              exact hab.1.append ih
          · show ∀ x ∈ kids, LeavesLe par.leafArity d x.2
            clear e e' hp
            induction hF with
            | nil => simp
            | cons hab _ ih =>
              intro x hx
              rcases List.mem_cons.1 hx with rfl | hx
              · exact hab.2
              · exact ih x hx
    · rw [if_neg hl] at hb
      cases hb
      exact ⟨List.Perm.refl _, not_lt.1 hl⟩

/-- **C80** (partial: the boxes are wrong, see below): a tree that is built has each object once, and no leaf has more objects
than it should. -/
theorem C80_objects_partial (l : List O) (d : ℕ) (t : Kd O K n d) (hb : construct h mx lw par l d = some t) :
    (objs d t).Perm l ∧ LeavesLe par.leafArity d t :=
  build_spec h mx lw _ d _ t hb

/-- A node that does not fit in a leaf and cannot be split makes no tree. -/
theorem build_stuck (P : Cell O K n → Prop) (hP : ∀ c, P c → par.leafArity < c.2.length)
    (hs : ∀ c, P c → ∀ lo up, split h mx lw par c = some (lo, up) → P lo ∨ P up) (d : ℕ) (c : Cell O K n) (hc : P c) :
    build h mx lw par d c = none := by
  have hset : ∀ (f : ℕ) (cs out : List (Cell O K n)) (k : ℕ), (∃ c ∈ cs, P c) → splitLoop h mx lw par f cs k = some out →
      ∃ c ∈ out, P c := by
    intro f
    induction f with
    | zero =>
      intro cs out k hcs ho
      cases ho
      exact hcs
    | succ f ih =>
      intro cs out k hcs ho
      rw [splitLoop] at ho
      by_cases hl : cs.length < par.nodeArity
      · rw [if_pos hl] at ho
        rcases e : cs[k]? with _ | c
        · rw [e] at ho
          cases ho
          exact hcs
        · rw [e] at ho
          simp only at ho
          by_cases hcl : par.leafArity < c.2.length
          · rw [if_pos hcl] at ho
            rcases e' : split h mx lw par c with _ | ⟨lo, up⟩
            · rw [e'] at ho
              cases ho
            · rw [e'] at ho
              refine ih _ _ _ ?_ ho
              obtain ⟨hlt, hck⟩ := List.getElem?_eq_some_iff.1 e
              obtain ⟨c', hc', hPc⟩ := hcs
              by_cases hcc : P c
              · rcases hs c hcc lo up e' with hh | hh
                · exact ⟨lo, List.mem_append_left _ (List.mem_set hlt lo), hh⟩
                · exact ⟨up, by simp, hh⟩
              · obtain ⟨j, hj, rfl⟩ := List.getElem_of_mem hc'
                have hjk : j ≠ k := by
                  rintro rfl
                  exact hcc (hck ▸ hPc)
                refine ⟨cs[j], List.mem_append_left _ ?_, hPc⟩
                rw [List.mem_iff_getElem]
                exact ⟨j, by simpa using hj, by rw [List.getElem_set_of_ne (Ne.symm hjk)]⟩
          · rw [if_neg hcl] at ho
            exact ih _ _ _ hcs ho
      · rw [if_neg hl] at ho
        cases ho
        exact hcs
  induction d generalizing c with
  | zero => rw [build, if_pos (hP c hc)]
  | succ d ih =>
    rw [build, if_pos (hP c hc)]
    rcases e : splitLoop h mx lw par par.nodeArity [c] 0 with _ | cs
    · rfl
    · obtain ⟨c', hc', hPc⟩ := hset _ _ _ _ ⟨c, by simp, hc⟩ e
      simp only [Option.bind_eq_bind, Option.bind_some]
      have : cs.mapM (fun c => (build h mx lw par d c).map fun t => (c.1, t)) = none := by
        rcases e2 : cs.mapM (fun c => (build h mx lw par d c).map fun t => (c.1, t)) with _ | ks
        · rfl
        · have hF := mapM_spec _ (fun (c : Cell O K n) (_ : Box K n × Kd O K n d) => ¬ P c) cs ks e2 (by
            intro c _ x hx hPc
            rw [ih c hPc] at hx
            cases hx)
          obtain ⟨j, hj, rfl⟩ := List.getElem_of_mem hc'
          exact absurd hPc (List.forall₂_iff_get.1 hF |>.2 j hj (by rw [← hF.length_eq]; exact hj))
      rw [this]
      rfl

/-- **C80** is refuted for all ways of choosing the axis and the pivot but one, the default among them: as soon as the objects
do not fit in one leaf, the variable `pivot` is read before it is set. -/
theorem C80_pivot_refuted (l : List O) (hpar : ¬ (par.pivot = .mean ∧ par.axis = .highestVariance))
    (hl : par.leafArity < l.length) (d : ℕ) : construct h mx lw par l d = none := by
  refine build_stuck h mx lw { par with nodeArity := min par.nodeArity 16 } (fun c => par.leafArity < c.2.length)
    (fun _ hc => hc) ?_ d (boundsOf h mx lw l, l) hl
  intro c _ lo up hs
  obtain ⟨a, pv, e, -⟩ := split_some h mx lw _ c lo up hs
  unfold chooseSplit at e
  split at e
  · rename_i h1 h2
    exact absurd ⟨h1, h2⟩ hpar
  · cases e

/-- **C80** is refuted for objects all in one place, more than fit in a leaf: every split leaves them together, and the
recursion does not end. -/
theorem C80_same_refuted (l : List O) (x : Fin n → K) (hx : ∀ o ∈ l, h.point o = x) (hl : par.leafArity < l.length)
    (d : ℕ) : construct h mx lw par l d = none := by
  refine build_stuck h mx lw { par with nodeArity := min par.nodeArity 16 }
    (fun c => par.leafArity < c.2.length ∧ ∀ o ∈ c.2, h.point o = x) (fun _ hc => hc.1) ?_ d (boundsOf h mx lw l, l) ⟨hl, hx⟩
  rintro c ⟨hc, hcx⟩ lo up hs
  obtain ⟨a, pv, -, hp, h1, h2, -⟩ := split_some h mx lw _ c lo up hs
  have hmem : ∀ o ∈ lo.2 ++ up.2, h.point o = x := fun o ho => hcx o (hp.mem_iff.1 ho)
  have hlen := hp.length_eq
  rw [List.length_append] at hlen
  by_cases hpx : pv < x a
  · right
    have : lo.2 = [] := by
      rcases e : lo.2 with _ | ⟨o, _⟩
      · rfl
      · have ho : o ∈ lo.2 := by simp [e]
        have := h1 o ho
        rw [hmem o (List.mem_append_left _ ho)] at this
        exact absurd hpx this.not_gt
    rw [this, List.length_nil, zero_add] at hlen
    exact ⟨by rw [hlen]; exact hc, fun o ho => hmem o (List.mem_append_right _ ho)⟩
  · left
    have : up.2 = [] := by
      rcases e : up.2 with _ | ⟨o, _⟩
      · rfl
      · have ho : o ∈ up.2 := by simp [e]
        have := h2 o ho
        rw [hmem o (List.mem_append_right _ ho)] at this
        exact absurd this hpx
    rw [this, List.length_nil, add_zero] at hlen
    exact ⟨by rw [hlen]; exact hc, fun o ho => hmem o (List.mem_append_left _ ho)⟩

/-- **C80** is refuted for nodes allowed only one child: the child is the node again. -/
theorem C80_arity_refuted (l : List O) (hpar : par.nodeArity ≤ 1) (hl : par.leafArity < l.length) (d : ℕ) :
    construct h mx lw par l d = none := by
  have key : ∀ (d : ℕ) (c : Cell O K n), par.leafArity < c.2.length →
      build h mx lw { par with nodeArity := min par.nodeArity 16 } d c = none := by
    intro d
    induction d with
    | zero =>
      intro c hc
      rw [build, if_pos hc]
    | succ d ih =>
      intro c hc
      have e : splitLoop h mx lw { par with nodeArity := min par.nodeArity 16 } (min par.nodeArity 16) [c] 0 = some [c] := by
        rcases Nat.le_one_iff_eq_zero_or_eq_one.1 hpar with e | e <;> simp [e, splitLoop]
      rw [build, if_pos hc]
      simp only [e, Option.bind_eq_bind, Option.bind_some, List.mapM_cons, ih c hc]
      rfl
  exact key d _ hl

section Choice

variable [IsStrictOrderedRing K]

omit [LinearOrder K] [NeZero n] [IsStrictOrderedRing K] in
theorem pointSum_apply (l : List O) (i : Fin n) : pointSum h l i = (l.map fun o => h.point o i).sum := by
  have : ∀ m : Fin n → K, l.foldl (fun m o => m + h.point o) m i = m i + (l.map fun o => h.point o i).sum := by
    induction l with
    | nil => intro m; simp
    | cons o l ih =>
      intro m
      rw [List.foldl_cons, ih, List.map_cons, List.sum_cons, Pi.add_apply, add_assoc]
  unfold pointSum
  rw [this, Pi.zero_apply, zero_add]

omit [LinearOrder K] [NeZero n] [IsStrictOrderedRing K] in
theorem spread_apply (l : List O) (i : Fin n) : spread h l i =
    (l.map fun o => (h.point o i - (l.map fun o => h.point o i).sum) ^ 2).sum / ((max 1 (l.length - 1) : ℕ) : K) := by
  have : ∀ (t : List O) (m : Fin n → K) (v : K), t.foldl (fun v o => v + (h.point o - m) i * (h.point o - m) i) v =
      v + (t.map fun o => (h.point o i - m i) ^ 2).sum := by
    intro t m
    induction t with
    | nil => intro v; simp
    | cons o t ih =>
      intro v
      rw [List.foldl_cons, ih, List.map_cons, List.sum_cons, Pi.sub_apply, ← sq, add_assoc]
  unfold spread
  rw [this, zero_add, pointSum_apply]

omit [Field K] [IsStrictOrderedRing K] in
theorem biggestAxis_spec (dim : Fin n → K) : (∀ i, dim i ≤ dim (biggestAxis dim)) ∧
    ∀ i, i < biggestAxis dim → dim i < dim (biggestAxis dim) := by
  have key : ∀ (t : List (Fin n)) (a : Fin n), t.Pairwise (· < ·) → (∀ i ∈ t, a ≤ i) →
      (dim a ≤ dim (t.foldl (fun a i => if dim a < dim i then i else a) a)) ∧
      (∀ i ∈ t, dim i ≤ dim (t.foldl (fun a i => if dim a < dim i then i else a) a)) ∧
      (∀ i, (i ∈ t ∨ i = a) → i < t.foldl (fun a i => if dim a < dim i then i else a) a →
        dim i < dim (t.foldl (fun a i => if dim a < dim i then i else a) a)) := by
    intro t
    induction t with
    | nil =>
      intro a _ _
      refine ⟨le_rfl, by simp, ?_⟩
      rintro i (h | rfl) h2
      · simp at h
      · exact absurd h2 (lt_irrefl _)
    | cons b t ih =>
      intro a hp ha
      rw [List.pairwise_cons] at hp
      rw [List.foldl_cons]
      by_cases hd : dim a < dim b
      · rw [if_pos hd]
        obtain ⟨h1, h2, h3⟩ := ih b hp.2 fun i hi => (hp.1 i hi).le
        refine ⟨hd.le.trans h1, ?_, ?_⟩
        · intro i hi
          rcases List.mem_cons.1 hi with rfl | hi
          · exact h1
          · exact h2 i hi
        · rintro i (hi | rfl) h4
          · rcases List.mem_cons.1 hi with rfl | hi
            · exact h3 _ (Or.inr rfl) h4
            · exact h3 i (Or.inl hi) h4
          · exact lt_of_lt_of_le hd h1
      · rw [if_neg hd]
        obtain ⟨h1, h2, h3⟩ := ih a hp.2 fun i hi => ha i (List.mem_cons_of_mem _ hi)
        refine ⟨h1, ?_, ?_⟩
        · intro i hi
          rcases List.mem_cons.1 hi with rfl | hi
          · exact (not_lt.1 hd).trans h1
          · exact h2 i hi
        · rintro i (hi | rfl) h4
          · rcases List.mem_cons.1 hi with rfl | hi
            · rcases (ha i (List.mem_cons_self ..)).eq_or_lt with e | e
              · subst e
                exact h3 _ (Or.inr rfl) h4
              · exact lt_of_le_of_lt (not_lt.1 hd) (h3 a (Or.inr rfl) (e.trans h4))
            · exact h3 i (Or.inl hi) h4
          · exact h3 i (Or.inr rfl) h4
  obtain ⟨-, h2, h3⟩ := key (List.finRange n) 0 (List.pairwise_lt_finRange n) fun i _ => Fin.zero_le i
  exact ⟨fun i => h2 i (List.mem_finRange i), fun i => h3 i (Or.inl (List.mem_finRange i))⟩

/-- **C80.** How a node is divided: along the first axis with the largest sum of squared distances to the *sum* of the
coordinates, into the objects up to that sum and those beyond it. (The mean was meant.) -/
theorem C80_split (hp : par.pivot = .mean) (ha : par.axis = .highestVariance) (c : Cell O K n) :
    ∃ (a : Fin n) (lo up : Cell O K n), split h mx lw par c = some (lo, up) ∧ (lo.2 ++ up.2).Perm c.2 ∧
      (∀ o ∈ lo.2, h.point o a ≤ (c.2.map fun o => h.point o a).sum) ∧
      (∀ o ∈ up.2, (c.2.map fun o => h.point o a).sum < h.point o a) ∧
      (∀ i, (c.2.map fun o => (h.point o i - (c.2.map fun o => h.point o i).sum) ^ 2).sum ≤
        (c.2.map fun o => (h.point o a - (c.2.map fun o => h.point o a).sum) ^ 2).sum) ∧
      ∀ i < a, (c.2.map fun o => (h.point o i - (c.2.map fun o => h.point o i).sum) ^ 2).sum <
        (c.2.map fun o => (h.point o a - (c.2.map fun o => h.point o a).sum) ^ 2).sum := by
  have e : chooseSplit h par c = some (biggestAxis (spread h c.2), pointSum h c.2 (biggestAxis (spread h c.2))) := by
    unfold chooseSplit
    rw [hp, ha]
  rcases hs : split h mx lw par c with _ | ⟨lo, up⟩
  · rw [split, e] at hs
    cases hs
  obtain ⟨a, pv, e', h1, h2, h3, -⟩ := split_some h mx lw par c lo up hs
  rw [e] at e'
  obtain ⟨rfl, rfl⟩ := Prod.mk.inj (Option.some.inj e')
  obtain ⟨h4, h5⟩ := biggestAxis_spec (spread h c.2)
  have hpos : (0 : K) < ((max 1 (c.2.length - 1) : ℕ) : K) := Nat.cast_pos.2 (lt_of_lt_of_le one_pos (le_max_left _ _))
  generalize biggestAxis (spread h c.2) = a at h2 h3 h4 h5 ⊢
  simp only [spread_apply] at h4 h5
  rw [pointSum_apply] at h2 h3
  exact ⟨a, lo, up, rfl, h1, h2, h3, fun i => (div_le_div_iff_of_pos_right hpos).1 (h4 i),
    fun i hi => (div_lt_div_iff_of_pos_right hpos).1 (h5 i hi)⟩

omit [NeZero n] in
theorem le_pointSum (l : List O) (i : Fin n) (h0 : ∀ o ∈ l, 0 ≤ h.point o i) (o : O) (ho : o ∈ l) :
    h.point o i ≤ (l.map fun o => h.point o i).sum := by
  refine List.single_le_sum ?_ _ (List.mem_map_of_mem ho)
  intro x hx
  obtain ⟨o, ho, rfl⟩ := List.mem_map.1 hx
  exact h0 o ho

/-- **C80** is refuted for all objects without negative coordinates, more than fit in a leaf: the sum of the coordinates
is not exceeded by any of them, so that no split separates objects, and the recursion does not end. -/
theorem C80_nonneg_refuted (l : List O) (hx : ∀ o ∈ l, ∀ i, 0 ≤ h.point o i) (hl : par.leafArity < l.length) (d : ℕ) :
    construct h mx lw par l d = none := by
  by_cases hpar : par.pivot = .mean ∧ par.axis = .highestVariance
  · refine build_stuck h mx lw { par with nodeArity := min par.nodeArity 16 }
      (fun c => par.leafArity < c.2.length ∧ ∀ o ∈ c.2, ∀ i, 0 ≤ h.point o i) (fun _ hc => hc.1) ?_ d
      (boundsOf h mx lw l, l) ⟨hl, hx⟩
    rintro c ⟨hc, hcx⟩ lo up hs
    left
    obtain ⟨a, lo', up', hs', hp, -, h3, -⟩ := C80_split h mx lw { par with nodeArity := min par.nodeArity 16 }
      hpar.1 hpar.2 c
    rw [hs] at hs'
    obtain ⟨rfl, rfl⟩ := Prod.mk.inj (Option.some.inj hs')
    have hup : up.2 = [] := by
      rcases e : up.2 with _ | ⟨o, t⟩
      · rfl
      · have ho : o ∈ up.2 := by rw [e]; exact List.mem_cons_self ..
        have h4 := h3 o ho
        have h5 := le_pointSum h c.2 a (fun o ho => hcx o ho a) o (hp.mem_iff.1 (List.mem_append_right _ ho))
        exact absurd h4 (not_lt.2 h5)
    rw [hup, List.append_nil] at hp
    exact ⟨by rw [hp.length_eq]; exact hc, fun o ho => hcx o (hp.mem_iff.1 ho)⟩
  · exact C80_pivot_refuted h mx lw par l hpar hl d

end Choice

end Build

/-! A tree whose second box is wrong: of the points 3, -1, -2 the first goes to the upper half, but the box of that half is made
of the last point, which is swapped with it. -/

/-- The only choice that does not read an uninitialised variable. -/
def varMean (nodes leaves : ℕ) : Params := ⟨.highestVariance, .mean, nodes, leaves⟩

def threePoints : List (Fin 1 → ℚ) := [![3], ![-1], ![-2]]

theorem threePoints_build : construct vecHelper (1000 : ℚ) (-1000) (varMean 2 2) threePoints 1 =
    some (.inr [(⟨![-2], ![-1]⟩, [![-2], ![-1]]), (⟨![-2], ![-2]⟩, [![3]])]) := by
  have h1 : chooseSplit vecHelper (varMean 2 2) (boundsOf vecHelper (1000 : ℚ) (-1000) threePoints, threePoints) =
      some (0, 0) := by decide +kernel
  have h2 : partition vecHelper (0 : Fin 1) (0 : ℚ) threePoints (Box.default 1000 (-1000), []) (Box.default 1000 (-1000), []) =
      ((⟨![-2], ![-1]⟩, [![-2], ![-1]]), (⟨![-2], ![-2]⟩, [![3]])) := by
    have e : threePoints = ![3] :: ([![-1]] ++ [![-2]]) := rfl
    rw [e, partition_gt _ _ _ _ _ _ _ _ (by decide +kernel), partition_le _ _ _ _ _ _ _ (by decide +kernel),
      partition_le _ _ _ _ _ _ _ (by decide +kernel), partition_nil]
    decide +kernel
  have h3 : split vecHelper (1000 : ℚ) (-1000) (varMean 2 2) (boundsOf vecHelper (1000 : ℚ) (-1000) threePoints, threePoints) =
      some ((⟨![-2], ![-1]⟩, [![-2], ![-1]]), (⟨![-2], ![-2]⟩, [![3]])) := by
    rw [split, h1]
    simp only [Option.bind_eq_bind, Option.bind_some, h2]
  have h4 : splitLoop vecHelper (1000 : ℚ) (-1000) (varMean 2 2) 2
      [(boundsOf vecHelper (1000 : ℚ) (-1000) threePoints, threePoints)] 0 =
      some [(⟨![-2], ![-1]⟩, [![-2], ![-1]]), (⟨![-2], ![-2]⟩, [![3]])] := by
    rw [splitLoop, if_pos (by decide)]
    simp only [List.getElem?_cons_zero]
    rw [if_pos (by decide), h3]
    rfl
  show build vecHelper (1000 : ℚ) (-1000) (varMean 2 2) 1 (boundsOf vecHelper (1000 : ℚ) (-1000) threePoints, threePoints) = _
  rw [build, if_pos (by decide)]
  show (splitLoop vecHelper (1000 : ℚ) (-1000) (varMean 2 2) 2 _ 0).bind _ = _
  rw [h4]
  rfl

/-- **C80** is refuted: the search for a point of the tree finds another. -/
theorem C80_nearest_refuted : ∃ (t : Kd (Fin 1 → ℚ) ℚ 1 1),
    construct vecHelper (1000 : ℚ) (-1000) (varMean 2 2) threePoints 1 = some t ∧ ![3] ∈ objs 1 t ∧
    nearest vecHelper 1000 ![3] 1 t = some ![-1] :=
  ⟨_, threePoints_build, by decide +kernel, by decide +kernel⟩

/-! With its own box the search succeeds. -/

def goodTree : Kd (Fin 1 → ℚ) ℚ 1 1 := .inr [(⟨![-2], ![-1]⟩, [![-2], ![-1]]), (⟨![3], ![3]⟩, [![3]])]

theorem goodTree_boxed (p : Fin 1 → ℚ) : WellBoxed vecHelper 1000 p 1 goodTree := by
  refine ⟨by decide, ?_⟩
  intro c hc
  simp only [List.mem_cons, List.not_mem_nil, or_false] at hc
  refine ⟨?_, trivial⟩
  rcases hc with rfl | rfl
  · refine ⟨fun h => absurd h (List.cons_ne_nil _ _), ?_, fun _ => ?_⟩
    · show ∀ o ∈ [![-2], ![-1]], _
      simp [vecHelper, Box.point]
    · show ∀ i, (∃ o ∈ [![-2], ![-1]], _) ∧ ∃ o ∈ [![-2], ![-1]], _
      simp [vecHelper, Box.point]
  · refine ⟨fun h => absurd h (List.cons_ne_nil _ _), ?_, fun _ => ?_⟩
    · show ∀ o ∈ [![3]], _
      simp [vecHelper, Box.point]
    · show ∀ i, (∃ o ∈ [![3]], _) ∧ ∃ o ∈ [![3]], _
      simp [vecHelper, Box.point]

example : ∃ o ∈ objs 1 goodTree, nearest vecHelper 1000 ![3] 1 goodTree = some o ∧
    ∀ o' ∈ objs 1 goodTree, vecHelper.dist2 o ![3] ≤ vecHelper.dist2 o' ![3] :=
  C59_nearest vecHelper (fun v => {v}) 1000 ![3] 1 goodTree (fun o _ => vec_regular _ o) (goodTree_boxed _)
    ⟨![3], by decide +kernel, by decide +kernel⟩

example : nearest vecHelper 1000 ![3] 1 goodTree = some ![3] ∧ nearest vecHelper 1000 ![-4] 1 goodTree = some ![-2] := by
  decide +kernel

example : worstCase (1000 : ℚ) ![0, 0] ⟨![1, 2], ![3, 4]⟩ = 13 ∧ (⟨![1, 2], ![3, 4]⟩ : Box ℚ 2).dist2 ![0, 0] = 5 := by
  decide +kernel

/-- Along the first of two equally spread axes: of (3,3), (-1,-1), (-2,-2), whose sum is (0,0), the first is moved up. -/
example : chooseSplit vecHelper (varMean 2 2) (Box.default 1000 (-1000), [![3, 3], ![-1, -1], ![(-2 : ℚ), -2]]) =
    some (0, 0) := by decide +kernel

/-- Two different points on the positive axis make no tree. -/
example (d : ℕ) : construct vecHelper (1000 : ℚ) (-1000) (varMean 2 1) [![1], ![2]] d = none :=
  C80_nonneg_refuted _ _ _ _ _ (by decide +kernel) (by decide) d

end Geomc.Index
