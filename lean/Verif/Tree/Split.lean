import Mathlib.Logic.Equiv.Basic
import Mathlib.Data.List.Perm.Basic
import Mathlib.Data.List.Nodup
import Verif.Tree.Items

/-!
# Splitting leaves, and erasing them
-/

namespace Geomc.Tree

variable {D I : Type}

/-! ## The loop of `split` -/

theorem splitLoop_succ (items : List ℕ) (lt : I → Bool) (f : ℕ) (i hiF loF loL : Option ℕ) (k : ℤ) (val : ℕ → I) :
    splitLoop items lt (f + 1) i hiF loF loL k val =
    if i = prev items hiF then some (hiF, loF, loL, k, val) else
    match i with
    | none => none
    | some j =>
      if lt (val j) then
        match hiF with
        | none => none
        | some h => splitLoop items lt f (some j) (next items h) (if k = 0 then some h else loF) (some h) (k + 1)
            (Function.update (Function.update val j (val h)) h (val j))
      else splitLoop items lt f (prev items (some j)) hiF loF loL k val := by
  rw [splitLoop.eq_def]
  rfl

theorem swap_perm {b : List ℕ} (hb : b.Nodup) {j h : ℕ} (hj : j ∈ b) (hh : h ∈ b) (val : ℕ → I) :
    (b.map (Function.update (Function.update val j (val h)) h (val j))).Perm (b.map val) := by
  have h1 : Function.update (Function.update val j (val h)) h (val j) = val ∘ Equiv.swap h j := by
    funext x
    by_cases hx : x = h
    · subst hx
      simp
    · by_cases hxj : x = j
      · subst hxj
        rw [Function.update_of_ne hx, Function.update_self, Function.comp_apply, Equiv.swap_apply_right]
      · rw [Function.update_of_ne hx, Function.update_of_ne hxj, Function.comp_apply, Equiv.swap_apply_of_ne_of_ne hx hxj]
  rw [h1, ← List.map_map]
  refine List.Perm.map _ ?_
  refine (List.perm_ext_iff_of_nodup (hb.map (Equiv.swap h j).injective) hb).2 fun a => ?_
  rw [List.mem_map]
  have key : ∀ a ∈ b, Equiv.swap h j a ∈ b := by
    intro a ha
    by_cases h2 : a = h
    · rw [h2, Equiv.swap_apply_left]
      exact hj
    · by_cases h3 : a = j
      · rw [h3, Equiv.swap_apply_right]
        exact hh
      · rw [Equiv.swap_apply_of_ne_of_ne h2 h3]
        exact ha
  constructor
  · rintro ⟨c, hc, rfl⟩
    exact key c hc
  · intro ha
    exact ⟨_, key a ha, Equiv.swap_apply_self h j a⟩

/-- The loop cuts the items of the leaf in two: those below the pivot, and the others. -/
theorem splitLoop_spec {l r : List ℕ} (lt : I → Bool) (lo mid hi : List ℕ) (hd : (l ++ (lo ++ mid ++ hi) ++ r).Nodup) (f : ℕ)
    (hf : mid.length < f) (val : ℕ → I) (hlo : ∀ i ∈ lo, lt (val i) = true) (hhi : ∀ i ∈ hi, lt (val i) = false) :
    ∃ u w val', lo ++ mid ++ hi = u ++ w ∧
      splitLoop (l ++ (lo ++ mid ++ hi) ++ r) lt f (l ++ lo ++ mid).getLast? (mid ++ hi ++ r).head? lo.head? lo.getLast? lo.length val =
        some ((w ++ r).head?, u.head?, u.getLast?, (u.length : ℤ), val') ∧
      (∀ i ∈ u, lt (val' i) = true) ∧ (∀ i ∈ w, lt (val' i) = false) ∧
      ((lo ++ mid ++ hi).map val').Perm ((lo ++ mid ++ hi).map val) ∧ ∀ i, i ∉ lo ++ mid ++ hi → val' i = val i := by
  induction f generalizing lo mid hi val with
  | zero => omega
  | succ f ih =>
    have hprev : prev (l ++ (lo ++ mid ++ hi) ++ r) (mid ++ hi ++ r).head? = (l ++ lo).getLast? := by
      have h1 : l ++ (lo ++ mid ++ hi) ++ r = (l ++ lo) ++ (mid ++ hi ++ r) := by simp
      rw [h1] at hd ⊢
      exact prev_head hd
    rw [splitLoop_succ, hprev]
    rcases List.eq_nil_or_concat mid with h0 | ⟨m', j, h0⟩
    · subst h0
      rw [if_pos (by rw [List.append_nil])]
      exact ⟨lo, hi, val, by simp, by simp, hlo, hhi, List.Perm.refl _, fun _ _ => rfl⟩
    · rw [List.concat_eq_append] at h0
      have hlast : (l ++ lo ++ mid).getLast? = some j := by
        rw [h0]
        simp
      have hjm : j ∈ mid := by rw [h0]; simp
      rw [hlast, if_neg]
      swap
      · intro h1
        have h2 : j ∈ l ++ lo := List.mem_of_getLast? h1.symm
        have h3 : l ++ (lo ++ mid ++ hi) ++ r = (l ++ lo) ++ (mid ++ hi ++ r) := by simp
        rw [h3, List.nodup_append] at hd
        exact hd.2.2 j h2 j (by simp [hjm]) rfl
      simp only
      by_cases hl : lt (val j) = true
      · rw [if_pos hl]
        rcases hm : mid with _ | ⟨h, t⟩
        · rw [hm] at hjm
          cases hjm
        · rw [List.cons_append, List.cons_append, List.head?_cons]
          simp only
          rw [hm] at hd
          have e1 : lo ++ h :: t ++ hi = (lo ++ [h]) ++ t ++ hi := by simp
          have hnext : next (l ++ (lo ++ h :: t ++ hi) ++ r) h = (t ++ hi ++ r).head? := by
            have h1 : l ++ (lo ++ h :: t ++ hi) ++ r = (l ++ lo) ++ h :: (t ++ hi ++ r) := by simp
            rw [h1]
            refine next_mid fun h2 => ?_
            rw [h1, List.nodup_append] at hd
            exact hd.2.2 h h2 h (by simp) rfl
          have hjt : j ∈ h :: t := hm ▸ hjm
          have hbn : (lo ++ h :: t ++ hi).Nodup := by
            rw [List.append_assoc, List.nodup_append] at hd
            exact (List.nodup_append.1 hd.2.1).1
          have hj_lo : j ∉ lo := fun h2 => by
            rw [List.append_assoc, List.nodup_append] at hbn
            exact hbn.2.2 j h2 j (List.mem_append_left _ hjt) rfl
          have hh_lo : h ∉ lo := fun h2 => by
            rw [List.append_assoc, List.nodup_append] at hbn
            exact hbn.2.2 h h2 h (by simp) rfl
          have hj_hi : j ∉ hi := fun h2 => by
            rw [List.nodup_append] at hbn
            exact hbn.2.2 j (List.mem_append_right _ hjt) j h2 rfl
          have hh_hi : h ∉ hi := fun h2 => by
            rw [List.nodup_append] at hbn
            exact hbn.2.2 h (by simp) h h2 rfl
          have keep : ∀ i, i ≠ j → i ≠ h → Function.update (Function.update val j (val h)) h (val j) i = val i := by
            intro i h1 h2
            rw [Function.update_of_ne h2, Function.update_of_ne h1]
          obtain ⟨u, w, val', g1, g2, g3, g4, g5, g6⟩ := ih (lo ++ [h]) t hi (by rw [← e1]; exact hd)
            (by rw [hm, List.length_cons] at hf; omega) (Function.update (Function.update val j (val h)) h (val j))
            (by
              intro i hi
              rcases List.mem_append.1 hi with h1 | h1
              · rw [keep i (fun e => hj_lo (e ▸ h1)) (fun e => hh_lo (e ▸ h1))]
                exact hlo i h1
              · rw [List.mem_singleton] at h1
                rw [h1, Function.update_self]
                exact hl)
            (by
              intro i h1
              rw [keep i (fun e => hj_hi (e ▸ h1)) (fun e => hh_hi (e ▸ h1))]
              exact hhi i h1)
          rw [← e1] at g1 g2 g5 g6
          have c1 : (l ++ (lo ++ [h]) ++ t).getLast? = some j := by
            have : l ++ (lo ++ [h]) ++ t = l ++ lo ++ (h :: t) := by simp
            rw [this, ← hm, hlast]
          have c2 : (lo ++ [h]).head? = if (lo.length : ℤ) = 0 then some h else lo.head? := by
            rcases lo with _ | ⟨a, lo⟩
            · rfl
            · rw [if_neg (by simp only [List.length_cons]; push_cast; omega)]
              rfl
          have c3 : (lo ++ [h]).getLast? = some h := by simp
          have c4 : ((lo ++ [h]).length : ℤ) = lo.length + 1 := by
            simp
          rw [c1, c2, c3, c4] at g2
          rw [hnext]
          refine ⟨u, w, val', g1, g2, g3, g4, g5.trans (swap_perm hbn ?_ ?_ val), fun i hi' => ?_⟩
          · exact List.mem_append_left _ (List.mem_append_right _ hjt)
          · simp
          · rw [g6 i hi', keep i]
            · intro e
              subst e
              exact hi' (List.mem_append_left _ (List.mem_append_right _ hjt))
            · intro e
              subst e
              exact hi' (by simp)
      · rw [if_neg hl]
        subst h0
        have e1 : lo ++ (m' ++ [j]) ++ hi = lo ++ m' ++ (j :: hi) := by simp
        have e2 : m' ++ [j] ++ hi ++ r = m' ++ (j :: hi) ++ r := by simp
        have hpj : prev (l ++ (lo ++ (m' ++ [j]) ++ hi) ++ r) (some j) = (l ++ lo ++ m').getLast? := by
          have h1 : l ++ (lo ++ (m' ++ [j]) ++ hi) ++ r = (l ++ lo ++ m') ++ j :: (hi ++ r) := by simp
          rw [h1]
          refine prev_mid fun h2 => ?_
          rw [h1, List.nodup_append] at hd
          exact hd.2.2 j h2 j (by simp) rfl
        rw [hpj, e1, e2]
        rw [e1] at hd
        refine ih lo m' (j :: hi) hd (by simp only [List.length_append, List.length_singleton] at hf; omega) val hlo fun i hi' => ?_
        rcases List.mem_cons.1 hi' with h1 | h1
        · rw [h1]
          simpa using hl
        · exact hhi i h1

/-- The tree with a leaf `lo` taking the items `u` of the leaf `x`, which keeps the items `w`. -/
def Abs.cut (A : Abs) (lo x : ℕ) (u w : List ℕ) : Abs where
  kids := A.kids
  own := Function.update (Function.update A.own lo u) x w

namespace Rep

variable {s : St D I} {A : Abs}

/-- Moving items between adjacent leaves. -/
theorem cut (h : Rep s A) {p lo x : ℕ} {u w : List ℕ} (hp : p ∈ s.nodes) (hlo : lo ∈ A.kids p) (hx : x ∈ A.kids p) (hne : lo ≠ x)
    (klo : A.kids lo = []) (kx : A.kids x = []) (olo : A.own lo = []) (ox : A.own x = u ++ w) (val : ℕ → I) {L H : Node D}
    (hL : L = { s.node lo with ifirst := u.head?, ilast := u.getLast?, nitems := u.length })
    (hH : H = { s.node x with ifirst := w.head?, ilast := w.getLast?, nitems := w.length }) :
    Rep { s with node := Function.update (Function.update s.node lo L) x H, val := val } (A.cut lo x u w) := by
  obtain ⟨mlo, plo, -⟩ := h.kid p hp lo hlo
  obtain ⟨mx, px, -⟩ := h.kid p hp x hx
  set s' : St D I := { s with node := Function.update (Function.update s.node lo L) x H, val := val } with hs'
  have nlo : s'.node lo = L := by simp [hs', Function.update_of_ne hne]
  have nx : s'.node x = H := by simp [hs']
  have ny : ∀ y, y ≠ lo → y ≠ x → s'.node y = s.node y := fun y h1 h2 => by
    simp [hs', Function.update_of_ne h1, Function.update_of_ne h2]
  have hol : (A.cut lo x u w).own lo = u := by simp [Abs.cut, Function.update_of_ne hne]
  have hox : (A.cut lo x u w).own x = w := by simp [Abs.cut]
  have hoy : ∀ y, y ≠ lo → y ≠ x → (A.cut lo x u w).own y = A.own y := fun y h1 h2 => by
    simp [Abs.cut, Function.update_of_ne h1, Function.update_of_ne h2]
  have hsame : ∀ y, (s'.node y).parent = (s.node y).parent ∧ (s'.node y).cfirst = (s.node y).cfirst ∧
      (s'.node y).clast = (s.node y).clast ∧ (s'.node y).nkids = (s.node y).nkids := by
    intro y
    by_cases h1 : y = lo
    · rw [h1, nlo, hL]
      exact ⟨rfl, rfl, rfl, rfl⟩
    · by_cases h2 : y = x
      · rw [h2, nx, hH]
        exact ⟨rfl, rfl, rfl, rfl⟩
      · rw [ny y h1 h2]
        exact ⟨rfl, rfl, rfl, rfl⟩
  have hup : ∀ a b, Up s a b → Up s' a b := fun a b hab => by
    rw [Up, (hsame a).1]
    exact hab
  have sub : ∀ i, i ∈ u ∨ i ∈ w → i ∈ A.own x := fun i hi => by
    rw [ox, List.mem_append]
    exact hi
  have hxn : (A.own x).Nodup := h.own_nodup mx
  have below : ∀ y, Relation.TransGen (Up s) x y → Relation.TransGen (Up s') lo y := by
    intro y hc
    obtain ⟨c, h1, h2⟩ := Relation.TransGen.head'_iff.1 hc
    rw [Up, px] at h1
    cases h1
    exact Relation.TransGen.head' (hup _ _ plo) (h2.lift id fun a b => hup a b)
  have three : ∀ y, y = lo ∨ y = x ∨ (y ≠ lo ∧ y ≠ x) := fun y => by tauto
  have ownsub : ∀ y ∈ s.nodes, ∀ i ∈ (A.cut lo x u w).own y, i ∈ A.own (if y = lo then x else y) := by
    intro y hy i hi
    rcases three y with h1 | h1 | ⟨h1, h2⟩
    · rw [if_pos h1]
      rw [h1, hol] at hi
      exact sub i (.inl hi)
    · rw [if_neg (fun e => hne (by rw [← e, h1]))]
      rw [h1, hox] at hi
      rw [h1]
      exact sub i (.inr hi)
    · rw [if_neg h1]
      rwa [hoy y h1 h2] at hi
  exact
  { nodup := h.nodup
    root := h.root
    fresh := h.fresh
    kid := fun y hy c hc => by
      obtain ⟨h1, h2, h3⟩ := h.kid y hy c hc
      exact ⟨h1, (hsame c).1.trans h2, h3⟩
    parent := fun y hy hy0 => by
      obtain ⟨q, hq, h1, h2⟩ := h.parent y hy hy0
      exact ⟨q, hq, (hsame y).1.trans h1, h2⟩
    parent0 := (hsame 0).1.trans h.parent0
    block := h.block
    cfirst := fun y hy => (hsame y).2.1.trans (h.cfirst y hy)
    clast := fun y hy => (hsame y).2.2.1.trans (h.clast y hy)
    nkids := fun y hy => (hsame y).2.2.2.trans (h.nkids y hy)
    front := h.front
    inodup := h.inodup
    ifresh := h.ifresh
    inner := fun y hy hyk => by
      have h1 : y ≠ lo := fun e => hyk (e ▸ klo)
      have h2 : y ≠ x := fun e => hyk (e ▸ kx)
      rw [hoy y h1 h2]
      exact h.inner y hy hyk
    iblock := fun y hy => by
      obtain ⟨l, r, e⟩ := h.iblock x mx
      show ∃ l r, s.items = _
      rcases three y with h1 | h1 | ⟨h1, h2⟩
      · rw [h1, hol]
        exact ⟨l, w ++ r, by rw [e, ox]; simp⟩
      · rw [h1, hox]
        exact ⟨l ++ u, r, by rw [e, ox]; simp⟩
      · rw [hoy y h1 h2]
        exact h.iblock y hy
    cover := fun i hi => by
      obtain ⟨y, hy, hiy⟩ := h.cover i hi
      rcases three y with h1 | h1 | ⟨h1, h2⟩
      · rw [h1, olo] at hiy
        cases hiy
      · rw [h1, ox, List.mem_append] at hiy
        rcases hiy with h2 | h2
        · exact ⟨lo, mlo, by rw [hol]; exact h2⟩
        · exact ⟨x, mx, by rw [hox]; exact h2⟩
      · exact ⟨y, hy, by rw [hoy y h1 h2]; exact hiy⟩
    disj := fun y hy z hz i hiy hiz => by
      have h1 := ownsub y hy i hiy
      have h2 := ownsub z hz i hiz
      have hm : ∀ y, y ∈ s.nodes → (if y = lo then x else y) ∈ s.nodes := fun y hy => by
        by_cases h3 : y = lo
        · rw [if_pos h3]
          exact mx
        · rw [if_neg h3]
          exact hy
      have h3 := h.disj _ (hm y hy) _ (hm z hz) i h1 h2
      have hno : ∀ i, i ∈ u → i ∈ w → False := fun i h4 h5 => by
        rw [ox, List.nodup_append] at hxn
        exact hxn.2.2 i h4 i h5 rfl
      by_cases hyl : y = lo
      · by_cases hzl : z = lo
        · rw [hyl, hzl]
        · rw [if_pos hyl, if_neg hzl] at h3
          rw [hyl, hol] at hiy
          rw [← h3, hox] at hiz
          exact (hno i hiy hiz).elim
      · by_cases hzl : z = lo
        · rw [if_neg hyl, if_pos hzl] at h3
          rw [hzl, hol] at hiz
          rw [h3, hox] at hiy
          exact (hno i hiz hiy).elim
        · rw [if_neg hyl, if_neg hzl] at h3
          exact h3
    ifirst := fun y hy hyk => by
      rcases three y with h1 | h1 | ⟨h1, h2⟩
      · rw [h1, hol, nlo, hL]
      · rw [h1, hox, nx, hH]
      · rw [hoy y h1 h2, ny y h1 h2]
        exact h.ifirst y hy hyk
    ilast := fun y hy hyk => by
      rcases three y with h1 | h1 | ⟨h1, h2⟩
      · rw [h1, hol, nlo, hL]
      · rw [h1, hox, nx, hH]
      · rw [hoy y h1 h2, ny y h1 h2]
        exact h.ilast y hy hyk
    nitems := fun y hy hyk => by
      rcases three y with h1 | h1 | ⟨h1, h2⟩
      · rw [h1, hol, nlo, hL]
      · rw [h1, hox, nx, hH]
      · rw [hoy y h1 h2, ny y h1 h2]
        exact h.nitems y hy hyk
    sum := fun y hy hyk => by
      show (s'.node y).nitems = ((A.kids y).map fun c => (s'.node c).nitems).sum
      have hylo : y ≠ lo := fun e => hyk (e ▸ klo)
      have hyx : y ≠ x := fun e => hyk (e ▸ kx)
      rw [ny y hylo hyx, h.sum y hy hyk]
      by_cases hyp : y = p
      · subst hyp
        have h1 := sum_map_bump (f := fun c => (s.node c).nitems) (g := fun c => (Function.update s.node lo L c).nitems)
          (h.kids_nodup hy) hlo u.length (by
            simp only [Function.update_self]
            rw [hL, h.nitems lo mlo klo, olo]
            simp) (fun c _ hc => by simp only [Function.update_of_ne hc])
        have h2 := sum_map_bump (f := fun c => (Function.update s.node lo L c).nitems) (g := fun c => (s'.node c).nitems)
          (h.kids_nodup hy) hx (-u.length) (by
            simp only [nx, Function.update_of_ne hne.symm]
            rw [hH, h.nitems x mx kx, ox]
            simp only [List.length_append]
            push_cast
            omega) (fun c _ hc => by simp only [hs', Function.update_of_ne hc])
        rw [h2, h1]
        omega
      · refine congrArg List.sum (List.map_congr_left fun c hc => ?_)
        have hclo : c ≠ lo := fun e => hyp (h.kids_disj hy hp hc (e ▸ hlo))
        have hcx : c ≠ x := fun e => hyp (h.kids_disj hy hp hc (e ▸ hx))
        rw [ny c hclo hcx]
    bound := fun y hy hyk => by
      show (s'.node y).ifirst = none ∨ ∃ z ∈ s.nodes, _ ∧ _ ∧ (s'.node y).ifirst = _
      have hylo : y ≠ lo := fun e => hyk (e ▸ klo)
      have hyx : y ≠ x := fun e => hyk (e ▸ kx)
      rw [ny y hylo hyx]
      rcases h.bound y hy hyk with h1 | ⟨z, hz, hc, ho, h1⟩
      · exact .inl h1
      · refine .inr ?_
        rcases three z with h2 | h2 | ⟨h2, h3⟩
        · rw [h2] at ho
          exact absurd olo ho
        · subst h2
          by_cases hu : u = []
          · rw [ox, hu, List.nil_append] at ho h1
            exact ⟨z, hz, hc.lift id fun a b => hup a b, by rw [hox]; exact ho, by rw [hox]; exact h1⟩
          · rw [ox, List.head?_append_of_ne_nil _ hu] at h1
            exact ⟨lo, mlo, below y hc, by rw [hol]; exact hu, by rw [hol]; exact h1⟩
        · exact ⟨z, hz, hc.lift id fun a b => hup a b, by rw [hoy z h2 h3]; exact ho, by rw [hoy z h2 h3]; exact h1⟩
    boundL := fun y hy hyk => by
      show (s'.node y).ilast = none ∨ ∃ z ∈ s.nodes, _ ∧ _ ∧ (s'.node y).ilast = _
      have hylo : y ≠ lo := fun e => hyk (e ▸ klo)
      have hyx : y ≠ x := fun e => hyk (e ▸ kx)
      rw [ny y hylo hyx]
      rcases h.boundL y hy hyk with h1 | ⟨z, hz, hc, ho, h1⟩
      · exact .inl h1
      · refine .inr ?_
        rcases three z with h2 | h2 | ⟨h2, h3⟩
        · rw [h2] at ho
          exact absurd olo ho
        · subst h2
          by_cases hw : w = []
          · rw [ox, hw, List.append_nil] at ho h1
            exact ⟨lo, mlo, below y hc, by rw [hol]; exact ho, by rw [hol]; exact h1⟩
          · rw [ox, List.getLast?_append_of_ne_nil _ hw] at h1
            exact ⟨z, hz, hc.lift id fun a b => hup a b, by rw [hox]; exact hw, by rw [hox]; exact h1⟩
        · exact ⟨z, hz, hc.lift id fun a b => hup a b, by rw [hoy z h2 h3]; exact ho, by rw [hoy z h2 h3]; exact h1⟩ }

theorem split (h : Rep s A) {x : ℕ} (hx : x ∈ s.nodes) (hx0 : x ≠ 0) (hxk : A.kids x = []) (h2 : 2 ≤ (A.own x).length)
    (garbage : Option ℕ) (lt : I → Bool) (d : D) :
    ∃ s' p b₁ b₂ u w, p ∈ s.nodes ∧ A.kids p = b₁ ++ x :: b₂ ∧ A.own x = u ++ w ∧
      s.split garbage x lt d = some (s', some s.nextN) ∧ Rep s' ((A.addKid p b₁ (x :: b₂) s.nextN).cut s.nextN x u w) ∧
      s'.items = s.items ∧ (∀ y, y ∈ s'.nodes ↔ y = s.nextN ∨ y ∈ s.nodes) ∧
      (∀ y ∈ s.nodes, (s'.node y).data = (s.node y).data) ∧ (s'.node s.nextN).data = d ∧
      (∀ i ∈ u, lt (s'.val i) = true) ∧ (∀ i ∈ w, lt (s'.val i) = false) ∧
      ((A.own x).map s'.val).Perm ((A.own x).map s.val) ∧ ∀ i, i ∉ A.own x → s'.val i = s.val i := by
  obtain ⟨p, hp, hxp, hxpk⟩ := h.parent x hx hx0
  obtain ⟨b₁, b₂, hk⟩ := List.append_of_mem hxpk
  obtain ⟨s₁, e₁, R₁, i₁, v₁, d₁, d₂, m₁, p₁, k₁, z₁⟩ := h.insertChild hp garbage (b₁ := b₁) (b₂ := x :: b₂) hk
    (before := some x) (fun _ => rfl) (fun e => by cases e) d
  have hxn : x ≠ s.nextN := fun e => absurd (h.fresh x hx) (by omega)
  have hpx : x ≠ p := fun e => by
    have := (h.kid p hp x hxpk).2.2
    omega
  have hpn : p ≠ s.nextN := fun e => absurd (h.fresh p hp) (by omega)
  have hpk : A.kids p ≠ [] := by rw [hk]; simp
  rw [St.split, if_neg]
  swap
  · rintro (h3 | h3 | h3)
    · rw [h.root, Option.some.injEq] at h3
      exact hx0 h3.symm
    · exact (h.nkids_pos hx).1 h3 hxk
    · rw [h.nitems x hx hxk] at h3
      omega
  rw [hxp]
  simp only [Option.bind_eq_bind, Option.bind_some, e₁]
  set A₁ := A.addKid p b₁ (x :: b₂) s.nextN with hA₁
  have kp : A₁.kids p = b₁ ++ s.nextN :: x :: b₂ := by simp [hA₁, Abs.addKid]
  have kn : A₁.kids s.nextN = [] := by simp [hA₁, Abs.addKid, hpn.symm]
  have kx : A₁.kids x = [] := by simp [hA₁, Abs.addKid, hpx, hxk]
  have on : A₁.own s.nextN = [] := by simp [hA₁, Abs.addKid, hpk]
  have ox : A₁.own x = A.own x := by simp [hA₁, Abs.addKid, hpx, hxn]
  have mx : x ∈ s₁.nodes := (m₁ x).2 (.inr hx)
  have mn : s.nextN ∈ s₁.nodes := (m₁ _).2 (.inl rfl)
  have mp : p ∈ s₁.nodes := (m₁ p).2 (.inr hp)
  obtain ⟨l, r, e⟩ := R₁.iblock x mx
  have f1 := R₁.ifirst x mx kx
  have f2 := R₁.ilast x mx kx
  have f3 := R₁.nitems x mx kx
  have g1 := R₁.ifirst _ mn kn
  have g2 := R₁.ilast _ mn kn
  have g3 := R₁.nitems _ mn kn
  rw [ox] at f1 f2 f3 e
  rw [on] at g1 g2 g3
  have hne : A.own x ≠ [] := fun h3 => by
    rw [h3] at h2
    simp at h2
  obtain ⟨u, w, val', q1, q2, q3, q4, q5, q6⟩ := splitLoop_spec (l := l) (r := r) lt [] (A.own x) []
    (by
      have := R₁.inodup
      rw [e] at this
      simpa using this) (s₁.items.length + 1)
    (by
      rw [e]
      simp only [List.length_append]
      omega) s₁.val (by simp) (by simp)
  simp only [List.nil_append, List.append_nil] at q1 q2 q3 q4 q5 q6
  rw [← e, List.head?_append_of_ne_nil _ hne, List.getLast?_append_of_ne_nil _ hne, ← f1, ← f2] at q2
  simp only [List.head?_nil, List.getLast?_nil, List.length_nil] at q2 g1 g2 g3
  rw [g1, g2, g3]
  have q2' : splitLoop s₁.items lt (s₁.items.length + 1) (s₁.node x).ilast (s₁.node x).ifirst none none ((0 : ℕ) : ℤ) s₁.val = _ := q2
  rw [q2']
  simp only [Option.bind_some]
  refine ⟨_, p, b₁, b₂, u, w, hp, hk, q1, rfl, ?_, i₁, m₁, fun y hy => ?_, ?_, q3, q4, by rw [← v₁]; exact q5,
    fun i hi => by rw [← v₁]; exact q6 i hi⟩
  · refine R₁.cut mp (by rw [kp]; simp) (by rw [kp]; simp) hxn.symm kn kx on (by rw [ox]; exact q1) val' rfl ?_
    rw [f3, f2, q1]
    have hcnt : ((u ++ w).length : ℤ) - ((u.length : ℤ) - ((0 : ℕ) : ℤ)) = w.length := by
      simp only [List.length_append]
      push_cast
      omega
    rw [hcnt]
    rcases List.eq_nil_or_concat w with hw | ⟨w', z, hw⟩
    · subst hw
      simp
    · rw [List.concat_eq_append] at hw
      have hwne : w ≠ [] := by rw [hw]; simp
      have : ((w.length : ℕ) : ℤ) ≠ 0 := by
        have := List.length_pos_of_ne_nil hwne
        omega
      rw [if_neg this, if_neg this, List.head?_append_of_ne_nil _ hwne, List.getLast?_append_of_ne_nil _ hwne]
  · have hyn : y ≠ s.nextN := fun e => absurd (h.fresh y hy) (by omega)
    by_cases hyx : y = x
    · subst hyx
      simp [d₁ y hy]
    · simp [Function.update_of_ne hyx, Function.update_of_ne hyn, d₁ y hy]
  · simp [Function.update_of_ne hxn.symm, d₂]

end Rep

end Geomc.Tree
