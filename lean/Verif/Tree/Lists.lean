import Mathlib.Data.List.Nodup
import Mathlib.Data.List.Infix
import Mathlib.Tactic.Common
import Verif.Tree.Model

/-!
# Lists of addresses
-/

namespace Geomc.Tree

theorem next_mid {l t : List ℕ} {x : ℕ} (h : x ∉ l) : next (l ++ x :: t) x = t.head? := by
  induction l with
  | nil => simp [next]
  | cons a l ih =>
    rw [List.mem_cons, not_or] at h
    rw [List.cons_append, next, if_neg (Ne.symm h.1), ih h.2]

/-- The element after the last of a block. -/
theorem next_last {l b r : List ℕ} (hd : (l ++ b ++ r).Nodup) {x : ℕ} (hx : b.getLast? = some x) :
    next (l ++ b ++ r) x = r.head? := by
  obtain ⟨b', rfl⟩ : ∃ b', b = b' ++ [x] := by
    rcases List.eq_nil_or_concat b with h | ⟨b', y, h⟩
    · rw [h] at hx
      cases hx
    · rw [List.concat_eq_append] at h
      rw [h, List.getLast?_append] at hx
      simp only [List.getLast?_singleton, Option.some_or, Option.some.injEq] at hx
      exact ⟨b', by rw [h, hx]⟩
  have h1 : l ++ (b' ++ [x]) ++ r = (l ++ b') ++ x :: r := by simp
  rw [h1] at hd ⊢
  refine next_mid fun h => ?_
  rw [List.nodup_append] at hd
  exact hd.2.2 x h x (by simp) rfl

theorem walk_succ (l : List ℕ) (f : ℕ) (cur stop : Option ℕ) : walk l (f + 1) cur stop =
    if cur = stop then some [] else
    match cur with
    | none => none
    | some x => (x :: ·) <$> walk l f (next l x) stop := by
  rw [walk.eq_def]
  rfl

theorem scan_succ (l : List ℕ) (p : ℕ → Bool) (f : ℕ) (cur stop : Option ℕ) : scan l p (f + 1) cur stop =
    if cur = stop then some none else
    match cur with
    | none => none
    | some x => if p x then some (some x) else scan l p f (next l x) stop := by
  rw [scan.eq_def]
  rfl

theorem walk_block {l b r : List ℕ} (hd : (l ++ b ++ r).Nodup) {f : ℕ} (hf : b.length < f) :
    walk (l ++ b ++ r) f (b ++ r).head? r.head? = some b := by
  induction b generalizing l f with
  | nil =>
    rcases f with _ | f
    · omega
    · rw [walk_succ, List.nil_append, if_pos rfl]
  | cons x b ih =>
    rcases f with _ | f
    · omega
    have h1 : l ++ x :: b ++ r = (l ++ [x]) ++ b ++ r := by simp
    have hx : x ∉ l := fun h => by
      rw [List.append_assoc, List.nodup_append] at hd
      exact hd.2.2 x h x (by simp) rfl
    have hr : some x ≠ r.head? := fun h => by
      have hm : x ∈ r := List.mem_of_mem_head? h.symm
      rw [List.nodup_append] at hd
      exact hd.2.2 x (by simp) x hm rfl
    rw [walk_succ, List.cons_append, List.head?_cons, if_neg hr]
    simp only
    rw [List.append_assoc, List.cons_append, next_mid hx, ← List.cons_append, ← List.append_assoc, h1,
      ih (by rwa [← h1]) (by simpa using hf)]
    rfl

theorem scan_block {l b r : List ℕ} (hd : (l ++ b ++ r).Nodup) (p : ℕ → Bool) {f : ℕ} (hf : b.length < f) :
    scan (l ++ b ++ r) p f (b ++ r).head? r.head? = some (b.find? p) := by
  induction b generalizing l f with
  | nil =>
    rcases f with _ | f
    · omega
    · rw [scan_succ, List.nil_append, if_pos rfl]
      rfl
  | cons x b ih =>
    rcases f with _ | f
    · omega
    have h1 : l ++ x :: b ++ r = (l ++ [x]) ++ b ++ r := by simp
    have hx : x ∉ l := fun h => by
      rw [List.append_assoc, List.nodup_append] at hd
      exact hd.2.2 x h x (by simp) rfl
    have hr : some x ≠ r.head? := fun h => by
      have hm : x ∈ r := List.mem_of_mem_head? h.symm
      rw [List.nodup_append] at hd
      exact hd.2.2 x (by simp) x hm rfl
    rw [scan_succ, List.cons_append, List.head?_cons, if_neg hr]
    simp only
    by_cases hp : p x = true
    · rw [if_pos hp, List.find?_cons_of_pos hp]
    · rw [if_neg hp, List.find?_cons_of_neg hp, List.append_assoc, List.cons_append, next_mid hx, ← List.cons_append,
        ← List.append_assoc, h1, ih (by rwa [← h1]) (by simpa using hf)]

/-- A loop from an element of a block to the end of the block. -/
theorem scan_from {l b₁ b₂ r : List ℕ} {x : ℕ} (hd : (l ++ (b₁ ++ x :: b₂) ++ r).Nodup) (p : ℕ → Bool) {f : ℕ}
    (hf : (l ++ (b₁ ++ x :: b₂) ++ r).length < f) :
    scan (l ++ (b₁ ++ x :: b₂) ++ r) p f (some x) r.head? = some ((x :: b₂).find? p) := by
  have h1 : l ++ (b₁ ++ x :: b₂) ++ r = (l ++ b₁) ++ x :: b₂ ++ r := by simp
  rw [h1] at hd hf ⊢
  have := scan_block (l := l ++ b₁) (b := x :: b₂) (r := r) hd p (f := f) (by
    simp only [List.length_append, List.length_cons] at hf ⊢
    omega)
  simpa using this

/-! ## Inserting -/

theorem insertBefore_none (l : List ℕ) (y : ℕ) : insertBefore l none y = l ++ [y] := by
  induction l with
  | nil => rfl
  | cons a l ih => rw [insertBefore, if_neg (by simp), ih, List.cons_append]

theorem insertBefore_mid {l t : List ℕ} {x : ℕ} (h : x ∉ l) (y : ℕ) :
    insertBefore (l ++ x :: t) (some x) y = l ++ y :: x :: t := by
  induction l with
  | nil => simp [insertBefore]
  | cons a l ih =>
    rw [List.mem_cons, not_or] at h
    rw [List.cons_append, insertBefore, if_neg (fun h' => h.1 (Option.some.inj h').symm), ih h.2, List.cons_append]

theorem insertBefore_head {l t : List ℕ} (hd : (l ++ t).Nodup) (y : ℕ) :
    insertBefore (l ++ t) t.head? y = l ++ y :: t := by
  cases t with
  | nil => rw [List.head?_nil, insertBefore_none, List.append_nil]
  | cons x t =>
    rw [List.head?_cons]
    refine insertBefore_mid (fun h => ?_) y
    rw [List.nodup_append] at hd
    exact hd.2.2 x h x (by simp) rfl

/-- Where an element may be inserted. -/
theorem insertBefore_split (l : List ℕ) (r : Option ℕ) (y : ℕ) :
    ∃ a b, l = a ++ b ∧ insertBefore l r y = a ++ y :: b ∧ (∀ x ∈ a, r ≠ some x) ∧ (b = [] ∨ b.head? = r) := by
  induction l with
  | nil => exact ⟨[], [], rfl, rfl, by simp, .inl rfl⟩
  | cons c l ih =>
    rw [insertBefore]
    by_cases h : some c = r
    · rw [if_pos h]
      exact ⟨[], c :: l, rfl, rfl, by simp, .inr h⟩
    · rw [if_neg h]
      obtain ⟨a, b, h1, h2, h3, h4⟩ := ih
      refine ⟨c :: a, b, by rw [h1]; rfl, by rw [h2]; rfl, fun x hx => ?_, h4⟩
      rcases List.mem_cons.1 hx with h' | h'
      · rw [h']
        exact Ne.symm h
      · exact h3 x h'

theorem mem_insertBefore {l : List ℕ} {r : Option ℕ} {y x : ℕ} : x ∈ insertBefore l r y ↔ x = y ∨ x ∈ l := by
  obtain ⟨a, b, h1, h2, -, -⟩ := insertBefore_split l r y
  rw [h2, h1]
  simp only [List.mem_append, List.mem_cons]
  tauto

theorem insertBefore_nodup {l : List ℕ} (hd : l.Nodup) (r : Option ℕ) {y : ℕ} (hy : y ∉ l) : (insertBefore l r y).Nodup := by
  obtain ⟨a, b, h1, h2, -, -⟩ := insertBefore_split l r y
  rw [h2, List.nodup_middle, ← h1]
  exact List.nodup_cons.2 ⟨hy, hd⟩

/-- Two ways to cut a list. -/
theorem cut_eq {a b c d : List ℕ} (h : a ++ b = c ++ d) : (∃ e, c = a ++ e ∧ b = e ++ d) ∨ ∃ e, a = c ++ e ∧ d = e ++ b := by
  rcases List.append_eq_append_iff.1 h with ⟨e, h1, h2⟩ | ⟨e, h1, h2⟩
  · exact .inl ⟨e, h1, h2⟩
  · exact .inr ⟨e, h1, h2⟩

/-- A block is kept if the element is not inserted before one of its elements other than the first. -/
theorem block_keep {l b t : List ℕ} {r : Option ℕ} (hr : ∀ x ∈ b.tail, r ≠ some x) (y : ℕ) :
    ∃ l' t', insertBefore (l ++ b ++ t) r y = l' ++ b ++ t' := by
  obtain ⟨u, v, h1, h2, -, h4⟩ := insertBefore_split (l ++ b ++ t) r y
  rw [h2]
  rw [List.append_assoc] at h1
  rcases cut_eq h1 with ⟨e, h5, h6⟩ | ⟨e, h5, h6⟩
  · -- the cut is after `l`
    subst h5
    rcases cut_eq h6 with ⟨g, h7, h8⟩ | ⟨g, h7, h8⟩
    · subst h7
      exact ⟨l, g ++ y :: v, by simp⟩
    · rcases e with _ | ⟨c, e⟩
      · simp only [List.nil_append] at h7
        subst h7
        exact ⟨l ++ [y], t, by rw [h8]; simp⟩
      · rcases g with _ | ⟨g0, g⟩
        · rw [List.append_nil] at h7
          subst h7
          exact ⟨l, y :: v, by simp⟩
        · exfalso
          have hv : v.head? = some g0 := by rw [h8]; rfl
          rcases h4 with h4 | h4
          · rw [h4] at hv
            cases hv
          · exact hr g0 (by rw [h7]; simp) (h4.symm.trans hv)
  · subst h5
    exact ⟨u ++ y :: e, t, by rw [h6]; simp⟩

/-- Inserting in a block. -/
theorem block_insert {l b₁ b₂ t : List ℕ} (hd : (l ++ (b₁ ++ b₂) ++ t).Nodup) (y : ℕ) :
    insertBefore (l ++ (b₁ ++ b₂) ++ t) (b₂ ++ t).head? y = l ++ (b₁ ++ y :: b₂) ++ t := by
  have h1 : l ++ (b₁ ++ b₂) ++ t = (l ++ b₁) ++ (b₂ ++ t) := by simp
  rw [h1] at hd ⊢
  rw [insertBefore_head hd]
  simp

/-- A block is kept if the element is inserted right after an element outside of it. -/
theorem block_keep_after {l b t : List ℕ} {u v : List ℕ} {x : ℕ} (h : l ++ b ++ t = u ++ x :: v) (hx : x ∉ b) (y : ℕ) :
    ∃ l' t', u ++ x :: y :: v = l' ++ b ++ t' := by
  rw [List.append_assoc] at h
  have h' : l ++ (b ++ t) = (u ++ [x]) ++ v := by rw [h]; simp
  rcases cut_eq h' with ⟨e, h1, h2⟩ | ⟨e, h1, h2⟩
  · rcases cut_eq h2 with ⟨g, h3, h4⟩ | ⟨g, h3, h4⟩
    · refine ⟨l, g ++ y :: v, ?_⟩
      have : u ++ x :: y :: v = (u ++ [x]) ++ y :: v := by simp
      rw [this, h1, h3]
      simp
    · rcases List.eq_nil_or_concat e with h5 | ⟨e', z, h5⟩
      · subst h5
        simp only [List.nil_append] at h3
        subst h3
        rw [List.append_nil] at h1
        refine ⟨l ++ [y], t, ?_⟩
        have : u ++ x :: y :: v = (u ++ [x]) ++ y :: v := by simp
        rw [this, h1, h4]
        simp
      · exfalso
        rw [List.concat_eq_append] at h5
        subst h5
        have : z = x := by
          have := congrArg List.getLast? h1
          rw [← List.append_assoc] at this
          simp only [List.getLast?_append, List.getLast?_singleton, Option.some_or, Option.some.injEq] at this
          exact this.symm
        exact hx (by rw [h3, this]; simp)
  · refine ⟨u ++ x :: y :: e, t, ?_⟩
    rw [h2]
    simp

/-! ## Going back -/

theorem prevFrom_mid {l t : List ℕ} {x : ℕ} (h : x ∉ l) (p : Option ℕ) : prevFrom p (l ++ x :: t) (some x) = (l.getLast?).or p := by
  induction l generalizing p with
  | nil => simp [prevFrom]
  | cons a l ih =>
    rw [List.mem_cons, not_or] at h
    rw [List.cons_append, prevFrom, if_neg (fun h' => h.1 (Option.some.inj h').symm), ih h.2]
    rcases List.eq_nil_or_concat l with h' | ⟨l', y, h'⟩
    · subst h'
      simp
    · rw [List.concat_eq_append] at h'
      subst h'
      rw [List.getLast?_cons]
      simp

theorem prev_mid {l t : List ℕ} {x : ℕ} (h : x ∉ l) : prev (l ++ x :: t) (some x) = l.getLast? := by
  rw [prev, prevFrom_mid h, Option.or_none]

theorem prevFrom_end (l : List ℕ) (p : Option ℕ) : prevFrom p l none = (l.getLast?).or p := by
  induction l generalizing p with
  | nil => simp [prevFrom]
  | cons a l ih =>
    rw [prevFrom, if_neg (by simp), ih]
    rcases List.eq_nil_or_concat l with h' | ⟨l', y, h'⟩
    · subst h'
      simp
    · rw [List.concat_eq_append] at h'
      subst h'
      rw [List.getLast?_cons]
      simp

theorem prev_head {l t : List ℕ} (hd : (l ++ t).Nodup) : prev (l ++ t) t.head? = l.getLast? := by
  cases t with
  | nil => rw [List.append_nil, List.head?_nil, prev, prevFrom_end, Option.or_none]
  | cons x t =>
    refine prev_mid fun h => ?_
    rw [List.nodup_append] at hd
    exact hd.2.2 x h x (by simp) rfl

end Geomc.Tree
