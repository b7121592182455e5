import Verif.Storage.Model

/-!
# Array storage: C87, C88
-/

namespace Geomc.Storage

variable {T : Type}

/-! ## What unique storages are meant to be: lists -/

/-- What a program does to storages. -/
inductive Op (T : Type)
  | make (v n : ℕ) (junk : ℕ → T)
  | makeFrom (v : ℕ) (src : List T) (junk : ℕ → T)
  | moveMake (v w : ℕ)
  | copyMake (v w : ℕ) (junk : ℕ → T)
  | destroy (v : ℕ)
  | moveAssign (v w : ℕ)
  | assign (v w : ℕ) (junk : ℕ → T)
  | set (v i : ℕ) (x : T)

/-- The code. -/
def Op.run (s : St T) : Op T → Option (St T)
  | .make v n j => s.make v n j
  | .makeFrom v src j => s.makeFrom v src j
  | .moveMake v w => s.moveMake v w
  | .copyMake v w j => s.copyMake v w j
  | .destroy v => s.destroy v
  | .moveAssign v w => s.moveAssign v w
  | .assign v w j => s.assign v w j
  | .set v i x => s.set v i x

/-- Each variable is a list; nothing is shared.  There is no result for programs that are not well-formed: that construct where an object
is, use one that does not exist, or an index out of range. -/
abbrev Vals (T : Type) := ℕ → Option (List T)
def Op.spec (m : Vals T) : Op T → Option (Vals T)
  | .make v n j => if (m v).isSome then none else some (Function.update m v (some ((List.range n).map j)))
  | .makeFrom v src _ => if (m v).isSome then none else some (Function.update m v (some src))
  | .moveMake v w => if (m v).isSome then none else (m w).map fun l => Function.update (Function.update m v (some l)) w (some [])
  | .copyMake v w _ => if (m v).isSome then none else (m w).map fun l => Function.update m v (some l)
  | .destroy v => (m v).map fun _ => Function.update m v none
  | .moveAssign v w => (m v).bind fun _ => (m w).map fun l => Function.update (Function.update m v (some l)) w (some [])
  | .assign v w _ => (m v).bind fun _ => (m w).map fun l => Function.update m v (some l)
  | .set v i x => (m v).bind fun l => if i < l.length then some (Function.update m v (some (l.set i x))) else none

/-! ## The invariant -/

/-- The storages are those of `m`, each has an array of its own, and there are no other arrays. -/
structure Rep (s : St T) (m : Vals T) : Prop where
  dead : ∀ v, m v = none → s.var v = none
  live : ∀ v l, m v = some l → ∃ o, s.var v = some o ∧ o.sz = l.length ∧
    ((o.data = none ∧ l = []) ∨ ∃ a, o.data = some a ∧ s.heap.arr a = some l)
  own : ∀ v w o o' a, s.var v = some o → s.var w = some o' → o.data = some a → o'.data = some a → v = w
  leak : ∀ a, (s.heap.arr a).isSome → ∃ v o, s.var v = some o ∧ o.data = some a
  bound : ∀ a, s.heap.fresh ≤ a → s.heap.arr a = none

theorem rep_empty : Rep (St.empty : St T) (fun _ => none) where
  dead _ _ := rfl
  live _ _ h := by cases h
  own _ _ _ _ _ h := by cases h
  leak _ h := by cases h
  bound _ _ := rfl

namespace Rep
variable {s : St T} {m : Vals T}

theorem dead_of (h : Rep s m) {v : ℕ} (hv : (m v).isSome = false) : (s.var v).isSome = false := by
  rw [h.dead v (by simpa using hv)]
  rfl

theorem ptr_lt (h : Rep s m) {v a : ℕ} {o : Uniq} (hv : s.var v = some o) (ha : o.data = some a) : a < s.heap.fresh := by
  by_contra hn
  have hb := h.bound a (by omega)
  rcases hm : m v with _ | l
  · rw [h.dead v hm] at hv
    cases hv
  · obtain ⟨o', ho', -, h3⟩ := h.live v l hm
    rw [hv, Option.some.injEq] at ho'
    subst ho'
    rcases h3 with ⟨h4, -⟩ | ⟨b, h4, h5⟩
    · rw [ha] at h4
      cases h4
    · rw [ha, Option.some.injEq] at h4
      subst h4
      rw [hb] at h5
      cases h5

/-- A new variable with a new array. -/
theorem fresh (h : Rep s m) {v : ℕ} (hv : m v = none) (l : List T) :
    Rep ⟨⟨Function.update s.heap.arr s.heap.fresh (some l), s.heap.fresh + 1⟩,
      Function.update s.var v (some ⟨some s.heap.fresh, l.length⟩)⟩ (Function.update m v (some l)) where
  dead w hw := by
    by_cases e : w = v
    · subst e
      simp at hw
    · rw [Function.update_of_ne e] at hw
      exact (Function.update_of_ne e ..).trans (h.dead w hw)
  live w l' hw := by
    by_cases e : w = v
    · subst e
      rw [Function.update_self, Option.some.injEq] at hw
      subst hw
      exact ⟨_, Function.update_self .., rfl, .inr ⟨_, rfl, Function.update_self ..⟩⟩
    · rw [Function.update_of_ne e] at hw
      obtain ⟨o, h1, h2, h3⟩ := h.live w l' hw
      refine ⟨o, by rw [← h1]; exact Function.update_of_ne e .., h2, ?_⟩
      rcases h3 with h3 | ⟨a, h4, h5⟩
      · exact .inl h3
      · have := h.ptr_lt h1 h4
        exact .inr ⟨a, h4, by rw [← h5]; exact Function.update_of_ne (by omega) ..⟩
  own x y o o' a hx hy ha ha' := by
    by_cases ex : x = v
    · by_cases ey : y = v
      · rw [ex, ey]
      · subst ex
        replace hx : some (⟨some s.heap.fresh, l.length⟩ : Uniq) = some o := by simpa using hx
        replace hy : s.var y = some o' := by rw [← hy]; exact (Function.update_of_ne ey ..).symm
        rw [Option.some.injEq] at hx
        subst hx
        cases ha
        have := h.ptr_lt hy ha'
        omega
    · replace hx : s.var x = some o := by rw [← hx]; exact (Function.update_of_ne ex ..).symm
      by_cases ey : y = v
      · subst ey
        replace hy : some (⟨some s.heap.fresh, l.length⟩ : Uniq) = some o' := by simpa using hy
        rw [Option.some.injEq] at hy
        subst hy
        cases ha'
        have := h.ptr_lt hx ha
        omega
      · replace hy : s.var y = some o' := by rw [← hy]; exact (Function.update_of_ne ey ..).symm
        exact h.own x y o o' a hx hy ha ha'
  leak a ha := by
    by_cases e : a = s.heap.fresh
    · exact ⟨v, _, Function.update_self .., by rw [e]⟩
    · replace ha : (s.heap.arr a).isSome := by rw [← ha]; exact congrArg _ (Function.update_of_ne e ..).symm
      obtain ⟨w, o, h1, h2⟩ := h.leak a ha
      have hw : w ≠ v := fun e => by
        rw [e, h.dead v hv] at h1
        cases h1
      exact ⟨w, o, by rw [← h1]; exact Function.update_of_ne hw .., h2⟩
  bound a ha := by
    replace ha : s.heap.fresh + 1 ≤ a := ha
    exact (Function.update_of_ne (by omega) ..).trans (h.bound a (by omega))

/-- The array of a variable that exists, and its contents. -/
theorem read (h : Rep s m) {v : ℕ} {l : List T} (hv : m v = some l) :
    ∃ o, s.var v = some o ∧ o.sz = l.length ∧ s.heap.read o.data o.sz = some l := by
  obtain ⟨o, h1, h2, h3⟩ := h.live v l hv
  refine ⟨o, h1, h2, ?_⟩
  rcases h3 with ⟨h4, h5⟩ | ⟨a, h4, h5⟩
  · rw [Heap.read, h2, h5, if_pos List.length_nil]
  · rw [Heap.read, h4, h2]
    by_cases h0 : l.length = 0
    · rw [if_pos h0, List.length_eq_zero_iff.1 h0]
    · rw [if_neg h0]
      simp [h5]

/-- A variable destroyed. -/
theorem kill (h : Rep s m) {v : ℕ} {l : List T} (hv : m v = some l) :
    ∃ o hp, s.var v = some o ∧ s.heap.free o.data = some hp ∧ hp.fresh = s.heap.fresh ∧
      Rep ⟨hp, Function.update s.var v none⟩ (Function.update m v none) ∧
      (∀ w o', w ≠ v → s.var w = some o' → ∀ a, o'.data = some a → hp.arr a = s.heap.arr a) := by
  obtain ⟨o, h1, h2, h3⟩ := h.live v l hv
  rcases h3 with ⟨h4, h5⟩ | ⟨a, h4, h5⟩
  · refine ⟨o, s.heap, h1, by rw [h4]; rfl, rfl, ?_, fun _ _ _ _ _ _ => rfl⟩
    refine ⟨fun w hw => ?_, fun w l' hw => ?_, fun x y p q b hx hy => ?_, fun b hb => ?_, h.bound⟩
    · by_cases e : w = v
      · rw [e]; exact Function.update_self ..
      · rw [Function.update_of_ne e] at hw
        exact (Function.update_of_ne e ..).trans (h.dead w hw)
    · by_cases e : w = v
      · rw [e, Function.update_self] at hw
        cases hw
      · rw [Function.update_of_ne e] at hw
        obtain ⟨p, g1, g2⟩ := h.live w l' hw
        exact ⟨p, (Function.update_of_ne e ..).trans g1, g2⟩
    · have ex : x ≠ v := fun e => by
        rw [e] at hx
        simp at hx
      have ey : y ≠ v := fun e => by
        rw [e] at hy
        simp at hy
      exact h.own x y p q b ((Function.update_of_ne ex ..).symm.trans hx) ((Function.update_of_ne ey ..).symm.trans hy)
    · obtain ⟨w, p, g1, g2⟩ := h.leak b hb
      have e : w ≠ v := fun e => by
        rw [e, h1, Option.some.injEq] at g1
        rw [← g1, h4] at g2
        cases g2
      exact ⟨w, p, (Function.update_of_ne e ..).trans g1, g2⟩
  · refine ⟨o, { s.heap with arr := Function.update s.heap.arr a none }, h1, by rw [h4, Heap.free, if_pos (by rw [h5]; rfl)], rfl, ?_, ?_⟩
    · refine ⟨fun w hw => ?_, fun w l' hw => ?_, fun x y p q b hx hy => ?_, fun b hb => ?_, fun b hb => ?_⟩
      · by_cases e : w = v
        · rw [e]; exact Function.update_self ..
        · rw [Function.update_of_ne e] at hw
          exact (Function.update_of_ne e ..).trans (h.dead w hw)
      · by_cases e : w = v
        · rw [e, Function.update_self] at hw
          cases hw
        · rw [Function.update_of_ne e] at hw
          obtain ⟨p, g1, g2, g3⟩ := h.live w l' hw
          refine ⟨p, (Function.update_of_ne e ..).trans g1, g2, ?_⟩
          rcases g3 with g3 | ⟨b, g4, g5⟩
          · exact .inl g3
          · have hab : b ≠ a := fun eb => e (h.own w v p o a g1 h1 (eb ▸ g4) h4)
            exact .inr ⟨b, g4, (Function.update_of_ne hab ..).trans g5⟩
      · have ex : x ≠ v := fun e => by
          rw [e] at hx
          simp at hx
        have ey : y ≠ v := fun e => by
          rw [e] at hy
          simp at hy
        exact h.own x y p q b ((Function.update_of_ne ex ..).symm.trans hx) ((Function.update_of_ne ey ..).symm.trans hy)
      · have hba : b ≠ a := fun e => by
          rw [e] at hb
          simp at hb
        obtain ⟨w, p, g1, g2⟩ := h.leak b (by rw [← hb]; exact congrArg _ (Function.update_of_ne hba ..).symm)
        have e : w ≠ v := fun e => by
          rw [e, h1, Option.some.injEq] at g1
          rw [← g1, h4, Option.some.injEq] at g2
          exact hba g2.symm
        exact ⟨w, p, (Function.update_of_ne e ..).trans g1, g2⟩
      · by_cases e : b = a
        · rw [e]
          exact Function.update_self ..
        · exact (Function.update_of_ne e ..).trans (h.bound b hb)
    · intro w p e g1 b g2
      have hab : b ≠ a := fun eb => e (h.own w v p o a g1 h1 (eb ▸ g2) h4)
      exact Function.update_of_ne hab ..

/-- The array of a variable handed to another, new one. -/
theorem hand (h : Rep s m) {v w : ℕ} {l : List T} (hv : m v = none) {o : Uniq} (hw : m w = some l) (ho : s.var w = some o) :
    Rep { s with var := Function.update (Function.update s.var v (some o)) w (some ⟨none, 0⟩) }
      (Function.update (Function.update m v (some l)) w (some [])) := by
  have hvw : v ≠ w := fun e => by
    rw [e, hw] at hv
    cases hv
  have key : ∀ x p a, Function.update (Function.update s.var v (some o)) w (some (⟨none, 0⟩ : Uniq)) x = some p → p.data = some a →
      (x = v ∧ p = o) ∨ (x ≠ v ∧ x ≠ w ∧ s.var x = some p) := by
    intro x p a hx ha
    by_cases e : x = w
    · rw [e, Function.update_self, Option.some.injEq] at hx
      rw [← hx] at ha
      cases ha
    · rw [Function.update_of_ne e] at hx
      by_cases e' : x = v
      · rw [e', Function.update_self, Option.some.injEq] at hx
        exact .inl ⟨e', hx.symm⟩
      · rw [Function.update_of_ne e'] at hx
        exact .inr ⟨e', e, hx⟩
  refine ⟨fun x hx => ?_, fun x l' hx => ?_, fun x y p q a hx hy ha hb => ?_, fun a ha => ?_, h.bound⟩
  · by_cases e : x = w
    · rw [e, Function.update_self] at hx
      cases hx
    · rw [Function.update_of_ne e] at hx
      by_cases e' : x = v
      · rw [e', Function.update_self] at hx
        cases hx
      · rw [Function.update_of_ne e'] at hx
        exact (Function.update_of_ne e ..).trans ((Function.update_of_ne e' ..).trans (h.dead x hx))
  · by_cases e : x = w
    · rw [e, Function.update_self, Option.some.injEq] at hx
      rw [e, ← hx]
      exact ⟨_, Function.update_self .., rfl, .inl ⟨rfl, rfl⟩⟩
    · rw [Function.update_of_ne e] at hx
      by_cases e' : x = v
      · rw [e', Function.update_self, Option.some.injEq] at hx
        obtain ⟨o', g1, g2, g3⟩ := h.live w l hw
        rw [ho, Option.some.injEq] at g1
        subst g1
        rw [e', ← hx]
        exact ⟨o, (Function.update_of_ne hvw ..).trans (Function.update_self ..), g2, g3⟩
      · rw [Function.update_of_ne e'] at hx
        obtain ⟨p, g1, g2⟩ := h.live x l' hx
        exact ⟨p, (Function.update_of_ne e ..).trans ((Function.update_of_ne e' ..).trans g1), g2⟩
  · rcases key x p a hx ha with ⟨x1, x2⟩ | ⟨x1, x2, x3⟩ <;> rcases key y q a hy hb with ⟨y1, y2⟩ | ⟨y1, y2, y3⟩
    · rw [x1, y1]
    · subst x2
      exact absurd (h.own w y p q a ho y3 ha hb).symm y2
    · subst y2
      exact absurd (h.own x w p q a x3 ho ha hb) x2
    · exact h.own x y p q a x3 y3 ha hb
  · obtain ⟨x, p, g1, g2⟩ := h.leak a ha
    by_cases e : x = w
    · rw [e, ho, Option.some.injEq] at g1
      subst g1
      exact ⟨v, o, (Function.update_of_ne hvw ..).trans (Function.update_self ..), g2⟩
    · have e' : x ≠ v := fun e' => by
        rw [e', h.dead v hv] at g1
        cases g1
      exact ⟨x, p, (Function.update_of_ne e ..).trans ((Function.update_of_ne e' ..).trans g1), g2⟩

/-- The elements of a variable replaced. -/
theorem overwrite (h : Rep s m) {v a : ℕ} {l l' : List T} (hv : m v = some l) {o : Uniq} (ho : s.var v = some o) (ha : o.data = some a)
    (hl : l'.length = l.length) :
    Rep { s with heap := { s.heap with arr := Function.update s.heap.arr a (some l') } } (Function.update m v (some l')) := by
  refine ⟨fun w hw => ?_, fun w k hw => ?_, h.own, fun b hb => ?_, fun b hb => ?_⟩
  · by_cases e : w = v
    · rw [e, Function.update_self] at hw
      cases hw
    · rw [Function.update_of_ne e] at hw
      exact h.dead w hw
  · by_cases e : w = v
    · rw [e, Function.update_self, Option.some.injEq] at hw
      obtain ⟨o', g1, g2, -⟩ := h.live v l hv
      rw [ho, Option.some.injEq] at g1
      subst g1
      rw [e, ← hw]
      exact ⟨o, ho, by rw [g2, hl], .inr ⟨a, ha, Function.update_self ..⟩⟩
    · rw [Function.update_of_ne e] at hw
      obtain ⟨p, g1, g2, g3⟩ := h.live w k hw
      refine ⟨p, g1, g2, ?_⟩
      rcases g3 with g3 | ⟨b, g4, g5⟩
      · exact .inl g3
      · have hba : b ≠ a := fun eb => e (h.own w v p o a g1 ho (eb ▸ g4) ha)
        exact .inr ⟨b, g4, (Function.update_of_ne hba ..).trans g5⟩
  · by_cases e : b = a
    · exact ⟨v, o, ho, by rw [e, ha]⟩
    · exact h.leak b (by rw [← hb]; exact congrArg _ (Function.update_of_ne e ..).symm)
  · have : b ≠ a := fun e => by
      have := h.ptr_lt ho ha
      have hb' : s.heap.fresh ≤ b := hb
      omega
    exact (Function.update_of_ne this ..).trans (h.bound b hb)

end Rep

theorem update_none {α β : Type} [DecidableEq α] (f : α → Option β) (a : α) (x y : Option β) :
    Function.update (Function.update f a x) a y = Function.update f a y := Function.update_idem ..

theorem drop_junk (l : List T) (j : ℕ → T) : List.drop l.length (List.map j (List.range l.length)) = [] :=
  List.drop_eq_nil_of_le (by simp)

/-- One step: the code is defined and does what it should. -/
theorem step {s : St T} {m m' : Vals T} (h : Rep s m) (o : Op T) (e : o.spec m = some m') : ∃ s', o.run s = some s' ∧ Rep s' m' := by
  cases o with
  | make v n j =>
    rcases hv : m v with _ | l
    · simp only [Op.spec, hv, Option.isSome_none, Bool.false_eq_true, if_false, Option.some.injEq] at e
      subst e
      have := h.fresh hv ((List.range n).map j)
      simp only [List.length_map, List.length_range] at this
      refine ⟨_, ?_, this⟩
      simp [Op.run, St.make, h.dead v hv, Heap.alloc]
    · simp [Op.spec, hv] at e
  | makeFrom v src j =>
    rcases hv : m v with _ | l
    · simp only [Op.spec, hv, Option.isSome_none, Bool.false_eq_true, if_false, Option.some.injEq] at e
      subst e
      refine ⟨_, ?_, h.fresh hv src⟩
      by_cases h0 : src = []
      · subst h0
        simp [Op.run, St.makeFrom, h.dead v hv, Heap.alloc, Heap.write]
      · simp [Op.run, St.makeFrom, h.dead v hv, Heap.alloc, Heap.write, h0, drop_junk]
    · simp [Op.spec, hv] at e
  | copyMake v w j =>
    rcases hv : m v with _ | l
    · rcases hw : m w with _ | l
      · simp [Op.spec, hv, hw] at e
      · simp only [Op.spec, hv, hw, Option.isSome_none, Bool.false_eq_true, if_false, Option.map_some, Option.some.injEq] at e
        subst e
        obtain ⟨o, h1, h2, h3⟩ := h.live w l hw
        refine ⟨_, ?_, h.fresh hv l⟩
        by_cases h0 : l = []
        · subst h0
          rw [List.length_nil] at h2
          simp [Op.run, St.copyMake, h.dead v hv, h1, h2, Heap.alloc, Heap.read, Heap.write]
        · have hlen : l.length ≠ 0 := fun e => h0 (List.length_eq_zero_iff.1 e)
          rcases h3 with ⟨-, h4⟩ | ⟨a, h4, h5⟩
          · exact absurd h4 h0
          · have hne : a ≠ s.heap.fresh := by
              have := h.ptr_lt h1 h4
              omega
            simp [Op.run, St.copyMake, h.dead v hv, h1, h2, h4, Heap.alloc, Heap.read, Heap.write, h0, Function.update_of_ne hne, h5, drop_junk]
    · simp [Op.spec, hv] at e
  | moveMake v w =>
    rcases hv : m v with _ | l
    · rcases hw : m w with _ | l
      · simp [Op.spec, hv, hw] at e
      · simp only [Op.spec, hv, hw, Option.isSome_none, Bool.false_eq_true, if_false, Option.map_some, Option.some.injEq] at e
        subst e
        obtain ⟨o, h1, -, -⟩ := h.live w l hw
        refine ⟨_, ?_, h.hand hv hw h1⟩
        simp [Op.run, St.moveMake, h.dead v hv, h1]
    · simp [Op.spec, hv] at e
  | destroy v =>
    rcases hv : m v with _ | l
    · simp [Op.spec, hv] at e
    · simp only [Op.spec, hv, Option.map_some, Option.some.injEq] at e
      subst e
      obtain ⟨o, hp, h1, h2, -, h3, -⟩ := h.kill hv
      refine ⟨_, ?_, h3⟩
      simp [Op.run, St.destroy, h1, h2]
  | moveAssign v w =>
    rcases hv : m v with _ | x
    · simp [Op.spec, hv] at e
    · rcases hw : m w with _ | l
      · simp [Op.spec, hv, hw] at e
      · simp only [Op.spec, hv, hw, Option.bind_some, Option.map_some, Option.some.injEq] at e
        subst e
        obtain ⟨o, hp, h1, h2, h0, h3, h4⟩ := h.kill hv
        obtain ⟨p, g1, -, -⟩ := h.live w l hw
        by_cases evw : v = w
        · subst evw
          rw [h1, Option.some.injEq] at g1
          subst g1
          refine ⟨⟨hp, Function.update s.var v (some ⟨none, 0⟩)⟩, ?_, ?_⟩
          · simp [Op.run, St.moveAssign, h1, h2, Function.update_idem]
          · rw [update_none]
            have dead : ∀ b, (hp.arr b).isSome → ∃ y q, y ≠ v ∧ s.var y = some q ∧ q.data = some b := fun b hb => by
              obtain ⟨y, q, k1, k2⟩ := h3.leak b hb
              have : y ≠ v := fun e => by
                rw [e] at k1
                simp at k1
              exact ⟨y, q, this, (Function.update_of_ne this ..).symm.trans k1, k2⟩
            refine ⟨fun y hy => ?_, fun y k hy => ?_, fun y z q r b hy hz hb hc => ?_, fun b hb => ?_, h3.bound⟩
            · by_cases ey : y = v
              · rw [ey, Function.update_self] at hy
                cases hy
              · rw [Function.update_of_ne ey] at hy
                exact (Function.update_of_ne ey ..).trans (h.dead y hy)
            · by_cases ey : y = v
              · rw [ey, Function.update_self, Option.some.injEq] at hy
                rw [ey, ← hy]
                exact ⟨_, Function.update_self .., rfl, .inl ⟨rfl, rfl⟩⟩
              · rw [Function.update_of_ne ey] at hy
                obtain ⟨q, k1, k2⟩ := h3.live y k (by rw [Function.update_of_ne ey]; exact hy)
                exact ⟨q, (Function.update_of_ne ey ..).trans ((Function.update_of_ne ey ..).symm.trans k1), k2⟩
            · have ey : y ≠ v := fun ey => by
                rw [ey] at hy
                simp only [Function.update_self, Option.some.injEq] at hy
                rw [← hy] at hb
                cases hb
              have ez : z ≠ v := fun ez => by
                rw [ez] at hz
                simp only [Function.update_self, Option.some.injEq] at hz
                rw [← hz] at hc
                cases hc
              exact h.own y z q r b ((Function.update_of_ne ey ..).symm.trans hy) ((Function.update_of_ne ez ..).symm.trans hz) hb hc
            · obtain ⟨y, q, k0, k1, k2⟩ := dead b hb
              exact ⟨y, q, (Function.update_of_ne k0 ..).trans k1, k2⟩
        · have ho : Function.update s.var v none w = some p := (Function.update_of_ne (Ne.symm evw) ..).trans g1
          have := h3.hand (v := v) (w := w) (l := l) (Function.update_self ..)
            ((Function.update_of_ne (Ne.symm evw) ..).trans hw) ho
          rw [update_none m] at this
          refine ⟨_, ?_, this⟩
          simp [Op.run, St.moveAssign, h1, g1, h2, Function.update_idem]
  | assign v w j =>
    rcases hv : m v with _ | x
    · simp [Op.spec, hv] at e
    · rcases hw : m w with _ | l
      · simp [Op.spec, hv, hw] at e
      · simp only [Op.spec, hv, hw, Option.bind_some, Option.map_some, Option.some.injEq] at e
        subst e
        by_cases evw : w = v
        · subst evw
          obtain ⟨o, h1, -, -⟩ := h.live w l hw
          rw [hv, Option.some.injEq] at hw
          refine ⟨s, ?_, ?_⟩
          · simp [Op.run, St.assign, h1]
          · rw [← hw, ← hv, Function.update_eq_self]
            exact h
        · obtain ⟨o, hp, h1, h2, h0, h3, h4⟩ := h.kill hv
          obtain ⟨p, g1, g2, g3⟩ := h.live w l hw
          obtain ⟨o', k1, k2, k3⟩ := h.live v x hv
          rw [h1, Option.some.injEq] at k1
          subst k1
          by_cases hs : o.sz = p.sz
          · -- the array is kept
            rcases k3 with ⟨k4, k5⟩ | ⟨a, k4, k5⟩
            · have hl : l = [] := List.length_eq_zero_iff.1 (by rw [← g2, ← hs, k2, k5]; rfl)
              refine ⟨s, ?_, ?_⟩
              · have hp0 : p.sz = 0 := by rw [g2, hl]; rfl
                have ho : o = ⟨none, 0⟩ := by
                  cases o
                  simp only at k4 hs
                  rw [k4, hs, hp0]
                simp [Op.run, St.assign, h1, g1, evw, room, hs, hp0, Heap.read, Heap.write, k4]
                rw [← ho, ← h1, Function.update_eq_self]
              · rw [hl, ← k5, ← hv, Function.update_eq_self]
                exact h
            · have hlen : l.length = x.length := by rw [← g2, ← hs, k2]
              refine ⟨_, ?_, h.overwrite hv h1 k4 hlen⟩
              have hvar : Function.update s.var v (some ⟨some a, p.sz⟩) = s.var := by
                have : o = ⟨some a, p.sz⟩ := by
                  cases o
                  simp only at k4 hs
                  rw [k4, hs]
                rw [← this, ← h1, Function.update_eq_self]
              by_cases h0l : l = []
              · subst h0l
                have hx : x = [] := List.length_eq_zero_iff.1 hlen.symm
                rw [hx] at k5
                have hp0 : p.sz = 0 := by rw [g2]; rfl
                rw [hp0] at hvar
                simp [Op.run, St.assign, h1, g1, evw, room, hs, hp0, Heap.read, Heap.write, k4, hvar]
                rw [← k5, Function.update_eq_self]
              · have hl0 : l.length ≠ 0 := fun e => h0l (List.length_eq_zero_iff.1 e)
                rcases g3 with ⟨-, g4⟩ | ⟨b, g4, g5⟩
                · exact absurd g4 h0l
                · rw [g2] at hvar
                  simp [Op.run, St.assign, h1, g1, evw, room, hs, g2, g4, g5, Heap.read, Heap.write, k4, k5, hvar, h0l,
                    Nat.le_of_eq hlen, List.drop_eq_nil_of_le (Nat.le_of_eq hlen.symm)]
          · -- a new array
            have := h3.fresh (Function.update_self ..) l
            rw [update_none m, update_none s.var] at this
            refine ⟨_, ?_, this⟩
            by_cases h0l : l = []
            · subst h0l
              have hp0 : p.sz = 0 := by rw [g2]; rfl
              rw [hp0] at hs
              simp [Op.run, St.assign, h1, g1, evw, room, hs, hp0, h2, Heap.alloc, Heap.read, Heap.write]
            · have hl0 : l.length ≠ 0 := fun e => h0l (List.length_eq_zero_iff.1 e)
              rcases g3 with ⟨-, g4⟩ | ⟨b, g4, g5⟩
              · exact absurd g4 h0l
              · have hne : b ≠ hp.fresh := by
                  have := h.ptr_lt g1 g4
                  rw [h0]
                  omega
                have g6 := h4 w p evw g1 b g4
                rw [g2] at hs
                simp [Op.run, St.assign, h1, g1, evw, room, hs, g2, h2, g4, Heap.alloc, Heap.read, Heap.write, h0l,
                  Function.update_of_ne hne, g6, g5, drop_junk]
  | set v i x =>
    rcases hv : m v with _ | l
    · simp [Op.spec, hv] at e
    · simp only [Op.spec, hv, Option.bind_some] at e
      by_cases hi : i < l.length
      · rw [if_pos hi, Option.some.injEq] at e
        subst e
        obtain ⟨o, h1, h2, h3⟩ := h.live v l hv
        rcases h3 with ⟨-, h4⟩ | ⟨a, h4, h5⟩
        · rw [h4] at hi
          exact absurd hi (by simp)
        · refine ⟨_, ?_, h.overwrite hv h1 h4 (l' := l.set i x) (by simp)⟩
          simp [Op.run, St.set, h1, h4, h5, hi]
      · rw [if_neg hi] at e
        cases e

/-- **C87.**  In every well-formed program, unique storages are independent lists: no operation is undefined, each storage has the size and
elements of its list, every array that is allocated belongs to exactly one storage, and when all storages are destroyed no array is left. -/
theorem C87_unique (os : List (Op T)) (m : Vals T) (e : os.foldlM Op.spec (fun _ => none) = some m) :
    ∃ s, os.foldlM Op.run St.empty = some s ∧ (∀ v, s.size v = (m v).map List.length) ∧
      (∀ v i, s.get v i = (m v).bind (·[i]?)) ∧
      (∀ a, (s.heap.arr a).isSome → ∃! v, ∃ o, s.var v = some o ∧ o.data = some a) ∧
      ((∀ v, m v = none) → ∀ a, s.heap.arr a = none) := by
  have key : ∀ (os : List (Op T)) (s : St T) (k : Vals T), Rep s k → os.foldlM Op.spec k = some m →
      ∃ s', os.foldlM Op.run s = some s' ∧ Rep s' m := by
    intro os
    induction os with
    | nil =>
      intro s k h e
      rw [List.foldlM_nil] at e
      cases e
      exact ⟨s, rfl, h⟩
    | cons o os ih =>
      intro s k h e
      rw [List.foldlM_cons] at e
      rcases ho : o.spec k with _ | k'
      · rw [ho] at e
        cases e
      · rw [ho] at e
        obtain ⟨s', h1, h2⟩ := step h o ho
        obtain ⟨s'', h3, h4⟩ := ih s' k' h2 e
        exact ⟨s'', by rw [List.foldlM_cons, h1]; exact h3, h4⟩
  obtain ⟨s, h1, h⟩ := key os St.empty _ rep_empty e
  refine ⟨s, h1, fun v => ?_, fun v i => ?_, fun a ha => ?_, fun hd a => ?_⟩
  · rcases hv : m v with _ | l
    · simp [St.size, h.dead v hv]
    · obtain ⟨o, g1, g2, -⟩ := h.live v l hv
      simp [St.size, g1, g2]
  · rcases hv : m v with _ | l
    · simp [St.get, h.dead v hv]
    · obtain ⟨o, g1, g2, g3⟩ := h.live v l hv
      rcases g3 with ⟨g4, g5⟩ | ⟨b, g4, g5⟩
      · simp [St.get, g1, g4, g5]
      · simp [St.get, g1, g4, g5]
  · obtain ⟨v, o, g1, g2⟩ := h.leak a ha
    exact ⟨v, ⟨o, g1, g2⟩, fun w ⟨p, k1, k2⟩ => h.own w v p o a k1 g1 k2 g2⟩
  · by_contra hn
    obtain ⟨v, o, g1, -⟩ := h.leak a (by rcases hx : s.heap.arr a with _ | l; exacts [absurd hx hn, rfl])
    rw [h.dead v (hd v)] at g1
    cases g1

end Geomc.Storage
