import Mathlib.Data.Set.Card
import Verif.Storage.Props

/-!
# Shared storage and storage of fixed size: C88
-/

namespace Geomc.Storage

variable {T : Type}

/-- What a program does to shared storages. -/
inductive SOp (T : Type)
  | make (v : ℕ) (src : List T)
  | copyMake (v w : ℕ)
  | assign (v w : ℕ)
  | destroy (v : ℕ)
  | set (v i : ℕ) (x : T)

def SOp.run (s : Sh T) : SOp T → Option (Sh T)
  | .make v src => s.make v src
  | .copyMake v w => s.copyMake v w
  | .assign v w => s.assign v w
  | .destroy v => s.destroy v
  | .set v i x => s.set v i x

/-- What they are meant to be: names of lists, that can be changed under each of their names. -/
structure Names (T : Type) where
  name : ℕ → Option ℕ
  list : ℕ → List T
  next : ℕ

def Names.empty : Names T := ⟨fun _ => none, fun _ => [], 0⟩

def SOp.spec (m : Names T) : SOp T → Option (Names T)
  | .make v src => if (m.name v).isSome then none else
      some ⟨Function.update m.name v (some m.next), Function.update m.list m.next src, m.next + 1⟩
  | .copyMake v w => if (m.name v).isSome then none else (m.name w).map fun a => { m with name := Function.update m.name v (some a) }
  | .assign v w => (m.name v).bind fun _ => (m.name w).map fun a => { m with name := Function.update m.name v (some a) }
  | .destroy v => (m.name v).map fun _ => { m with name := Function.update m.name v none }
  | .set v i x => (m.name v).bind fun a =>
      if i < (m.list a).length then some { m with list := Function.update m.list a ((m.list a).set i x) } else none

/-! ## Counting -/

/-- How many variables have a value. -/
noncomputable def cnt (f : ℕ → Option ℕ) (a : ℕ) : ℕ := {v | f v = some a}.ncard

variable {f : ℕ → Option ℕ}

theorem fin_of (hf : {v | (f v).isSome}.Finite) (a : ℕ) : {v | f v = some a}.Finite :=
  hf.subset fun v hv => by
    rw [Set.mem_setOf_eq] at hv ⊢
    rw [hv]
    rfl

theorem fin_update (hf : {v | (f v).isSome}.Finite) (x : ℕ) (y : Option ℕ) : {v | (Function.update f x y v).isSome}.Finite :=
  (hf.insert x).subset fun v hv => by
    by_cases e : v = x
    · exact .inl e
    · rw [Set.mem_setOf_eq, Function.update_of_ne e] at hv
      exact .inr hv

theorem cnt_add (hf : {v | (f v).isSome}.Finite) {x a : ℕ} (hx : f x ≠ some a) : cnt (Function.update f x (some a)) a = cnt f a + 1 := by
  have : {v | Function.update f x (some a) v = some a} = insert x {v | f v = some a} := by
    ext v
    rw [Set.mem_insert_iff, Set.mem_setOf_eq, Set.mem_setOf_eq]
    by_cases e : v = x
    · subst e
      simp
    · rw [Function.update_of_ne e]
      simp [e]
  rw [cnt, this, Set.ncard_insert_of_notMem (by simpa using hx) (fin_of hf a)]
  rfl

theorem cnt_sub (hf : {v | (f v).isSome}.Finite) {x a : ℕ} {y : Option ℕ} (hx : f x = some a) (hy : y ≠ some a) :
    cnt (Function.update f x y) a + 1 = cnt f a := by
  have h := cnt_add (f := Function.update f x y) (fin_update hf x y) (x := x) (a := a) (by rw [Function.update_self]; exact hy)
  rw [Function.update_idem, ← hx, Function.update_eq_self] at h
  rw [h]

theorem cnt_same {x a : ℕ} {y : Option ℕ} (hx : f x ≠ some a) (hy : y ≠ some a) : cnt (Function.update f x y) a = cnt f a := by
  have : {v | Function.update f x y v = some a} = {v | f v = some a} := by
    ext v
    rw [Set.mem_setOf_eq, Set.mem_setOf_eq]
    by_cases e : v = x
    · subst e
      rw [Function.update_self]
      exact ⟨fun h => absurd h hy, fun h => absurd h hx⟩
    · rw [Function.update_of_ne e]
  rw [cnt, this]
  rfl

theorem cnt_pos (hf : {v | (f v).isSome}.Finite) {x a : ℕ} (hx : f x = some a) : 0 < cnt f a :=
  (Set.ncard_pos (fin_of hf a)).2 ⟨x, hx⟩

theorem cnt_zero (hf : {v | (f v).isSome}.Finite) {a : ℕ} : cnt f a = 0 ↔ ∀ v, f v ≠ some a := by
  constructor
  · intro h v hv
    have := cnt_pos hf hv
    omega
  · intro h
    rw [cnt, show {v | f v = some a} = ∅ from Set.eq_empty_of_forall_notMem h, Set.ncard_empty]

/-! ## The invariant -/

structure RepS (s : Sh T) (m : Names T) : Prop where
  var : s.var = m.name
  fin : {v | (m.name v).isSome}.Finite
  arr : ∀ a, s.pool.arr a = if cnt m.name a = 0 then none else some (m.list a, cnt m.name a)
  fresh : s.pool.fresh = m.next
  bound : ∀ v a, m.name v = some a → a < m.next

theorem stepS {s : Sh T} {m m' : Names T} (h : RepS s m) (o : SOp T) (e : o.spec m = some m') : ∃ s', o.run s = some s' ∧ RepS s' m' := by
  have hn : cnt m.name m.next = 0 := (cnt_zero h.fin).2 fun v hv => by
    have := h.bound v _ hv
    omega
  have some_of : ∀ {v a}, m.name v = some a → s.pool.arr a = some (m.list a, cnt m.name a) := fun {v a} hv => by
    rw [h.arr, if_neg (by have := cnt_pos h.fin hv; omega)]
  cases o with
  | make v src =>
    rcases hv : m.name v with _ | l
    · simp only [SOp.spec, hv, Option.isSome_none, Bool.false_eq_true, if_false, Option.some.injEq] at e
      subst e
      refine ⟨_, by simp only [SOp.run, Sh.make, h.var, hv, Option.isSome_none, Bool.false_eq_true, if_false]; rfl, ?_⟩
      refine ⟨by rw [h.fresh], fin_update h.fin _ _, fun a => ?_, by rw [h.fresh], fun w a hw => ?_⟩
      · by_cases ea : a = m.next
        · subst ea
          have h1 := cnt_add h.fin (x := v) (a := m.next) (by rw [hv]; simp)
          simp only [h.fresh, Function.update_self, h1, hn]
          simp
        · have h1 := cnt_same (f := m.name) (x := v) (a := a) (y := some m.next) (by rw [hv]; simp)
            (by rw [ne_eq, Option.some.injEq]; exact fun e => ea e.symm)
          simp only [h.fresh, Function.update_of_ne ea, h1, h.arr a]
      · replace hw : Function.update m.name v (some m.next) w = some a := hw
        by_cases ew : w = v
        · rw [ew, Function.update_self, Option.some.injEq] at hw
          show a < m.next + 1
          omega
        · rw [Function.update_of_ne ew] at hw
          have := h.bound w a hw
          show a < m.next + 1
          omega
    · simp [SOp.spec, hv] at e
  | copyMake v w =>
    rcases hv : m.name v with _ | l
    · rcases hw : m.name w with _ | a
      · simp [SOp.spec, hv, hw] at e
      · simp only [SOp.spec, hv, hw, Option.isSome_none, Bool.false_eq_true, if_false, Option.map_some, Option.some.injEq] at e
        subst e
        have h1 := some_of hw
        refine ⟨⟨{ s.pool with arr := Function.update s.pool.arr a (some (m.list a, cnt m.name a + 1)) },
          Function.update s.var v (some a)⟩, by simp [SOp.run, Sh.copyMake, h.var, hv, hw, Pool.incr, h1], ?_⟩
        refine ⟨by rw [h.var], fin_update h.fin _ _, fun b => ?_, h.fresh, fun x b hx => ?_⟩
        · by_cases eb : b = a
          · subst eb
            have h2 := cnt_add h.fin (x := v) (a := b) (by rw [hv]; simp)
            simp only [Function.update_self, h2]
            simp
          · have h2 := cnt_same (f := m.name) (x := v) (a := b) (y := some a) (by rw [hv]; simp)
              (by rw [ne_eq, Option.some.injEq]; exact fun e => eb e.symm)
            simp only [Function.update_of_ne eb, h2, h.arr b]
        · replace hx : Function.update m.name v (some a) x = some b := hx
          by_cases ex : x = v
          · rw [ex, Function.update_self] at hx
            exact h.bound w b (hw.trans hx)
          · rw [Function.update_of_ne ex] at hx
            exact h.bound x b hx
    · simp [SOp.spec, hv] at e
  | assign v w =>
    rcases hv : m.name v with _ | x
    · simp [SOp.spec, hv] at e
    · rcases hw : m.name w with _ | a
      · simp [SOp.spec, hv, hw] at e
      · simp only [SOp.spec, hv, hw, Option.bind_some, Option.map_some, Option.some.injEq] at e
        subst e
        have h1 := some_of hw
        have h0 := some_of hv
        have p0 := cnt_pos h.fin hv
        have p1 := cnt_pos h.fin hw
        have hb : ∀ y b, Function.update m.name v (some a) y = some b → b < m.next := fun y b hy => by
          by_cases ey : y = v
          · rw [ey, Function.update_self] at hy
            exact h.bound w b (hw.trans hy)
          · rw [Function.update_of_ne ey] at hy
            exact h.bound y b hy
        by_cases exa : x = a
        · subst exa
          have hself : Function.update m.name v (some x) = m.name := by rw [← hv, Function.update_eq_self]
          refine ⟨s, ?_, ⟨by rw [hself]; exact h.var, fin_update h.fin _ _, fun b => by rw [hself]; exact h.arr b, h.fresh, hb⟩⟩
          have h4 : Function.update s.pool.arr x (some (m.list x, cnt m.name x)) = s.pool.arr := by rw [← h1, Function.update_eq_self]
          have h5 : cnt m.name x + 1 - 1 = cnt m.name x := by omega
          have h6 : ¬cnt m.name x + 1 = 1 := by omega
          simp only [SOp.run, Sh.assign, h.var, hv, hw, Pool.incr, h1, Option.bind_eq_bind, Option.bind_some, Pool.decr,
            Function.update_self, h6, if_false, h5, Function.update_idem, h4, hself]
          rw [← h.var]
        · have hax : a ≠ x := fun e => exa e.symm
          refine ⟨⟨⟨Function.update (Function.update s.pool.arr a (some (m.list a, cnt m.name a + 1))) x
              (if cnt m.name x = 1 then none else some (m.list x, cnt m.name x - 1)), s.pool.fresh⟩, Function.update s.var v (some a)⟩,
            by simp [SOp.run, Sh.assign, h.var, hv, hw, Pool.incr, h1, Pool.decr, Function.update_of_ne exa, h0], ?_⟩
          refine ⟨by rw [h.var], fin_update h.fin _ _, fun b => ?_, h.fresh, hb⟩
          by_cases eb : b = x
          · subst eb
            have h2 := cnt_sub h.fin (x := v) (a := b) (y := some a) hv (by rw [ne_eq, Option.some.injEq]; exact hax)
            simp only [Function.update_self]
            by_cases h3 : cnt m.name b = 1
            · rw [if_pos h3, if_pos (by omega)]
            · rw [if_neg h3, if_neg (by omega), show cnt m.name b - 1 = cnt (Function.update m.name v (some a)) b by omega]
          · by_cases ea : b = a
            · subst ea
              have h2 := cnt_add h.fin (x := v) (a := b) (by rw [hv, ne_eq, Option.some.injEq]; exact exa)
              simp only [Function.update_of_ne eb, Function.update_self, h2]
              simp
            · have h2 := cnt_same (f := m.name) (x := v) (a := b) (y := some a) (by rw [hv, ne_eq, Option.some.injEq]; exact fun e => eb e.symm)
                (by rw [ne_eq, Option.some.injEq]; exact fun e => ea e.symm)
              simp only [Function.update_of_ne eb, Function.update_of_ne ea, h2, h.arr b]
  | destroy v =>
    rcases hv : m.name v with _ | x
    · simp [SOp.spec, hv] at e
    · simp only [SOp.spec, hv, Option.map_some, Option.some.injEq] at e
      subst e
      have h0 := some_of hv
      have p0 := cnt_pos h.fin hv
      refine ⟨⟨{ s.pool with arr := Function.update s.pool.arr x (if cnt m.name x = 1 then none else some (m.list x, cnt m.name x - 1)) },
        Function.update s.var v none⟩, by simp [SOp.run, Sh.destroy, h.var, hv, Pool.decr, h0], ?_⟩
      refine ⟨by rw [h.var], fin_update h.fin _ _, fun b => ?_, h.fresh, fun y b hy => ?_⟩
      · by_cases eb : b = x
        · subst eb
          have h2 := cnt_sub h.fin (x := v) (a := b) (y := none) hv (by simp)
          simp only [Function.update_self]
          by_cases h3 : cnt m.name b = 1
          · rw [if_pos h3, if_pos (by omega)]
          · rw [if_neg h3, if_neg (by omega), show cnt m.name b - 1 = cnt (Function.update m.name v none) b by omega]
        · have h2 := cnt_same (f := m.name) (x := v) (a := b) (y := none) (by rw [hv, ne_eq, Option.some.injEq]; exact fun e => eb e.symm) (by simp)
          simp only [Function.update_of_ne eb, h2, h.arr b]
      · replace hy : Function.update m.name v none y = some b := hy
        by_cases ey : y = v
        · rw [ey, Function.update_self] at hy
          cases hy
        · rw [Function.update_of_ne ey] at hy
          exact h.bound y b hy
  | set v i x =>
    rcases hv : m.name v with _ | a
    · simp [SOp.spec, hv] at e
    · simp only [SOp.spec, hv, Option.bind_some] at e
      by_cases hi : i < (m.list a).length
      · rw [if_pos hi, Option.some.injEq] at e
        subst e
        have h0 := some_of hv
        refine ⟨{ s with pool := { s.pool with arr := Function.update s.pool.arr a (some ((m.list a).set i x, cnt m.name a)) } },
          by simp [SOp.run, Sh.set, h.var, hv, h0, hi], ?_⟩
        refine ⟨h.var, h.fin, fun b => ?_, h.fresh, h.bound⟩
        by_cases eb : b = a
        · subst eb
          have := cnt_pos h.fin hv
          simp only [Function.update_self]
          rw [if_neg (by omega)]
        · simp only [Function.update_of_ne eb, h.arr b]
      · rw [if_neg hi] at e
        cases e

/-- **C88.**  In every well-formed program shared storages are names of lists: no operation is undefined, a change through one name is seen
through all others, and a list is kept exactly as long as it has a name. -/
theorem C88_shared (os : List (SOp T)) (m : Names T) (e : os.foldlM SOp.spec Names.empty = some m) :
    ∃ s, os.foldlM SOp.run Sh.empty = some s ∧ (∀ v i, s.get v i = (m.name v).bind fun a => (m.list a)[i]?) ∧
      (∀ v w, s.var v = s.var w ↔ m.name v = m.name w) ∧ (∀ a, (s.pool.arr a).isSome ↔ ∃ v, s.var v = some a) := by
  have key : ∀ (os : List (SOp T)) (s : Sh T) (k : Names T), RepS s k → os.foldlM SOp.spec k = some m →
      ∃ s', os.foldlM SOp.run s = some s' ∧ RepS s' m := by
    intro os
    induction os with
    | nil =>
      intro s k h e
      rw [List.foldlM_nil] at e
      cases e
      exact ⟨s, rfl, h⟩
    | cons o os ih =>
      intro s k h e
      rw [List.foldlM_cons] at e
      rcases ho : o.spec k with _ | k'
      · rw [ho] at e
        cases e
      · rw [ho] at e
        obtain ⟨s', h1, h2⟩ := stepS h o ho
        obtain ⟨s'', h3, h4⟩ := ih s' k' h2 e
        exact ⟨s'', by rw [List.foldlM_cons, h1]; exact h3, h4⟩
  have h0 : RepS (Sh.empty : Sh T) Names.empty := by
    refine ⟨rfl, by simp [Names.empty], fun a => ?_, rfl, fun _ _ h => by cases h⟩
    rw [if_pos ((cnt_zero (by simp [Names.empty])).2 fun v hv => by cases hv)]
    rfl
  obtain ⟨s, h1, h⟩ := key os Sh.empty _ h0 e
  refine ⟨s, h1, fun v i => ?_, fun v w => by rw [h.var], fun a => ?_⟩
  · rcases hv : m.name v with _ | a
    · simp [Sh.get, h.var, hv]
    · simp only [Sh.get, h.var, hv, Option.bind_eq_bind, Option.bind_some, h.arr a]
      rw [if_neg (by have := cnt_pos h.fin hv; omega)]
      rfl
  · rw [h.arr a, h.var]
    by_cases hc : cnt m.name a = 0
    · rw [if_pos hc]
      have := (cnt_zero h.fin).1 hc
      simp [this]
    · rw [if_neg hc]
      simp only [Option.isSome_some, true_iff]
      by_contra hn
      push Not at hn
      exact hc ((cnt_zero h.fin).2 hn)

/-! ## Fixed size -/

/-- A storage of fixed size made from `n` elements: right if `n` is its size. -/
theorem C88_fixed_partial (N : ℕ) (src junk : List T) (h : src.length = N) (hj : junk.length = N) :
    fixedFrom N N src = some src ∧ fixedUniqueFrom N N src junk = some src := by
  subst h
  refine ⟨by simp [fixedFrom], ?_⟩
  simp [fixedUniqueFrom, List.drop_eq_nil_of_le (Nat.le_of_eq hj)]

/-- What the constructors of storage of fixed size do with `n` elements out of `src`: `Storage` copies `N` of them, and
`UniqueStorage` copies `n` and leaves the others as they are; beyond the source or the storage it is undefined. -/
theorem C88_fixed (N n : ℕ) (src junk : List T) (hj : junk.length = N) :
    (fixedFrom N n src = none ↔ src.length < N) ∧ (fixedUniqueFrom N n src junk = none ↔ src.length < n ∨ N < n) ∧
    (∀ r, fixedFrom N n src = some r → r.length = N ∧ ∀ i < N, r[i]? = src[i]?) ∧
    ∀ r, fixedUniqueFrom N n src junk = some r →
      r.length = N ∧ ∀ i < N, r[i]? = if i < n then src[i]? else junk[i]? := by
  refine ⟨?_, ?_, ?_, ?_⟩
  · unfold fixedFrom
    by_cases h : N ≤ src.length
    · simp [h]
    · simp [h, not_le.1 h]
  · unfold fixedUniqueFrom
    by_cases h : n ≤ src.length ∧ n ≤ N
    · simp [h]
    · rw [if_neg h]
      simp only [true_iff]
      omega
  · intro r hr
    unfold fixedFrom at hr
    by_cases h : N ≤ src.length
    · rw [if_pos h] at hr
      cases hr
      refine ⟨by simp [h], fun i hi => ?_⟩
      rw [List.getElem?_take_of_lt hi]
    · rw [if_neg h] at hr
      cases hr
  · intro r hr
    unfold fixedUniqueFrom at hr
    by_cases h : n ≤ src.length ∧ n ≤ N
    · rw [if_pos h] at hr
      cases hr
      refine ⟨by simp; omega, fun i hi => ?_⟩
      by_cases hin : i < n
      · rw [if_pos hin, List.getElem?_append_left (by simp; omega), List.getElem?_take_of_lt hin]
      · rw [if_neg hin, List.getElem?_append_right (by simp; omega), List.getElem?_drop]
        congr 1
        simp
        omega
    · rw [if_neg h] at hr
      cases hr

/-- `Storage` reads `N` elements, however many there are; `UniqueStorage` writes `n`, however few there is room for. -/
theorem C88_fixed_refuted (N n : ℕ) (src junk : List T) (hn : src.length = n) :
    (fixedFrom N n src = none ↔ n < N) ∧ (fixedUniqueFrom N n src junk = none ↔ N < n) := by
  subst hn
  constructor
  · rw [fixedFrom]
    by_cases h : N ≤ src.length
    · rw [if_pos h]
      simp only [reduceCtorEq, false_iff]
      omega
    · rw [if_neg h]
      simp only [true_iff]
      omega
  · rw [fixedUniqueFrom]
    by_cases h : src.length ≤ N
    · rw [if_pos ⟨Nat.le_refl _, h⟩]
      simp only [reduceCtorEq, false_iff]
      omega
    · rw [if_neg (fun e => h e.2)]
      simp only [true_iff]
      omega

/-! ## Examples -/

example : ∃ m : Vals ℕ, ([.makeFrom 0 [1, 2, 3] id, .copyMake 1 0 id, .set 0 1 7, .make 2 2 id, .assign 2 0 id, .moveAssign 1 2] :
    List (Op ℕ)).foldlM Op.spec (fun _ => none) = some m ∧ m 0 = some [1, 7, 3] ∧ m 1 = some [1, 7, 3] ∧ m 2 = some [] :=
  ⟨_, rfl, by decide⟩

example : (([.makeFrom 0 [1, 2, 3] id, .copyMake 1 0 id, .set 0 1 7, .make 2 2 id, .assign 2 0 id, .moveAssign 1 2] :
    List (Op ℕ)).foldlM Op.run St.empty).bind (fun s => s.get 1 1) = some 7 := by decide

example : (([.make 0 [1, 2, 3], .copyMake 1 0, .set 0 1 7, .destroy 0, .make 2 [5], .copyMake 3 2, .assign 2 1] : List (SOp ℕ)).foldlM
    SOp.run Sh.empty).map (fun s => (s.get 1 1, s.get 2 1, s.get 3 0, s.get 0 0)) = some (some 7, some 7, some 5, none) := by decide

/-- An object assigned to itself by move loses its elements. -/
theorem C87_self_move {s : St T} {v : ℕ} {o : Uniq} {a : ℕ} {l : List T} (h : s.var v = some o) (ha : o.data = some a)
    (hl : s.heap.arr a = some l) : ∃ s', s.moveAssign v v = some s' ∧ s'.size v = some 0 ∧ s'.heap.arr a = none := by
  refine ⟨_, by simp [St.moveAssign, h, ha, Heap.free, hl]; rfl, ?_, ?_⟩
  · simp [St.size]
  · simp

end Geomc.Storage
