import Verif.SmallStorage.Lemmas

/-!
# C10: `SmallStorage` behaves like a sequence and never touches a dead slot

The full claim is false: whenever the array must grow, the relocation loop of `_ensure_capacity`
runs to the *requested* capacity and moves from a slot that holds no object, and the move constructor
of an array in its inline buffer leaves the source claiming objects it no longer has.  Both failures
are proved below; what holds is proved for every history which stays inside the current capacity,
and for copying, move assignment, heap moves, comparison and destruction.
-/

namespace Geomc.SmallStorage

variable {α : Type} {N : ℕ}

/-- The ideal sequence.  `none`: the caller broke a precondition, or asked for more than `c` items. -/
def ideal (c : ℕ) (L : List α) : Op α → Option (List α × Obs α)
  | .pushBack v => if L.length < c then some (L ++ [v], .unit) else none
  | .popBack => some (L.dropLast, .opt L.getLast?)
  | .resize n v => if n ≤ c then some (L.take n ++ List.replicate (n - L.length) v, .unit) else none
  | .reserve n => if n ≤ c then some (L, .unit) else none
  | .clear => some ([], .unit)
  | .get i => L[i]?.map fun v => (L, .val v)
  | .back => L.getLast?.map fun v => (L, .val v)
  | .size => some (L, .num L.length)

/-- The ideal history. -/
def idealRun (c : ℕ) (L : List α) : List (Op α) → Option (List α × List (Obs α))
  | [] => some (L, [])
  | o :: os => do
    let (L, x) ← ideal c L o
    let (L, xs) ← idealRun c L os
    some (L, x :: xs)

theorem step_refines (d : SS α N) (L : List α) (h : Inv d L) (o : Op α) (L' : List α) (x : Obs α)
    (hs : ideal d.cap L o = some (L', x)) :
    ∃ d', d.step o = some (d', x) ∧ Inv d' L' ∧ d'.cap = d.cap := by
  cases o with
  | pushBack v =>
    simp only [ideal] at hs
    split_ifs at hs with hc
    simp only [Option.some.injEq, Prod.mk.injEq] at hs
    obtain ⟨rfl, rfl⟩ := hs
    obtain ⟨d', e, hi, hc⟩ := inv_pushBack d L h hc v
    exact ⟨d', by simp [SS.step, e], hi, hc⟩
  | popBack =>
    simp only [ideal, Option.some.injEq, Prod.mk.injEq] at hs
    obtain ⟨rfl, rfl⟩ := hs
    obtain ⟨d', e, hi, hc⟩ := inv_popBack d L h
    exact ⟨d', by simp [SS.step, e], hi, hc⟩
  | resize n v =>
    simp only [ideal] at hs
    split_ifs at hs with hc
    simp only [Option.some.injEq, Prod.mk.injEq] at hs
    obtain ⟨rfl, rfl⟩ := hs
    obtain ⟨d', e, hi, hc⟩ := inv_resize d L h n v hc
    exact ⟨d', by simp [SS.step, e], hi, hc⟩
  | reserve n =>
    simp only [ideal] at hs
    split_ifs at hs with hc
    simp only [Option.some.injEq, Prod.mk.injEq] at hs
    obtain ⟨rfl, rfl⟩ := hs
    exact ⟨d, by simp [SS.step, ensureCapacity_noop d n hc], h, rfl⟩
  | clear =>
    simp only [ideal, Option.some.injEq, Prod.mk.injEq] at hs
    obtain ⟨rfl, rfl⟩ := hs
    obtain ⟨d', e, hi, hc⟩ := inv_clear d L h
    exact ⟨d', by simp [SS.step, e], hi, hc⟩
  | get i =>
    simp only [ideal, Option.map_eq_some_iff, Prod.mk.injEq] at hs
    obtain ⟨v, e, rfl, rfl⟩ := hs
    exact ⟨d, by simp [SS.step, inv_get d L h i, e], h, rfl⟩
  | back =>
    simp only [ideal, Option.map_eq_some_iff, Prod.mk.injEq] at hs
    obtain ⟨v, e, rfl, rfl⟩ := hs
    exact ⟨d, by simp [SS.step, inv_back d L h, e], h, rfl⟩
  | size =>
    simp only [ideal, Option.some.injEq, Prod.mk.injEq] at hs
    obtain ⟨rfl, rfl⟩ := hs
    exact ⟨d, by simp [SS.step, h.size], h, rfl⟩

theorem run_refines (os : List (Op α)) : ∀ (d : SS α N) (L : List α), Inv d L →
    ∀ L' xs, idealRun d.cap L os = some (L', xs) →
    ∃ d', d.run os = some (d', xs) ∧ Inv d' L' ∧ d'.cap = d.cap := by
  induction os with
  | nil =>
    intro d L h L' xs hs
    simp only [idealRun, Option.some.injEq, Prod.mk.injEq] at hs
    obtain ⟨rfl, rfl⟩ := hs
    exact ⟨d, rfl, h, rfl⟩
  | cons o os ih =>
    intro d L h L' xs hs
    simp only [idealRun, Option.bind_eq_bind, Option.bind_eq_some_iff] at hs
    obtain ⟨⟨L1, x⟩, e1, ⟨L2, ys⟩, e2, e3⟩ := hs
    simp only [Option.some.injEq, Prod.mk.injEq] at e3
    obtain ⟨rfl, rfl⟩ := e3
    obtain ⟨d1, f1, hi, hc⟩ := step_refines d L h o L1 x e1
    rw [← hc] at e2
    obtain ⟨d2, f2, hi2, hc2⟩ := ih d1 L1 hi L2 ys e2
    exact ⟨d2, by simp [SS.run, f1, f2], hi2, by omega⟩

/-- **C10 (within capacity).**  Construct an array from any list of items (`L₀ = []` being the empty
array), apply any history of calls never asking for more items than the array's capacity
`max |L₀| N`: every call is defined, returns exactly what the ideal sequence returns, and at the end
the array can be destroyed, every item being destroyed exactly once.
Missing from the full claim: growth beyond the capacity (`C10_growth_refuted`) and the inline move
constructor (`C10_moveNew_refuted`). -/
theorem C10_history_partial (L₀ : List α) (os : List (Op α)) (L : List α) (xs : List (Obs α))
    (hs : idealRun (max L₀.length N) L₀ os = some (L, xs)) :
    ∃ d d' d'' : SS α N, SS.ofList L₀ = some d ∧ d.run os = some (d', xs) ∧
      d'.size = L.length ∧ (∀ i, d'.get i = L[i]?) ∧
      d'.destroyAll = some d'' ∧ ∀ p < d''.alloc, d''.slots p = none := by
  obtain ⟨d, e, h⟩ := inv_ofList (N := N) L₀
  have hcap : d.cap = max L₀.length N := by
    have hal : (if L₀.length > N then L₀.length else N) = max L₀.length N := by
      split_ifs <;> omega
    obtain ⟨d1, e0, e1, e2, e3, e4⟩ := fill_loop (N := N) (fun i => L₀[i]?) L₀ (fun _ _ => rfl)
      ⟨if L₀.length > N then L₀.length else N, fun _ => none, max L₀.length N, L₀.length⟩
      (by simp only; omega) (by simp)
    have : SS.ofList (N := N) L₀ = some d1 := e0
    rw [e] at this
    cases this
    exact e2
  rw [← hcap] at hs
  obtain ⟨d', f, hi, hc⟩ := run_refines os d L₀ h L xs hs
  obtain ⟨d'', g, g1, g2, _, g3⟩ := inv_destroyAll d' L hi
  refine ⟨d, d', d'', e, f, hi.size, inv_get d' L hi, g, fun p hp => g3 p ?_⟩
  have := hi.alloc
  omega

example : ∃ r, idealRun (max 0 4) ([] : List ℕ)
    [.pushBack 1, .resize 3 9, .popBack, .get 1, .back, .reserve 4, .clear, .size] = some r :=
  ⟨_, rfl⟩

/-- **C10 refuted, growth.**  For *every* well-formed array and every request beyond its capacity,
`reserve`, and hence `push_back` on a full array, moves from a slot which holds no object. -/
theorem C10_growth_refuted (L : List α) (d : SS α N) (h : Inv d L) (n : ℕ) (hn : d.cap < n) :
    d.step (.reserve n) = none ∧ (L.length = d.cap → ∀ v, d.step (.pushBack v) = none) := by
  refine ⟨by simp [SS.step, ensureCapacity_ub d L h n hn], fun hL v => ?_⟩
  simp [SS.step, SS.pushBack, ensureCapacity_ub d L h (d.size + 1) (by have := h.size; omega)]

/-- Concretely: `SmallStorage<T,1>` after two `push_back`s. -/
theorem C10_growth_refuted_witness :
    (SS.run (SS.empty : SS ℕ 1) [.pushBack 7, .pushBack 8]).isNone = true := by decide

/-- **C10 refuted, inline move construction.**  Moving from a one-element inline array and then
destroying the source destroys the same object twice. -/
theorem C10_moveNew_refuted :
    (do let (a, _) ← SS.run (SS.empty : SS ℕ 1) [.pushBack 7]
        let (_, a) ← a.moveNew
        a.destroyAll).isNone = true := by decide

/-- Every array reachable by a constructor, by copying or by assignment from reachable arrays, with
the contents it should have. -/
inductive Reach : SS α N → List α → Prop
  | ofList {L d} : SS.ofList L = some d → Reach d L
  | step {d L d' L' o x} : Reach d L → ideal d.cap L o = some (L', x) → d.step o = some (d', x) →
      Reach d' L'
  | copyNew {o L d} : Reach o L → SS.copyNew o = some d → Reach d L
  | copyAssign {d L₀ o L d'} : Reach d L₀ → Reach o L → d.copyAssign o = some d' → Reach d' L
  | moveAssignDst {d L₀ o L d' o'} : Reach d L₀ → Reach o L → d.moveAssign o = some (d', o') →
      Reach d' L
  | moveAssignSrc {d L₀ o L d' o'} : Reach d L₀ → Reach o L → d.moveAssign o = some (d', o') →
      Reach o' []

theorem Reach.inv {d : SS α N} {L : List α} (h : Reach d L) : Inv d L := by
  induction h with
  | ofList e =>
    obtain ⟨d', e', h⟩ := inv_ofList (N := N) _
    rw [e] at e'; cases e'; exact h
  | step _ h1 h2 ih =>
    obtain ⟨d', e, h, _⟩ := step_refines _ _ ih _ _ _ h1
    rw [h2] at e; cases e; exact h
  | copyNew _ e ih =>
    obtain ⟨d', e', h⟩ := inv_copyNew _ _ ih
    rw [e] at e'; cases e'; exact h
  | copyAssign _ _ e ih1 ih2 =>
    obtain ⟨d', e', h⟩ := inv_copyAssign _ _ ih1 _ _ ih2
    rw [e] at e'; cases e'; exact h
  | moveAssignDst _ _ e ih1 ih2 =>
    obtain ⟨d', o', e', h, _⟩ := inv_moveAssign _ _ ih1 _ _ ih2
    rw [e] at e'; cases e'; exact h
  | moveAssignSrc _ _ e ih1 ih2 =>
    obtain ⟨d', o', e', _, h⟩ := inv_moveAssign _ _ ih1 _ _ ih2
    rw [e] at e'; cases e'; exact h

/-- **C10, copies, moves and comparison.**  For arrays reached by any such history: copy construction
and copy assignment yield an array with the source's items; move assignment yields the source's items
and leaves the source empty; `==` decides equality of contents; destruction is defined. -/
theorem C10_copy_move_eq_partial [DecidableEq α] {d o : SS α N} {L₀ L : List α} (hd : Reach d L₀)
    (ho : Reach o L) :
    (∃ c, o.copyNew = some c ∧ c.size = L.length ∧ ∀ i, c.get i = L[i]?) ∧
    (∃ c, d.copyAssign o = some c ∧ c.size = L.length ∧ ∀ i, c.get i = L[i]?) ∧
    (∃ c s, d.moveAssign o = some (c, s) ∧ c.size = L.length ∧ (∀ i, c.get i = L[i]?) ∧
      s.size = 0 ∧ ∀ p < s.alloc, s.slots p = none) ∧
    d.eq o = some (decide (L₀ = L)) ∧ d.destroyAll.isSome = true ∧
    (N < o.cap → ∃ c s, o.moveNew = some (c, s) ∧ c.size = L.length ∧ (∀ i, c.get i = L[i]?) ∧
      s.size = 0 ∧ ∀ p < s.alloc, s.slots p = none) := by
  have h0 := hd.inv
  have h := ho.inv
  have key : ∀ s : SS α N, Inv s [] → s.size = 0 ∧ ∀ p < s.alloc, s.slots p = none := by
    intro s hs
    refine ⟨hs.size, fun p hp => ?_⟩
    have := hs.alloc
    rw [hs.slots p (by omega)]; rfl
  refine ⟨?_, ?_, ?_, inv_eq d o L₀ L h0 h, ?_, ?_⟩
  · obtain ⟨c, e, hc⟩ := inv_copyNew o L h
    exact ⟨c, e, hc.size, inv_get c L hc⟩
  · obtain ⟨c, e, hc⟩ := inv_copyAssign d L₀ h0 o L h
    exact ⟨c, e, hc.size, inv_get c L hc⟩
  · obtain ⟨c, s, e, hc, hs⟩ := inv_moveAssign d L₀ h0 o L h
    exact ⟨c, s, e, hc.size, inv_get c L hc, key s hs⟩
  · obtain ⟨d', e, _⟩ := inv_destroyAll d L₀ h0
    rw [e]; rfl
  · intro hc
    obtain ⟨c, s, e, hc, hs⟩ := inv_moveNew_heap o L h hc
    exact ⟨c, s, e, hc.size, inv_get c L hc, key s hs⟩

example : ∃ d : SS ℕ 2, Reach d [1, 2, 3] := by
  obtain ⟨d, e, _⟩ := inv_ofList (N := 2) [1, 2, 3]
  exact ⟨d, .ofList e⟩

end Geomc.SmallStorage
