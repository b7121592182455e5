import Verif.Deque.Lemmas

/-!
# Properties C08, C09: `Deque` behaves as a double ended queue over every history

The specification is the ideal list: `Spec.step` / `Spec.pstep` below.  It returns `none` exactly for
calls the documentation gives no meaning (reading or indexing an empty deque, moving an object onto
itself).
-/

namespace Geomc.Deque

variable {α : Type} {N : ℕ}

namespace Spec

/-- Ideal effect and result of one call on a list. -/
def step (L : List α) : Op α → Option (List α × Obs α)
  | .pushBack v => some (L ++ [v], .unit)
  | .pushFront v => some (v :: L, .unit)
  | .popBack => some (L.dropLast, .opt L.getLast?)
  | .popFront => some (L.tail, .opt L.head?)
  | .clear => some ([], .unit)
  | .reserve _ => some (L, .unit)
  | .get i => (L[(i % (L.length : ℤ)).toNat]?).map fun v => (L, .val v)
  | .set i v => if L = [] then none else some (L.set (i % (L.length : ℤ)).toNat v, .unit)
  | .front => L.head?.map fun v => (L, .val v)
  | .back => L.getLast?.map fun v => (L, .val v)
  | .size => some (L, .num L.length)

open Classical in
/-- Ideal effect of one operation on a pool of lists. -/
noncomputable def pstep (pool : ℕ → List α) : POp α → Option ((ℕ → List α) × Obs α)
  | .on r o => (step (pool r) o).map fun x => (Function.update pool r x.1, x.2)
  | .copyAssign r s => some (Function.update pool r (pool s), .unit)
  | .moveAssign r s =>
    if r = s then none else some (Function.update (Function.update pool s []) r (pool s), .unit)
  | .moveNew r s =>
    if r = s then none else some (Function.update (Function.update pool s []) r (pool s), .unit)
  | .copyNew r s =>
    if r = s then none else some (Function.update pool r (pool s), .unit)

/-- Ideal run of a history. -/
noncomputable def prun (pool : ℕ → List α) : List (POp α) → Option ((ℕ → List α) × List (Obs α))
  | [] => some (pool, [])
  | o :: os => do
    let (pool, x) ← pstep pool o
    let (pool, xs) ← prun pool os
    some (pool, x :: xs)

end Spec

/-- One step refines the ideal step. -/
theorem step_refines (d : Dq α N) (L : List α) (h : Inv d L) (o : Op α) (L' : List α) (x : Obs α)
    (hs : Spec.step L o = some (L', x)) : ∃ d', d.step o = some (d', x) ∧ Inv d' L' := by
  cases o with
  | pushBack v =>
    obtain ⟨d', e, i⟩ := inv_pushBack d L h v
    simp only [Spec.step, Option.some.injEq, Prod.mk.injEq] at hs
    obtain ⟨rfl, rfl⟩ := hs
    exact ⟨d', by simp [Dq.step, e], i⟩
  | pushFront v =>
    obtain ⟨d', e, i⟩ := inv_pushFront d L h v
    simp only [Spec.step, Option.some.injEq, Prod.mk.injEq] at hs
    obtain ⟨rfl, rfl⟩ := hs
    exact ⟨d', by simp [Dq.step, e], i⟩
  | popBack =>
    obtain ⟨d', e, i⟩ := inv_popBack d L h
    simp only [Spec.step, Option.some.injEq, Prod.mk.injEq] at hs
    obtain ⟨rfl, rfl⟩ := hs
    exact ⟨d', by simp [Dq.step, e], i⟩
  | popFront =>
    obtain ⟨d', e, i⟩ := inv_popFront d L h
    simp only [Spec.step, Option.some.injEq, Prod.mk.injEq] at hs
    obtain ⟨rfl, rfl⟩ := hs
    exact ⟨d', by simp [Dq.step, e], i⟩
  | clear =>
    obtain ⟨d', e, i⟩ := inv_clear d L h
    simp only [Spec.step, Option.some.injEq, Prod.mk.injEq] at hs
    obtain ⟨rfl, rfl⟩ := hs
    exact ⟨d', by simp [Dq.step, e], i⟩
  | reserve n =>
    obtain ⟨d', e, i, _⟩ := inv_reserve d L h n
    simp only [Spec.step, Option.some.injEq, Prod.mk.injEq] at hs
    obtain ⟨rfl, rfl⟩ := hs
    exact ⟨d', by simp [Dq.step, e], i⟩
  | get i =>
    simp only [Spec.step, Option.map_eq_some_iff, Prod.mk.injEq] at hs
    obtain ⟨v, hv, rfl, rfl⟩ := hs
    have hL : L ≠ [] := by rintro rfl; simp at hv
    exact ⟨d, by simp [Dq.step, inv_get d L h i hL, hv], h⟩
  | set i v =>
    simp only [Spec.step] at hs
    split_ifs at hs with hL
    simp only [Option.some.injEq, Prod.mk.injEq] at hs
    obtain ⟨rfl, rfl⟩ := hs
    obtain ⟨d', e, i', _⟩ := inv_set d L h i v hL
    exact ⟨d', by simp [Dq.step, e], i'⟩
  | front =>
    simp only [Spec.step, Option.map_eq_some_iff, Prod.mk.injEq] at hs
    obtain ⟨v, hv, rfl, rfl⟩ := hs
    exact ⟨d, by simp [Dq.step, inv_front d L h, hv], h⟩
  | back =>
    simp only [Spec.step, Option.map_eq_some_iff, Prod.mk.injEq] at hs
    obtain ⟨v, hv, rfl, rfl⟩ := hs
    exact ⟨d, by simp [Dq.step, inv_back d L h, hv], h⟩
  | size =>
    simp only [Spec.step, Option.some.injEq, Prod.mk.injEq] at hs
    obtain ⟨rfl, rfl⟩ := hs
    exact ⟨d, by simp [Dq.step, h.size], h⟩

theorem update_inv {pool : ℕ → Dq α N} {L : ℕ → List α} (h : ∀ k, Inv (pool k) (L k))
    (r : ℕ) {d : Dq α N} {M : List α} (hd : Inv d M) :
    ∀ k, Inv (Function.update pool r d k) (Function.update L r M k) := by
  intro k
  by_cases hk : k = r
  · subst hk; simpa using hd
  · simpa [Function.update_of_ne hk] using h k

/-- The operations covered without reservation: everything but copy construction. -/
def POp.noCopyNew : POp α → Prop
  | .copyNew _ _ => False
  | _ => True

theorem pstep_refines (pool : ℕ → Dq α N) (L : ℕ → List α) (h : ∀ k, Inv (pool k) (L k)) (o : POp α)
    (ho : (∃ r s, o = .copyNew r s ∧ ((pool s).size > N ∨ (pool s).cap ≤ N)) ∨ o.noCopyNew)
    (L' : ℕ → List α) (x : Obs α)
    (hs : Spec.pstep L o = some (L', x)) :
    ∃ pool', pstep pool o = some (pool', x) ∧ ∀ k, Inv (pool' k) (L' k) := by
  cases o with
  | on r o =>
    simp only [Spec.pstep, Option.map_eq_some_iff, Prod.mk.injEq] at hs
    obtain ⟨⟨M, y⟩, hy, rfl, rfl⟩ := hs
    obtain ⟨d', e, i⟩ := step_refines (pool r) (L r) (h r) o M y hy
    exact ⟨_, by simp [pstep, e], update_inv h r i⟩
  | copyAssign r s =>
    simp only [Spec.pstep, Option.some.injEq, Prod.mk.injEq] at hs
    obtain ⟨rfl, rfl⟩ := hs
    obtain ⟨d', e, i⟩ := inv_copyAssign (pool r) (L r) (h r) (pool s) (L s) (h s)
    exact ⟨_, by simp [pstep, e], update_inv h r i⟩
  | moveAssign r s =>
    simp only [Spec.pstep] at hs
    split_ifs at hs with hrs
    simp only [Option.some.injEq, Prod.mk.injEq] at hs
    obtain ⟨rfl, rfl⟩ := hs
    obtain ⟨d', o', e, i, j⟩ := inv_moveAssign (pool r) (L r) (h r) (pool s) (L s) (h s)
    exact ⟨_, by simp [pstep, e], update_inv (update_inv h s j) r i⟩
  | moveNew r s =>
    simp only [Spec.pstep] at hs
    split_ifs at hs with hrs
    simp only [Option.some.injEq, Prod.mk.injEq] at hs
    obtain ⟨rfl, rfl⟩ := hs
    obtain ⟨d', o', e, i, j⟩ := inv_moveNew (pool s) (L s) (h s)
    obtain ⟨t, q, _⟩ := inv_destroyAll (pool r) (L r) (h r)
    exact ⟨_, by simp [pstep, e, q], update_inv (update_inv h s j) r i⟩
  | copyNew r s =>
    rcases ho with ⟨r', s', he, hg⟩ | ho
    · simp only [POp.copyNew.injEq] at he
      obtain ⟨rfl, rfl⟩ := he
      simp only [Spec.pstep] at hs
      split_ifs at hs with hrs
      simp only [Option.some.injEq, Prod.mk.injEq] at hs
      obtain ⟨rfl, rfl⟩ := hs
      obtain ⟨d', e, i⟩ := inv_copyNew (pool s) (L s) (h s) hg
      obtain ⟨t, q, _⟩ := inv_destroyAll (pool r) (L r) (h r)
      exact ⟨_, by simp [pstep, e, q], update_inv h r i⟩
    · exact absurd ho (by simp [POp.noCopyNew])

/-- C08/C09: **every** history of pushes, pops, clears, reserves, reads, writes, copy assignments,
move assignments and move constructions on any number of initially empty deques of any static
capacity runs without undefined behaviour (no dead or out-of-range slot touched, no object leaked or
destroyed twice) and shows its caller exactly what the same history on ideal lists shows. -/
theorem C08_every_history (ops : List (POp α)) (hops : ∀ o ∈ ops, o.noCopyNew)
    (L' : ℕ → List α) (xs : List (Obs α))
    (hs : Spec.prun (fun _ => []) ops = some (L', xs)) :
    ∃ pool', prun (fun _ => (Dq.empty : Dq α N)) ops = some (pool', xs) ∧
      ∀ k, Inv (pool' k) (L' k) := by
  suffices H : ∀ (ops : List (POp α)) (_ : ∀ o ∈ ops, o.noCopyNew) (pool : ℕ → Dq α N)
      (L : ℕ → List α) (_ : ∀ k, Inv (pool k) (L k)) (L' : ℕ → List α) (xs : List (Obs α))
      (_ : Spec.prun L ops = some (L', xs)),
      ∃ pool', prun pool ops = some (pool', xs) ∧ ∀ k, Inv (pool' k) (L' k) from
    H ops hops _ _ (fun _ => inv_empty) L' xs hs
  clear hs hops ops L' xs
  intro ops
  induction ops with
  | nil =>
    intro _ pool L h L' xs hs
    simp only [Spec.prun, Option.some.injEq, Prod.mk.injEq] at hs
    obtain ⟨rfl, rfl⟩ := hs
    exact ⟨pool, rfl, h⟩
  | cons o os ih =>
    intro hops pool L h L' xs hs
    simp only [Spec.prun, Option.bind_eq_bind, Option.bind_eq_some_iff] at hs
    obtain ⟨⟨L1, x⟩, h1, ⟨L2, ys⟩, h2, h3⟩ := hs
    simp only [Option.some.injEq, Prod.mk.injEq] at h3
    obtain ⟨rfl, rfl⟩ := h3
    obtain ⟨p1, e1, i1⟩ := pstep_refines pool L h o (Or.inr (hops o (by simp))) L1 x h1
    obtain ⟨p2, e2, i2⟩ := ih (fun o ho => hops o (by simp [ho])) p1 L1 i1 _ _ h2
    exact ⟨p2, by simp [prun, e1, e2], i2⟩

/-- C08: for a single deque, indices wrap in both directions (`-1` is the last element). -/
theorem C08_index_wraps (d : Dq α N) (L : List α) (h : Inv d L) (k : ℤ) (i : ℕ) (hi : i < L.length) :
    d.get (i + k * L.length) = some L[i] := by
  have hL : L ≠ [] := by rintro rfl; simp at hi
  rw [inv_get d L h _ hL]
  have : ((i : ℤ) + k * L.length) % (L.length : ℤ) = i := by
    rw [Int.add_mul_emod_self_right, Int.emod_eq_of_lt (by omega) (by omega)]
  rw [this]
  simp [hi]

/-- C08: popping from an empty deque reports "nothing" and changes nothing; reading one is undefined. -/
theorem C08_empty_access (d : Dq α N) (h : Inv d []) (i : ℤ) :
    d.popFront = some (d, none) ∧ d.popBack = some (d, none) ∧
    d.get i = none ∧ d.front = none ∧ d.back = none := by
  have hs : d.size = 0 := h.size
  refine ⟨by simp [Dq.popFront, hs], by simp [Dq.popBack, hs], by simp [Dq.get, Dq.slotOf, hs], ?_, ?_⟩
  · rw [inv_front d [] h]; rfl
  · rw [inv_back d [] h]; rfl

/-- C08: `reserve` makes room for the requested number, never moves the visible contents, and never
reallocates when there is already room. -/
theorem C08_reserve (d : Dq α N) (L : List α) (h : Inv d L) (n : ℕ) :
    ∃ d', d.reserve n = some d' ∧ Inv d' L ∧ n ≤ d'.cap ∧ (n ≤ d.cap → d' = d) := by
  obtain ⟨d', e, i, c, _, q⟩ := inv_reserve d L h n
  exact ⟨d', e, i, c, q⟩

/-- C08: the destructor's loop destroys every live object exactly once, leaving only raw storage. -/
theorem C08_destructor (d : Dq α N) (L : List α) (h : Inv d L) :
    ∃ d', d.destroyAll = some d' ∧ ∀ p, p < d.cap → d'.slots p = none := by
  obtain ⟨d', e, _, _, q⟩ := inv_destroyAll d L h
  exact ⟨d', e, q⟩

/-- C09: `==` decides equality of contents. -/
theorem C09_eq [DecidableEq α] (d o : Dq α N) (L0 L : List α) (h0 : Inv d L0) (h : Inv o L) :
    d.eq o = some (decide (L0 = L)) := inv_eq d o L0 L h0 h

/-- C09: copy and move assignment, and move construction, transfer exactly the contents; the moved
from object is an empty, usable deque. -/
theorem C09_assign_move (d o : Dq α N) (L0 L : List α) (h0 : Inv d L0) (h : Inv o L) :
    (∃ d', d.copyAssign o = some d' ∧ Inv d' L) ∧
    (∃ d' o', d.moveAssign o = some (d', o') ∧ Inv d' L ∧ Inv o' []) ∧
    (∃ d' o', o.moveNew = some (d', o') ∧ Inv d' L ∧ Inv o' []) :=
  ⟨inv_copyAssign d L0 h0 o L h, inv_moveAssign d L0 h0 o L h, inv_moveNew o L h⟩

/-- C09 (partial): copy construction is right when the source still uses its static buffer or holds
more than `N` items.  Missing: sources that grew beyond `N` and shrank back, refuted below. -/
theorem C09_copyNew_partial (o : Dq α N) (L : List α) (h : Inv o L)
    (hg : L.length > N ∨ o.cap ≤ N) : ∃ d, o.copyNew = some d ∧ Inv d L :=
  inv_copyNew o L h (by rw [h.size]; exact hg)

/-- The history witnessing the copy-construction defect: with static capacity 1, push three items,
pop two, copy-construct, then push one item onto the copy (whose reported capacity is 4). -/
def copyBugHistory : List (POp ℕ) :=
  [.on 0 (.pushBack 1), .on 0 (.pushBack 2), .on 0 (.pushBack 3), .on 0 .popBack, .on 0 .popBack,
   .copyNew 1 0, .on 1 (.pushBack 9)]

/-- C09 is refuted for copy construction: the history above writes outside the copy's buffer. -/
theorem C09_copyNew_refuted :
    prun (fun _ => (Dq.empty : Dq ℕ 1)) copyBugHistory = none ∧
    (Spec.prun (fun _ => []) copyBugHistory).isSome := by
  constructor
  · simp [prun, copyBugHistory, pstep, Dq.step, Dq.pushBack, Dq.reserve, Dq.empty, Dq.item,
      Dq.construct, Dq.takeAt, Dq.readAt, Dq.destroyAt, Function.update, Dq.popBack, Dq.copyNew,
      Dq.get, Dq.slotOf, Dq.destroyAll, List.range, List.range.loop]
  · simp [Spec.prun, copyBugHistory, Spec.pstep, Spec.step]

/-- A concrete history meeting the hypotheses of `C08_every_history`, with wrap-around and growth. -/
example : (Spec.prun (fun _ => [])
    [POp.on 0 (.pushBack 1), .on 0 (.pushFront 2), .on 0 (.pushBack 3), .on 0 (.get (-1)),
     .copyAssign 1 0, .on 1 .popFront, .moveAssign 2 1, .on 2 .size]).isSome ∧
    ∀ o ∈ ([POp.on 0 (.pushBack 1), .on 0 (.pushFront 2), .copyAssign 1 0] : List (POp ℕ)),
      o.noCopyNew := by
  constructor
  · simp [Spec.prun, Spec.pstep, Spec.step, Function.update]
  · simp [POp.noCopyNew]

end Geomc.Deque
