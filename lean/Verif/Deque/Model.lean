import Verif.Common

/-!
# Model of `geomc/Deque.h`

The buffer is modelled slot by slot: a slot is `none` while it is raw storage and `some v` while an
object is alive in it.  `alloc` is the number of slots actually behind `_data`; `cap` is the
`_capacity` field.  All operations live in `Option`, where `none` is undefined behaviour: an access
outside the allocation, reading or destroying a slot with no live object, constructing over a live
object (a leak), or `% 0`.  `index_t` is taken as `ℕ` (sizes are never negative) except for the
argument of `operator[]`, an `Int`.  Allocation itself never fails.
-/

namespace Geomc.Deque

/-- Fields of `Deque<T,N>`, geomc/Deque.h:50-54.  `_data` is modelled by its contents. -/
structure Dq (α : Type) (N : ℕ) where
  /-- number of slots behind `_data` -/
  alloc : ℕ
  /-- contents of the slots -/
  slots : ℕ → Option α
  /-- `_capacity` -/
  cap : ℕ
  /-- `_head` -/
  head : ℕ
  /-- `_size` -/
  size : ℕ

variable {α : Type} {N : ℕ}

/-- Default constructor, geomc/Deque.h:59-63. -/
def Dq.empty : Dq α N := ⟨N, fun _ => none, N, 0, 0⟩

/-- `Deque(index_t capacity)`, geomc/Deque.h:66-70. -/
def Dq.withCapacity (c : ℕ) : Dq α N := ⟨if c > N then c else N, fun _ => none, max c N, 0, 0⟩

/-- `item(i)`, geomc/Deque.h:393-400: `get() + (_head + i) % capacity()`. -/
def Dq.item (d : Dq α N) (i : ℕ) : Option ℕ :=
  if d.cap = 0 then none else some ((d.head + i) % d.cap)

/-- Placement new at slot `p` (used throughout geomc/Deque.h, e.g. :267). -/
def Dq.construct (d : Dq α N) (p : ℕ) (v : α) : Option (Dq α N) :=
  if p < d.alloc ∧ d.slots p = none then some { d with slots := Function.update d.slots p (some v) }
  else none

/-- Read through a `T*` to slot `p`. -/
def Dq.readAt (d : Dq α N) (p : ℕ) : Option α := if p < d.alloc then d.slots p else none

/-- Assign to the live object in slot `p`. -/
def Dq.assignAt (d : Dq α N) (p : ℕ) (v : α) : Option (Dq α N) :=
  if p < d.alloc ∧ (d.slots p).isSome then
    some { d with slots := Function.update d.slots p (some v) } else none

/-- Explicit destructor call on slot `p` (e.g. geomc/Deque.h:303). -/
def Dq.destroyAt (d : Dq α N) (p : ℕ) : Option (Dq α N) :=
  if p < d.alloc ∧ (d.slots p).isSome then
    some { d with slots := Function.update d.slots p none } else none

/-- Move out of slot `p` and destroy the source (e.g. geomc/Deque.h:363-365). -/
def Dq.takeAt (d : Dq α N) (p : ℕ) : Option (α × Dq α N) := do
  let v ← d.readAt p
  let d' ← d.destroyAt p
  some (v, d')

/-- `reserve`, geomc/Deque.h:354-376. The pair carries the old deque and the contents of the new
array of `resize_to` slots while items are moved. -/
def Dq.reserve (d : Dq α N) (newCap : ℕ) : Option (Dq α N) :=
  if newCap > d.cap then do
    let cap2 := max (d.cap * 2) newCap
    let st ← (List.range d.size).foldlM (fun (st : Dq α N × Dq α N) (i : ℕ) => do
        let p ← st.1.item i
        let (v, old) ← st.1.takeAt p
        let new ← st.2.construct i v
        some (old, new)) (d, ⟨cap2, fun _ => none, cap2, 0, 0⟩)
    some ⟨cap2, st.2.slots, cap2, 0, d.size⟩
  else some d

/-- `push_back`, geomc/Deque.h:262-270. -/
def Dq.pushBack (d : Dq α N) (v : α) : Option (Dq α N) := do
  let d ← d.reserve (d.size + 1)
  let p ← d.item d.size
  let d ← d.construct p v
  some { d with size := d.size + 1 }

/-- `push_front`, geomc/Deque.h:278-288. -/
def Dq.pushFront (d : Dq α N) (v : α) : Option (Dq α N) := do
  let d ← d.reserve (d.size + 1)
  let n := d.cap
  if n = 0 then none else do
  let h := (d.head + n - 1) % n
  let d ← Dq.construct (N := N) { d with head := h } h v
  some { d with size := d.size + 1 }

/-- `pop_front`, geomc/Deque.h:295-305. -/
def Dq.popFront (d : Dq α N) : Option (Dq α N × Option α) :=
  if d.size = 0 then some (d, none)
  else if d.cap = 0 then none
  else do
    let old := d.head
    let (v, d) ← Dq.takeAt (N := N) { d with head := (d.head + 1) % d.cap, size := d.size - 1 } old
    some (d, some v)

/-- `pop_back`, geomc/Deque.h:308-317. -/
def Dq.popBack (d : Dq α N) : Option (Dq α N × Option α) :=
  if d.size = 0 then some (d, none)
  else if d.cap = 0 then none
  else do
    let i := (d.head + d.size - 1) % d.cap
    let (v, d) ← Dq.takeAt (N := N) { d with size := d.size - 1 } i
    some (d, some v)

/-- The loop destroying every item, used by `clear`, the destructor and move assignment,
geomc/Deque.h:130-132, 169-171, 342-344. -/
def Dq.destroyAll (d : Dq α N) : Option (Dq α N) :=
  (List.range d.size).foldlM (fun d i => do let p ← d.item i; d.destroyAt p) d

/-- `clear`, geomc/Deque.h:340-347. -/
def Dq.clear (d : Dq α N) : Option (Dq α N) := do
  let d ← d.destroyAll
  some { d with head := 0, size := 0 }

/-- Slot addressed by `operator[]`, geomc/Deque.h:212-227: `positive_mod(i, _size)` then `item`.
`positive_mod` as in geomc/function/Utils.h:25. -/
def Dq.slotOf (d : Dq α N) (i : ℤ) : Option ℕ :=
  if d.size = 0 then none
  else d.item (((i.tmod d.size + d.size).tmod d.size).toNat)

/-- `operator[]` read, geomc/Deque.h:212-227. -/
def Dq.get (d : Dq α N) (i : ℤ) : Option α := do let p ← d.slotOf i; d.readAt p

/-- `d[i] = v`, geomc/Deque.h:212-215. -/
def Dq.set (d : Dq α N) (i : ℤ) (v : α) : Option (Dq α N) := do
  let p ← d.slotOf i; d.assignAt p v

/-- `front`, geomc/Deque.h:320-327. -/
def Dq.front (d : Dq α N) : Option α := d.readAt d.head

/-- `back`, geomc/Deque.h:330-337.  On an empty deque the code forms slot `(head-1) % capacity`,
which is dead or before the buffer: undefined behaviour. -/
def Dq.back (d : Dq α N) : Option α :=
  if d.size = 0 then none else do let p ← d.item (d.size - 1); d.readAt p

/-- Copy constructor, geomc/Deque.h:91-102.  Note `_data` is sized by `other._size > N` but
`_capacity` by `other._capacity`. -/
def Dq.copyNew (other : Dq α N) : Option (Dq α N) :=
  (List.range other.size).foldlM (fun (d : Dq α N) (i : ℕ) => do
      let v ← other.get i
      d.construct i v)
    ⟨if other.size > N then other.cap else N, fun _ => none, max other.cap N, 0, other.size⟩

/-- Move constructor, geomc/Deque.h:105-126; result is the new deque and the emptied source. -/
def Dq.moveNew (other : Dq α N) : Option (Dq α N × Dq α N) :=
  if other.cap > N then
    some (⟨other.alloc, other.slots, other.cap, other.head, other.size⟩,
      ⟨N, fun _ => none, N, 0, 0⟩)
  else do
    let st ← (List.range other.size).foldlM (fun (st : Dq α N × Dq α N) (i : ℕ) => do
        let p ← st.1.slotOf i
        let (v, o) ← st.1.takeAt p
        let d ← st.2.construct i v
        some (o, d)) (other, ⟨N, fun _ => none, other.cap, 0, other.size⟩)
    some (st.2, { st.1 with size := 0, head := 0 })

/-- Copy assignment from a distinct (or the same) object, geomc/Deque.h:142-164. -/
def Dq.copyAssign (d other : Dq α N) : Option (Dq α N) := do
  let oldSize := d.size
  let newSize := other.size
  let n := min oldSize newSize
  let d ← d.reserve other.size
  let d ← (List.range n).foldlM (fun (d : Dq α N) (i : ℕ) => do
      let v ← other.get i
      d.set i v) d
  let d ← (List.range (newSize - n)).foldlM (fun (d : Dq α N) (k : ℕ) => do
      let p ← d.item (n + k)
      let v ← other.get (n + k : ℕ)
      d.construct p v) d
  let d ← (List.range (oldSize - n)).foldlM (fun (d : Dq α N) (k : ℕ) => do
      let p ← d.item (n + k)
      d.destroyAt p) d
  some { d with size := other.size }

/-- Move assignment between distinct objects, geomc/Deque.h:167-203; the result is `*this` and the
emptied source.  When the source owns a heap array our old heap array is freed and forgotten. -/
def Dq.moveAssign (d other : Dq α N) : Option (Dq α N × Dq α N) := do
  let d ← d.destroyAll
  if other.cap > N then
    some (⟨other.alloc, other.slots, other.cap, other.head, other.size⟩,
      ⟨N, fun _ => none, N, 0, 0⟩)
  else do
    let st ← (List.range other.size).foldlM (fun (st : Dq α N × Dq α N) (i : ℕ) => do
        let p ← st.1.slotOf i
        let (v, o) ← st.1.takeAt p
        let d ← st.2.construct i v
        some (o, d)) (other, { d with head := 0 })
    some ({ st.2 with size := other.size }, { st.1 with size := 0, head := 0 })

/-- `operator==` between distinct objects, geomc/Deque.h:234-241.  The early `return false` is the
`false` accumulator (once false, later comparisons are skipped). -/
def Dq.eq [DecidableEq α] (d other : Dq α N) : Option Bool :=
  if d.size ≠ other.size then some false
  else (List.range d.size).foldlM (fun (acc : Bool) (i : ℕ) =>
    if acc then do
      let a ← d.get i
      let b ← other.get i
      some (decide (a = b))
    else some false) true

/-- Public single-object operations of geomc/Deque.h:212-376. -/
inductive Op (α : Type) where
  | pushBack (v : α) | pushFront (v : α) | popBack | popFront
  | clear | reserve (n : ℕ) | get (i : ℤ) | set (i : ℤ) (v : α) | front | back | size

/-- What the caller sees from one call. -/
inductive Obs (α : Type) where
  | unit | val (v : α) | opt (v : Option α) | num (n : ℕ)

/-- One call on a deque, geomc/Deque.h:212-376. -/
def Dq.step (d : Dq α N) : Op α → Option (Dq α N × Obs α)
  | .pushBack v => do let d ← d.pushBack v; some (d, .unit)
  | .pushFront v => do let d ← d.pushFront v; some (d, .unit)
  | .popBack => do let (d, r) ← d.popBack; some (d, .opt r)
  | .popFront => do let (d, r) ← d.popFront; some (d, .opt r)
  | .clear => do let d ← d.clear; some (d, .unit)
  | .reserve n => do let d ← d.reserve n; some (d, .unit)
  | .get i => do let v ← d.get i; some (d, .val v)
  | .set i v => do let d ← d.set i v; some (d, .unit)
  | .front => do let v ← d.front; some (d, .val v)
  | .back => do let v ← d.back; some (d, .val v)
  | .size => some (d, .num d.size)

/-- A history on a pool of deques: calls on one, copy assignment, move assignment and move
construction between two (the destination of a construction is destroyed first). -/
inductive POp (α : Type) where
  | on (r : ℕ) (o : Op α)
  | copyAssign (r s : ℕ)
  | moveAssign (r s : ℕ)
  | moveNew (r s : ℕ)
  | copyNew (r s : ℕ)

/-- One pool operation. -/
def pstep (pool : ℕ → Dq α N) : POp α → Option ((ℕ → Dq α N) × Obs α)
  | .on r o => do
    let (d, x) ← (pool r).step o
    some (Function.update pool r d, x)
  | .copyAssign r s => do
    let d ← (pool r).copyAssign (pool s)
    some (Function.update pool r d, .unit)
  | .moveAssign r s => do
    let (d, o) ← (pool r).moveAssign (pool s)
    some (Function.update (Function.update pool s o) r d, .unit)
  | .moveNew r s => do
    let _ ← (pool r).destroyAll
    let (d, o) ← (pool s).moveNew
    some (Function.update (Function.update pool s o) r d, .unit)
  | .copyNew r s => do
    let _ ← (pool r).destroyAll
    let d ← (pool s).copyNew
    some (Function.update pool r d, .unit)

/-- Run a history, collecting what the caller sees. -/
def prun (pool : ℕ → Dq α N) : List (POp α) → Option ((ℕ → Dq α N) × List (Obs α))
  | [] => some (pool, [])
  | o :: os => do
    let (pool, x) ← pstep pool o
    let (pool, xs) ← prun pool os
    some (pool, x :: xs)

end Geomc.Deque
