import Verif.Common

/-!
# Model of `geomc/SmallStorage.h`

Slots are `none` (raw storage) or `some v` (live object) and every operation lives in `Option`,
`none` being undefined behaviour: touching memory outside the allocation, moving from or destroying a
slot holding no object, or constructing over a live object.  `size_t` is `ℕ` (no overflow).
The element type is taken not to be trivially destructible, so the destructor loops run.
-/

namespace Geomc.SmallStorage

/-- Fields of `SmallStorage<T,N>`, geomc/SmallStorage.h:36-39; `alloc` is the number of slots behind
`_data` (`_buffer` or the heap array). -/
structure SS (α : Type) (N : ℕ) where
  alloc : ℕ
  slots : ℕ → Option α
  cap : ℕ
  size : ℕ

variable {α : Type} {N : ℕ}

/-- Placement new. -/
def SS.construct (d : SS α N) (p : ℕ) (v : α) : Option (SS α N) :=
  if p < d.alloc ∧ d.slots p = none then some { d with slots := Function.update d.slots p (some v) }
  else none

/-- Read through a pointer to slot `p`. -/
def SS.readAt (d : SS α N) (p : ℕ) : Option α := if p < d.alloc then d.slots p else none

/-- Destructor call on slot `p`. -/
def SS.destroyAt (d : SS α N) (p : ℕ) : Option (SS α N) :=
  if p < d.alloc ∧ (d.slots p).isSome then
    some { d with slots := Function.update d.slots p none } else none

/-- Move out and destroy the source. -/
def SS.takeAt (d : SS α N) (p : ℕ) : Option (α × SS α N) := do
  let v ← d.readAt p
  let d' ← d.destroyAt p
  some (v, d')

/-- `SmallStorage()`, geomc/SmallStorage.h:77. -/
def SS.empty : SS α N := ⟨N, fun _ => none, N, 0⟩

/-- Construction of `L.length` items from a sequence: geomc/SmallStorage.h:80-123 (count of default
values, initializer list, array, repeated value): capacity `max(n,N)`, heap array of exactly `n`
slots when `n > N`. -/
def SS.ofList (L : List α) : Option (SS α N) :=
  (List.range L.length).foldlM (fun (d : SS α N) (i : ℕ) => do
      let v ← L[i]?
      d.construct i v)
    ⟨if L.length > N then L.length else N, fun _ => none, max L.length N, L.length⟩

/-- `_destroy(_data, _size)`, geomc/SmallStorage.h:41-47. -/
def SS.destroyAll (d : SS α N) : Option (SS α N) :=
  (List.range d.size).foldlM (fun (d : SS α N) (i : ℕ) => d.destroyAt i) d

/-- `_ensure_capacity(n)`, geomc/SmallStorage.h:49-62.  As written the loop bound is the *requested*
count `n`, not `_size`. -/
def SS.ensureCapacity (d : SS α N) (n : ℕ) : Option (SS α N) :=
  if n > d.cap then do
    let c := max n (d.cap * 2)
    let st ← (List.range n).foldlM (fun (st : SS α N × SS α N) (i : ℕ) => do
        let (v, old) ← st.1.takeAt i
        let new ← st.2.construct i v
        some (old, new)) (d, ⟨c, fun _ => none, c, d.size⟩)
    some st.2
  else some d

/-- `push_back` / `emplace_back`, geomc/SmallStorage.h:235-251. -/
def SS.pushBack (d : SS α N) (v : α) : Option (SS α N) := do
  let d ← d.ensureCapacity (d.size + 1)
  let d ← d.construct d.size v
  some { d with size := d.size + 1 }

/-- `pop_back`, geomc/SmallStorage.h:254-261. -/
def SS.popBack (d : SS α N) : Option (SS α N × Option α) :=
  if d.size = 0 then some (d, none)
  else do
    let (v, d) ← d.takeAt (d.size - 1)
    some ({ d with size := d.size - 1 }, some v)

/-- `resize(count, args...)`, geomc/SmallStorage.h:298-313, `v` being `T{args...}`. -/
def SS.resize (d : SS α N) (count : ℕ) (v : α) : Option (SS α N) :=
  if count > d.size then do
    let n := d.size
    let d ← d.ensureCapacity count
    let d ← (List.range (count - n)).foldlM (fun (d : SS α N) (k : ℕ) => d.construct (n + k) v) d
    some { d with size := count }
  else do
    let d ← (List.range (d.size - count)).foldlM
      (fun (d : SS α N) (k : ℕ) => d.destroyAt (count + k)) d
    some { d with size := count }

/-- `clear`, geomc/SmallStorage.h:331-334. -/
def SS.clear (d : SS α N) : Option (SS α N) := do
  let d ← d.destroyAll
  some { d with size := 0 }

/-- Copy constructor, geomc/SmallStorage.h:126-136. -/
def SS.copyNew (o : SS α N) : Option (SS α N) :=
  (List.range o.size).foldlM (fun (d : SS α N) (i : ℕ) => do
      let v ← o.readAt i
      d.construct i v)
    ⟨if max o.size N > N then o.size else N, fun _ => none, max o.size N, o.size⟩

/-- Move constructor, geomc/SmallStorage.h:139-159.  In the static case the source's `_size` is
*not* reset. -/
def SS.moveNew (o : SS α N) : Option (SS α N × SS α N) :=
  if o.cap ≤ N then do
    let st ← (List.range o.size).foldlM (fun (st : SS α N × SS α N) (i : ℕ) => do
        let (v, old) ← st.1.takeAt i
        let new ← st.2.construct i v
        some (old, new)) (o, ⟨N, fun _ => none, o.cap, o.size⟩)
    some (st.2, st.1)
  else some (o, ⟨N, fun _ => none, N, 0⟩)

/-- Move assignment between distinct objects, geomc/SmallStorage.h:170-192. -/
def SS.moveAssign (d o : SS α N) : Option (SS α N × SS α N) := do
  let _ ← d.destroyAll
  if o.cap > N then
    some (⟨o.alloc, o.slots, o.cap, o.size⟩, ⟨N, fun _ => none, N, 0⟩)
  else do
    let st ← (List.range o.size).foldlM (fun (st : SS α N × SS α N) (i : ℕ) => do
        let (v, old) ← st.1.takeAt i
        let new ← st.2.construct i v
        some (old, new)) (o, ⟨N, fun _ => none, o.cap, o.size⟩)
    some (st.2, ⟨N, fun _ => none, N, 0⟩)

/-- Copy assignment between distinct objects, geomc/SmallStorage.h:195-216. -/
def SS.copyAssign (d o : SS α N) : Option (SS α N) := do
  let d ← d.destroyAll
  let d : SS α N := if d.cap < o.size then
      ⟨min o.cap (2 * o.size), fun _ => none, min o.cap (2 * o.size), d.size⟩ else d
  let d ← (List.range o.size).foldlM (fun (d : SS α N) (i : ℕ) => do
      let v ← o.readAt i
      d.construct i v) d
  some { d with size := o.size }

/-- `operator[]`, `front`, `back`: geomc/SmallStorage.h:219-226, 264-281. -/
def SS.get (d : SS α N) (i : ℕ) : Option α := d.readAt i

/-- `back()`: `begin()[_size - 1]`; on an empty array the unsigned index wraps (out of range). -/
def SS.back (d : SS α N) : Option α := if d.size = 0 then none else d.readAt (d.size - 1)

/-- `operator==` on arrays with different buffers, geomc/SmallStorage.h:337-344. -/
def SS.eq [DecidableEq α] (d o : SS α N) : Option Bool :=
  if d.size ≠ o.size then some false
  else (List.range d.size).foldlM (fun (acc : Bool) (i : ℕ) =>
    if acc then do
      let a ← d.get i
      let b ← o.get i
      some (decide (a = b))
    else some false) true

/-- Public single-object operations. -/
inductive Op (α : Type) where
  | pushBack (v : α) | popBack | resize (n : ℕ) (v : α) | reserve (n : ℕ) | clear
  | get (i : ℕ) | back | size

/-- What the caller sees. -/
inductive Obs (α : Type) where
  | unit | val (v : α) | opt (v : Option α) | num (n : ℕ)

/-- One call, geomc/SmallStorage.h:219-334. -/
def SS.step (d : SS α N) : Op α → Option (SS α N × Obs α)
  | .pushBack v => do let d ← d.pushBack v; some (d, .unit)
  | .popBack => do let (d, r) ← d.popBack; some (d, .opt r)
  | .resize n v => do let d ← d.resize n v; some (d, .unit)
  | .reserve n => do let d ← d.ensureCapacity n; some (d, .unit)
  | .clear => do let d ← d.clear; some (d, .unit)
  | .get i => do let v ← d.get i; some (d, .val v)
  | .back => do let v ← d.back; some (d, .val v)
  | .size => some (d, .num d.size)

/-- A history of calls. -/
def SS.run (d : SS α N) : List (Op α) → Option (SS α N × List (Obs α))
  | [] => some (d, [])
  | o :: os => do
    let (d, x) ← d.step o
    let (d, xs) ← d.run os
    some (d, x :: xs)

end Geomc.SmallStorage
