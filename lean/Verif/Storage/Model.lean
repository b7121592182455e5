import Mathlib.Logic.Function.Basic
import Mathlib.Data.List.Basic

/-!
# Array storage: geomc/Storage.h

Memory is a partial map from addresses to arrays.  An operation gives `none` where the code is undefined: reading or writing outside an
array, or in one that was freed, and freeing twice.  Sizes are not negative.  Every allocation succeeds and gets an address never used
before, so that a stale pointer never becomes valid again.
-/

namespace Geomc.Storage

variable {T : Type}

/-- The arrays that are allocated; addresses from `fresh` on were never used. -/
structure Heap (T : Type) where
  arr : ℕ → Option (List T)
  fresh : ℕ

def Heap.empty : Heap T := ⟨fun _ => none, 0⟩

/-- `new T[n]`: the elements have arbitrary values. -/
def Heap.alloc (h : Heap T) (n : ℕ) (junk : ℕ → T) : Heap T × ℕ :=
  (⟨Function.update h.arr h.fresh (some ((List.range n).map junk)), h.fresh + 1⟩, h.fresh)

/-- `if (data) delete [] data`. -/
def Heap.free (h : Heap T) : Option ℕ → Option (Heap T)
  | none => some h
  | some a => if (h.arr a).isSome then some { h with arr := Function.update h.arr a none } else none

/-- Reading `k` elements. -/
def Heap.read (h : Heap T) (p : Option ℕ) (k : ℕ) : Option (List T) :=
  if k = 0 then some [] else do
  let a ← p
  let l ← h.arr a
  if k ≤ l.length then some (l.take k) else none

/-- Writing elements from the first on. -/
def Heap.write (h : Heap T) (p : Option ℕ) (xs : List T) : Option (Heap T) :=
  if xs = [] then some h else do
  let a ← p
  let l ← h.arr a
  if xs.length ≤ l.length then some { h with arr := Function.update h.arr a (some (xs ++ l.drop xs.length)) } else none

/-! ## Unique storage -/

/-- `UniqueStorage<T,DYNAMIC_DIM>`, geomc/Storage.h:251-253. -/
structure Uniq where
  data : Option ℕ
  sz : ℕ
  deriving DecidableEq

/-- Memory and the storages that exist. -/
structure St (T : Type) where
  heap : Heap T
  var : ℕ → Option Uniq

def St.empty : St T := ⟨Heap.empty, fun _ => none⟩

/-- `UniqueStorage(n)`, geomc/Storage.h:255-257. -/
def St.make (s : St T) (v n : ℕ) (junk : ℕ → T) : Option (St T) :=
  if (s.var v).isSome then none else
  let (h, a) := s.heap.alloc n junk
  some ⟨h, Function.update s.var v (some ⟨some a, n⟩)⟩

/-- `UniqueStorage(n, srcdata)`, and from an initialiser list: geomc/Storage.h:259-269. -/
def St.makeFrom (s : St T) (v : ℕ) (src : List T) (junk : ℕ → T) : Option (St T) :=
  if (s.var v).isSome then none else do
  let (h, a) := s.heap.alloc src.length junk
  let h ← h.write (some a) src
  some ⟨h, Function.update s.var v (some ⟨some a, src.length⟩)⟩

/-- The move constructor, geomc/Storage.h:272-277. -/
def St.moveMake (s : St T) (v w : ℕ) : Option (St T) :=
  if (s.var v).isSome then none else do
  let o ← s.var w
  some { s with var := Function.update (Function.update s.var v (some ⟨o.data, o.sz⟩)) w (some ⟨none, 0⟩) }

/-- The copy constructor, geomc/Storage.h:280-284. -/
def St.copyMake (s : St T) (v w : ℕ) (junk : ℕ → T) : Option (St T) :=
  if (s.var v).isSome then none else do
  let o ← s.var w
  let (h, a) := s.heap.alloc o.sz junk
  let xs ← h.read o.data o.sz
  let h ← h.write (some a) xs
  some ⟨h, Function.update s.var v (some ⟨some a, o.sz⟩)⟩

/-- The destructor, geomc/Storage.h:286-288. -/
def St.destroy (s : St T) (v : ℕ) : Option (St T) := do
  let o ← s.var v
  let h ← s.heap.free o.data
  some ⟨h, Function.update s.var v none⟩

/-- Move assignment, geomc/Storage.h:291-298; the fields of the other object are read after the array is freed, and it is emptied
last. -/
def St.moveAssign (s : St T) (v w : ℕ) : Option (St T) := do
  let x ← s.var v
  let o ← s.var w
  let h ← s.heap.free x.data
  let vars := Function.update s.var v (some ⟨o.data, o.sz⟩)
  some ⟨h, Function.update vars w (some ⟨none, 0⟩)⟩

/-- The part of the copy assignment that makes room, geomc/Storage.h:303-306. -/
def room (h : Heap T) (x o : Uniq) (junk : ℕ → T) : Option (Heap T × Option ℕ) :=
  if x.sz ≠ o.sz then do
    let h ← h.free x.data
    let (h, a) := h.alloc o.sz junk
    some (h, some a)
  else some (h, x.data)

/-- Copy assignment, geomc/Storage.h:301-310. -/
def St.assign (s : St T) (v w : ℕ) (junk : ℕ → T) : Option (St T) := do
  let x ← s.var v
  let o ← s.var w
  if w = v then some s else
  let (h, p) ← room s.heap x o junk
  let xs ← h.read o.data o.sz
  let h ← h.write p xs
  some ⟨h, Function.update s.var v (some ⟨p, o.sz⟩)⟩

/-- `storage[i] = x`, geomc/Storage.h:316. -/
def St.set (s : St T) (v i : ℕ) (x : T) : Option (St T) := do
  let o ← s.var v
  let a ← o.data
  let l ← s.heap.arr a
  if i < l.length then some { s with heap := { s.heap with arr := Function.update s.heap.arr a (some (l.set i x)) } } else none

/-- `storage[i]`, geomc/Storage.h:317, and `size()`, :314. -/
def St.get (s : St T) (v i : ℕ) : Option T := do
  let o ← s.var v
  let a ← o.data
  let l ← s.heap.arr a
  l[i]?
def St.size (s : St T) (v : ℕ) : Option ℕ := (s.var v).map (·.sz)

/-! ## Shared storage -/

/-- Arrays with the number of their owners: what `boost::shared_array` keeps. -/
structure Pool (T : Type) where
  arr : ℕ → Option (List T × ℕ)
  fresh : ℕ

/-- `Storage<T,DYNAMIC_DIM>`, geomc/Storage.h:144-146: memory, and the array each storage points to. -/
structure Sh (T : Type) where
  pool : Pool T
  var : ℕ → Option ℕ

def Sh.empty : Sh T := ⟨⟨fun _ => none, 0⟩, fun _ => none⟩

/-- One owner more. -/
def Pool.incr (p : Pool T) (a : ℕ) : Option (Pool T) := do
  let (l, k) ← p.arr a
  some { p with arr := Function.update p.arr a (some (l, k + 1)) }

/-- One owner less; the last one frees the array. -/
def Pool.decr (p : Pool T) (a : ℕ) : Option (Pool T) := do
  let (l, k) ← p.arr a
  some { p with arr := Function.update p.arr a (if k = 1 then none else some (l, k - 1)) }

/-- `Storage(n, srcdata)`, geomc/Storage.h:150-153 (and `Storage(n)`, :148-149, with arbitrary elements). -/
def Sh.make (s : Sh T) (v : ℕ) (src : List T) : Option (Sh T) :=
  if (s.var v).isSome then none else
  some ⟨⟨Function.update s.pool.arr s.pool.fresh (some (src, 1)), s.pool.fresh + 1⟩, Function.update s.var v (some s.pool.fresh)⟩

/-- The implicit copy constructor. -/
def Sh.copyMake (s : Sh T) (v w : ℕ) : Option (Sh T) :=
  if (s.var v).isSome then none else do
  let a ← s.var w
  let p ← s.pool.incr a
  some ⟨p, Function.update s.var v (some a)⟩

/-- The implicit assignment: a copy of the other is made, exchanged with this one, and destroyed. -/
def Sh.assign (s : Sh T) (v w : ℕ) : Option (Sh T) := do
  let x ← s.var v
  let a ← s.var w
  let p ← s.pool.incr a
  let p ← p.decr x
  some ⟨p, Function.update s.var v (some a)⟩

def Sh.destroy (s : Sh T) (v : ℕ) : Option (Sh T) := do
  let a ← s.var v
  let p ← s.pool.decr a
  some ⟨p, Function.update s.var v none⟩

/-- `storage[i] = x` and `storage[i]`, geomc/Storage.h:157-158. -/
def Sh.set (s : Sh T) (v i : ℕ) (x : T) : Option (Sh T) := do
  let a ← s.var v
  let (l, k) ← s.pool.arr a
  if i < l.length then some { s with pool := { s.pool with arr := Function.update s.pool.arr a (some (l.set i x, k)) } } else none
def Sh.get (s : Sh T) (v i : ℕ) : Option T := do
  let a ← s.var v
  let (l, _) ← s.pool.arr a
  l[i]?

/-! ## Storage of fixed size -/

/-- `Storage<T,N>(n, srcdata)`, geomc/Storage.h:125: `srcdata` is what can be read there. -/
def fixedFrom (N : ℕ) (_n : ℕ) (src : List T) : Option (List T) := if N ≤ src.length then some (src.take N) else none

/-- `UniqueStorage<T,N>(n, srcdata)`, geomc/Storage.h:225-227, and from an initialiser list, :230-232. -/
def fixedUniqueFrom (N : ℕ) (n : ℕ) (src : List T) (junk : List T) : Option (List T) :=
  if n ≤ src.length ∧ n ≤ N then some (src.take n ++ junk.drop n) else none

end Geomc.Storage
