import Mathlib.Algebra.Order.Floor.Ring
import Mathlib.Data.Rat.Floor
import Mathlib.Data.Fintype.Defs
import Mathlib.Data.Fintype.Basic

/-!
# The bin lattice

geomc/shape/BinLatticePartition.h.  Coordinates are exact, and a bin's coordinates are not bounded.  The hash table from bins to
items is modelled as the list of its entries; the iterators `find` returns and the entries of the same key that follow it are
those entries of the list, each once.
-/

namespace Geomc.Bins

variable {K : Type} [Field K] [LinearOrder K] [FloorRing K] {n : ℕ} {O : Type}

/-- `BinLatticePartition`, geomc/shape/BinLatticePartition.h:73-90: each entry has a bin, a location and a value. -/
structure Lattice (O K : Type) (n : ℕ) where
  cellsize : K
  cells : List ((Fin n → ℤ) × (Fin n → K) × O)

/-- `binOf`, geomc/shape/BinLatticePartition.h:299-301. -/
def Lattice.binOf (l : Lattice O K n) (x : Fin n → K) : Fin n → ℤ := fun i => ⌊x i / l.cellsize⌋

/-- The constructor, geomc/shape/BinLatticePartition.h:237. -/
def Lattice.empty (cellsize : K) : Lattice O K n := ⟨cellsize, []⟩

/-- `insert`, geomc/shape/BinLatticePartition.h:256-259. -/
def Lattice.insert (l : Lattice O K n) (x : Fin n → K) (o : O) : Lattice O K n :=
  { l with cells := (l.binOf x, x, o) :: l.cells }

/-- `erase` of the entry at an iterator, geomc/shape/BinLatticePartition.h:261-263. -/
def Lattice.erase (l : Lattice O K n) (k : ℕ) : Lattice O K n := { l with cells := l.cells.eraseIdx k }

/-- `clear`, geomc/shape/BinLatticePartition.h:271-273. -/
def Lattice.clear (l : Lattice O K n) : Lattice O K n := { l with cells := [] }

/-- `binRegion`, geomc/shape/BinLatticePartition.h:306-312. -/
def Lattice.binRegion (l : Lattice O K n) (lo hi : Fin n → K) : (Fin n → ℤ) × (Fin n → ℤ) :=
  (fun i => ⌊lo i / l.cellsize⌋, fun i => ⌈hi i / l.cellsize⌉)

/-- The loop over the coordinates in `gotoNextNonemptyCell`, geomc/shape/BinLatticePartition.h:190-201; `none` if the cell is the
last. -/
def nextCell (lo hi : Fin n → ℤ) : List (Fin n) → (Fin n → ℤ) → Option (Fin n → ℤ)
  | [], _ => none
  | a :: as, x =>
    if hi a ≤ x a + 1 then nextCell lo hi as (Function.update x a (lo a)) else some (Function.update x a (x a + 1))

/-- The cells that an iterator inspects, from the given one: the loop of `gotoNextNonemptyCell`,
geomc/shape/BinLatticePartition.h:187-216, again after each cell that has items. -/
def inspect (lo hi : Fin n → ℤ) : (fuel : ℕ) → (Fin n → ℤ) → List (Fin n → ℤ)
  | 0, x => [x]
  | f + 1, x =>
    match nextCell lo hi (List.finRange n) x with
    | none => [x]
    | some y => x :: inspect lo hi f y

/-- How many cells there are, counting an axis without cells as one. -/
def numCells (lo hi : Fin n → ℤ) : ℕ := (((List.finRange n).map fun i => max (hi i - lo i) 1).prod).toNat

/-- The items from a `region_iterator` to its end, geomc/shape/BinLatticePartition.h:118-224: those of the cell `lo`, then those
of the cells that follow. -/
def Lattice.items (l : Lattice O K n) (lo hi : Fin n → ℤ) : List ((Fin n → K) × O) :=
  (inspect lo hi (numCells lo hi) lo).flatMap fun c => (l.cells.filter fun e => e.1 = c).map Prod.snd

/-- `query(pt, radius)`, geomc/shape/BinLatticePartition.h:279-284.  (`query(region)`, :275-277, gives a reference where a pointer
is expected, and does not compile.) -/
def Lattice.query (l : Lattice O K n) (pt : Fin n → K) (radius : K) : List ((Fin n → K) × O) :=
  let r := l.binRegion (fun i => pt i - radius) (fun i => pt i + radius)
  l.items r.1 r.2

end Geomc.Bins
