import Mathlib.Tactic.Common
import Mathlib.Data.List.Basic

/-! # Model of the constructors of `SimpleMatrix`, geomc/linalg/mtxtypes/SimpleMatrix.h

Storage policy `STORAGE_UNIQUE` (the default).  `R` and `C` are the template dimensions, 0 if dynamic.
`none` is an access outside an array, or the value of an element that was never written. -/

namespace Geomc.Make

variable {K : Type}

/-- A matrix object, SimpleMatrix.h:144-146: template dimensions, dynamic dimensions (`Dimension<>`,
geomc/Storage.h:75-89), layout, and the array. -/
structure Mat (K : Type) where
  (R C nr nc : ℕ)
  rowMajor : Bool
  store : List (Option K)

/-- `rows()`, SimpleMatrix.h:333-335. -/
def Mat.rows (m : Mat K) : ℕ := if m.R = 0 then m.nr else m.R

/-- `cols()`, SimpleMatrix.h:340-342. -/
def Mat.cols (m : Mat K) : ℕ := if m.C = 0 then m.nc else m.C

/-- `FlatMatrixLayout::index`, geomc/linalg/mtxdetail/MatrixLayout.h:106-108, 144-146. -/
def off (rowMajor : Bool) (rows cols r c : ℕ) : ℕ := if rowMajor then r * cols + c else c * rows + r

/-- `m(r, c)`, SimpleMatrix.h:444-447. -/
def Mat.get (m : Mat K) (r c : ℕ) : Option K := (m.store[off m.rowMajor m.rows m.cols r c]?).join

/-- Writing an element of the array. -/
def put (s : List (Option K)) (i : ℕ) (x : K) : Option (List (Option K)) :=
  if i < s.length then some (s.set i (some x)) else none

/-- The array of `UniqueStorage<T, R * C>(n)`: `n` is ignored for fixed sizes, geomc/Storage.h:222-223,
255-257. -/
def alloc (R C n : ℕ) : List (Option K) := List.replicate (if R * C = 0 then n else R * C) none

/-- `std::copy(src, src + n, data)`; `src` is what can be read there. -/
def copyIn (s : List (Option K)) (src : List K) (n : ℕ) : Option (List (Option K)) :=
  if n ≤ src.length ∧ n ≤ s.length then some ((src.take n).map some ++ s.drop n) else none

/-- `set_zero()` and the loop of `set_identity()`, SimpleMatrix.h:501-514: the pointer advances by
`cols() + 1` until it passes the end of the elements. -/
def identity [Zero K] [One K] (m : Mat K) : Option (Mat K) := do
  let n := m.rows * m.cols
  let s ← (List.range n).foldlM (fun s i => put s i (0 : K)) m.store
  let s ← (List.range n).foldlM (fun s i => if i % (m.cols + 1) = 0 then put s i (1 : K) else some s) s
  some { m with store := s }

/-- `SimpleMatrix(nrows, ncols)`, SimpleMatrix.h:554-558, 269-274. -/
def new [Zero K] [One K] (R C : ℕ) (rowMajor : Bool) (nrows ncols : ℕ) : Option (Mat K) :=
  identity ⟨R, C, nrows, ncols, rowMajor, alloc R C (nrows * ncols)⟩

/-- `SimpleMatrix(src_data, nrows, ncols)`, SimpleMatrix.h:560-564, 247-254, with `UniqueStorage(n, src)`,
geomc/Storage.h:225-227, 259-264. -/
def ofData (R C : ℕ) (rowMajor : Bool) (src : List K) (nrows ncols : ℕ) : Option (Mat K) := do
  let s ← copyIn (alloc R C (nrows * ncols)) src (nrows * ncols)
  some ⟨R, C, nrows, ncols, rowMajor, s⟩

/-- `SimpleMatrix(elems, nrows, ncols)` from an initialiser list, SimpleMatrix.h:566-569, 286-294, with
`UniqueStorage(list)`, geomc/Storage.h:230-232, 266-269. -/
def ofList (R C : ℕ) (rowMajor : Bool) (l : List K) (nrows ncols : ℕ) : Option (Mat K) := do
  let s ← copyIn (alloc R C l.length) l l.length
  some ⟨R, C, nrows, ncols, rowMajor, s⟩

/-- `SimpleMatrix({v, ...})` from vectors, the rows of a row-major and the columns of a column-major matrix,
SimpleMatrix.h:581-586: the elements of consecutive vectors are consecutive in memory.  The vectors have the
length `C` or `R`, which then is not dynamic. -/
def ofSpans (R C : ℕ) (rowMajor : Bool) (vs : List (List K)) : Option (Mat K) :=
  ofData R C rowMajor vs.flatten (if rowMajor then vs.length else R) (if rowMajor then C else vs.length)

/-- The position of the `i`th element of a matrix in row-major order, which is that of
`begin() + i`, SimpleMatrix.h:399-401, MatrixLayout.h:25-84 (C21). -/
def nth (rowMajor : Bool) (rows cols i : ℕ) : ℕ := off rowMajor rows cols (i / cols) (i % cols)

/-- `SimpleMatrix(mtx)` from any matrix, SimpleMatrix.h:571-579, 277-283.  The pointer passed
to `_mtxcopy` is to the base class, so the general one is chosen, geomc/linalg/mtxdetail/MatrixCopy.h:18-21:
`src` has `r x c` elements, visited in row-major order. -/
def convert (R C : ℕ) (rowMajor : Bool) (r c : ℕ) (src : ℕ → ℕ → Option K) : Option (Mat K) := do
  let m : Mat K := ⟨R, C, r, c, rowMajor, alloc R C (r * c)⟩
  let s ← (List.range (r * c)).foldlM (fun s i => do
    let x ← src (i / c) (i % c)
    put s (nth rowMajor m.rows m.cols i) x) m.store
  some { m with store := s }

/-- `m.as_transpose()`, SimpleMatrix.h:471-496: a matrix of the other layout over the same array.  It
compiles only if both dimensions are dynamic (the assertion of the constructor, SimpleMatrix.h:617-621). -/
def Mat.asTranspose (m : Mat K) : Mat K := ⟨0, 0, m.cols, m.rows, !m.rowMajor, m.store⟩

end Geomc.Make
