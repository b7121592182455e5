import Mathlib.Data.Int.Basic
import Mathlib.Logic.Equiv.Fin.Basic
import Mathlib.Tactic.Ring
import Mathlib.Tactic.Linarith

/-!
# Model of `geomc/linalg/mtxdetail/MatrixLayout.h`

Pointers are offsets from the matrix base, in elements.  `index_t` is `ℤ` without overflow; `/` and `%`
truncate and are undefined (`none`) on zero.
-/

namespace Geomc.Layout

/-- A `TransposeIterator`, geomc/linalg/mtxdetail/MatrixLayout.h:21-25; `p` is an offset from `base`. -/
structure TI where
  major : ℤ
  minor : ℤ
  i : ℤ
  p : ℤ
  deriving DecidableEq

/-- `offs()`, geomc/linalg/mtxdetail/MatrixLayout.h:44-51. -/
def offs (major minor i : ℤ) : Option ℤ :=
  let s := major * minor
  if s = 0 then none
  else
    let j := i.tmod s
    let k := i.tdiv s
    if minor = 0 then none
    else some (j.tmod minor * major + j.tdiv minor + k * s)

/-- Constructor, geomc/linalg/mtxdetail/MatrixLayout.h:36-41. -/
def TI.new (major minor i : ℤ) : Option TI := do
  let p ← offs major minor i
  some ⟨major, minor, i, p⟩

/-- `advance(dx)`, geomc/linalg/mtxdetail/MatrixLayout.h:72-75; `increment` (62-65) is `dx = 1` and
`decrement` (67-70) is `dx = -1`. -/
def TI.advance (t : TI) (dx : ℤ) : Option TI := do
  let p ← offs t.major t.minor (t.i + dx)
  some { t with i := t.i + dx, p := p }

/-- `equal`, geomc/linalg/mtxdetail/MatrixLayout.h:57-60. -/
def TI.equal (t u : TI) : Bool := t.p == u.p

/-- `distance_to`, geomc/linalg/mtxdetail/MatrixLayout.h:81-92 (both iterators over the same base). -/
def TI.distanceTo (t other : TI) : Option ℤ :=
  let s := t.major * t.minor
  if s = 0 then none
  else
    let j := other.p.tmod s
    let k := other.p.tdiv s
    if t.major = 0 then none
    else some (j.tmod t.major * t.minor + j.tdiv t.major + k * s - t.i)

/-- `FlatMatrixLayout<T,ROW_MAJOR>::index`, geomc/linalg/mtxdetail/MatrixLayout.h:106-108, and the
column-major one, 144-146. -/
def index (rowMajor : Bool) (r c rows cols : ℤ) : ℤ :=
  if rowMajor then r * cols + c else c * rows + r

/-- A row or column iterator is a bare pointer along the major axis and a `TransposeIterator` across. -/
inductive It where
  | ptr (p : ℤ)
  | tr (t : TI)

/-- `row(r)`, geomc/linalg/mtxdetail/MatrixLayout.h:110-119 and 159-168. -/
def row (rowMajor : Bool) (r rows cols : ℤ) : Option It :=
  if rowMajor then some (.ptr (r * cols))
  else do let t ← TI.new rows cols (r * cols); some (.tr t)

/-- `col(c)`, geomc/linalg/mtxdetail/MatrixLayout.h:121-130 and 148-157. -/
def col (rowMajor : Bool) (c rows cols : ℤ) : Option It :=
  if rowMajor then do let t ← TI.new cols rows (c * rows); some (.tr t)
  else some (.ptr (c * rows))

/-- `it + n`. -/
def It.advance : It → ℤ → Option It
  | .ptr p, n => some (.ptr (p + n))
  | .tr t, n => do let t ← t.advance n; some (.tr t)

/-- The offset a dereference reads. -/
def It.deref : It → ℤ
  | .ptr p => p
  | .tr t => t.p

/-- `it - it'` (from the second to the first), by pointer difference or `distance_to`. -/
def It.distanceTo : It → It → Option ℤ
  | .ptr p, .ptr q => some (q - p)
  | .tr t, .tr u => t.distanceTo u
  | _, _ => none

end Geomc.Layout
