import Verif.Grid.Model

/-! # Model of the element iterators of matrices

geomc/linalg/mtxdetail/MatrixIterator.h and MatrixBase.h.  These iterators are a position of a
`GridIterator<index_t,2,ARRAYORDER_LAST_DIM_CONSECUTIVE>` (`Verif/Grid/Model.lean`) over rows and columns
together with the matrix. -/

namespace Geomc.MtxIter

open Geomc.Grid

/-- A `MtxSubsetIterator`, MatrixIterator.h:50-51: the region and the position. -/
structure It where
  (lo hi pt : Fin 2 → ℤ)

/-- `++it`, MatrixIterator.h:91-93. -/
def It.next (i : It) : It := { i with pt := increment false i.lo i.hi i.pt }

/-- `it == other` for the same matrix, MatrixIterator.h:87-89, geomc/shape/GridIterator.h:132-134: positions
are compared. -/
def It.eq (i j : It) : Bool := i.pt 0 = j.pt 0 ∧ i.pt 1 = j.pt 1

/-- The iterator of a whole matrix at a point, MatrixIterator.h:62-66. -/
def It.whole (rows cols : ℤ) (pt : Fin 2 → ℤ) : It := ⟨![0, 0], ![rows - 1, cols - 1], pt⟩

/-- `m.begin()`, MatrixBase.h:154-156, 296-298. -/
def matBegin (rows cols : ℤ) : It := It.whole rows cols ![0, 0]

/-- `m.end()`, MatrixBase.h:162-166, 304-308. -/
def matEnd (rows cols : ℤ) : It := It.whole rows cols ![rows, 0]

/-- `m.region_begin(r)`, MatrixBase.h:178-180, 319-321, MatrixIterator.h:53-55. -/
def regionBegin (lo hi : Fin 2 → ℤ) : It := ⟨lo, hi, begin' lo⟩

/-- `m.region_end(r)`, MatrixBase.h:189-191, 330-332, MatrixIterator.h:80-82. -/
def regionEnd (lo hi : Fin 2 → ℤ) : It := ⟨lo, hi, end' false lo hi⟩

/-- The loop `for (; it != end; ++it) f(*it)`: the rows and columns of the elements visited (`dereference`,
MatrixIterator.h:107-111), `none` if it is still running after `fuel` steps. -/
def loop (stop : It) : ℕ → It → Option (List (ℤ × ℤ))
  | 0, _ => none
  | fuel + 1, i =>
    if i.eq stop then some []
    else (loop stop fuel i.next).map ((i.pt 0, i.pt 1) :: ·)

end Geomc.MtxIter
