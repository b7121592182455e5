import Verif.Vec.IntModel
import Verif.Rect.Model

/-!
# Boxes of machine integers

geomc/shape/Rect.h for integral element types, with the arithmetic of Verif/Vec/IntModel.lean.  For `N ≥ 2` the corners are vectors, and
every operation stores its result into elements; for `N = 1` (`…1`) they are scalars, so that an expression is evaluated as a whole with
promoted operands.  What only compares (`contains`, `intersects`, `is_empty`, unions, intersections, `clip`) is as in Verif/Rect/Model.lean.
-/

namespace Geomc.RectInt

open Geomc.VecInt Geomc.Rect

variable {n : ℕ}

/-- The box has corners of the element type. -/
def Fits (t : ITy) (b : Box ℤ n) : Prop := ∀ i, t.Has (b.lo i) ∧ t.Has (b.hi i)

/-- The default constructor and `Rect::empty`, and `Rect::full`, Rect.h:94-96, 1034-1044. -/
def empty (t : ITy) : Box ℤ n := ⟨fun _ => t.hi, fun _ => t.lo⟩
def full (t : ITy) : Box ℤ n := ⟨fun _ => t.lo, fun _ => t.hi⟩

/-- `dimensions`, Rect.h:666-668. -/
def dimensions (t : ITy) (b : Box ℤ n) : Option (Fin n → ℤ) := do
  let d ← subV t b.hi b.lo
  addV t d fun _ => 1
def dimensions1 (t : ITy) (lo hi : ℤ) : Option ℤ := do
  let d ← arith t.promote (hi - lo)
  store t (d + 1)

/-- `volume`, Rect.h:800-807. -/
def volumeOf (t : ITy) (dim : Fin n → ℤ) : Option ℤ :=
  (List.finRange n).foldlM (fun vol i => mul t vol (max (dim i) 0)) 1
def volume (t : ITy) (b : Box ℤ n) : Option ℤ := do
  let dim ← dimensions t b
  volumeOf t dim
def volume1 (t : ITy) (lo hi : ℤ) : Option ℤ := do
  let dim ← dimensions1 t lo hi
  mul t 1 (max dim 0)

/-- `center`, Rect.h:655-657. -/
def center (t : ITy) (b : Box ℤ n) : Option (Fin n → ℤ) := do
  let s ← addV t b.hi b.lo
  let s ← addV t s fun _ => 1
  divV t s fun _ => 2
def center1 (t : ITy) (lo hi : ℤ) : Option ℤ := do
  let s ← arith t.promote (hi + lo)
  let s ← arith t.promote (s + 1)
  store t (s.tdiv 2)

/-- `operator+`, `operator-` and `dilated`, Rect.h:365-401, 778-780. -/
def translate (t : ITy) (b : Box ℤ n) (d : Fin n → ℤ) : Option (Box ℤ n) := do
  let l ← addV t b.lo d
  let h ← addV t b.hi d
  some ⟨l, h⟩
def untranslate (t : ITy) (b : Box ℤ n) (d : Fin n → ℤ) : Option (Box ℤ n) := do
  let l ← subV t b.lo d
  let h ← subV t b.hi d
  some ⟨l, h⟩
def dilated (t : ITy) (b : Box ℤ n) (c : Fin n → ℤ) : Option (Box ℤ n) := do
  let l ← subV t b.lo c
  let h ← addV t b.hi c
  some ⟨l, h⟩

/-- `from_corner`, Rect.h:155-161. -/
def fromCorner (t : ITy) (corner dims : Fin n → ℤ) : Option (Box ℤ n) := do
  let s ← addV t corner dims
  let s ← subV t s fun _ => 1
  some ⟨fun i => min (corner i) (s i), fun i => max (corner i) (s i)⟩

/-- `T d = std::abs(p - q)`, as in `project`, Rect.h:850-861 (`std::abs` of `unsigned int` and wider unsigned types does not compile). -/
def absDiff (t : ITy) (p q : ℤ) : Option ℤ := do
  let d ← arith t.promote (p - q)
  store t |d|
def project (t : ITy) (b : Box ℤ n) (p : Fin n → ℤ) : Option (Fin n → ℤ) :=
  each fun i => do
    let dlo ← absDiff t (p i) (b.lo i)
    let dhi ← absDiff t (p i) (b.hi i)
    some (if dlo < dhi then b.lo i else b.hi i)

/-- `dist2`, Rect.h:876-878. -/
def dist2 (t : ITy) (b : Box ℤ n) (p : Fin n → ℤ) : Option ℤ := do
  let d ← subV t p (b.clip p)
  mag2 t d

end Geomc.RectInt
