import Mathlib.Data.List.FinRange
import Mathlib.Data.Int.Basic
import Mathlib.Algebra.BigOperators.Fin

/-!
# Model of `geomc/shape/GridIterator.h`

Points are `Fin N → ℤ` (coordinate overflow is not modelled).  The loops `for (i = dim_first; i != dim_end;
i += dim_increment)` run over the list of axes in that order.
-/

namespace Geomc.Grid

variable {N : ℕ}

/-- The axes from `dim_first` to `dim_last`, geomc/shape/GridIterator.h:64-68: ascending when the first
dimension is consecutive, else descending. -/
def axes (firstConsecutive : Bool) (N : ℕ) : List (Fin N) :=
  if firstConsecutive then List.finRange N else (List.finRange N).reverse

/-- `region.dimensions()[i]` for an integer `Rect`, geomc/shape/Rect.h:666-668 (`endpoint_measure = 1`). -/
def dim (lo hi : Fin N → ℤ) (i : Fin N) : ℤ := hi i - lo i + 1

/-- `region.volume()`, geomc/shape/Rect.h:800-807. -/
def volume (lo hi : Fin N → ℤ) : ℤ :=
  (List.finRange N).foldl (fun vol i => vol * max (dim lo hi i) 0) 1

/-- `increment`, geomc/shape/GridIterator.h:136-142. `last` is `dim_last`. -/
def incLoop (lo hi : Fin N → ℤ) (last : Fin N) : List (Fin N) → (Fin N → ℤ) → (Fin N → ℤ)
  | [], pt => pt
  | i :: is, pt =>
    let pt := Function.update pt i (pt i + 1)
    if pt i > hi i then
      incLoop lo hi last is (if i ≠ last then Function.update pt i (lo i) else pt)
    else pt

/-- `decrement`, geomc/shape/GridIterator.h:144-150: the borrow stores `region.hi[i] - 1`. -/
def decLoop (lo hi : Fin N → ℤ) (last : Fin N) : List (Fin N) → (Fin N → ℤ) → (Fin N → ℤ)
  | [], pt => pt
  | i :: is, pt =>
    let pt := Function.update pt i (pt i - 1)
    if pt i < lo i then
      decLoop lo hi last is (if i ≠ last then Function.update pt i (hi i - 1) else pt)
    else pt

/-- `dim_last`, geomc/shape/GridIterator.h:66. -/
def dimLast (o : Bool) (N : ℕ) [NeZero N] : Fin N := if o then Fin.last' N else 0
where
  /-- The last axis `N - 1`. -/
  Fin.last' (N : ℕ) [NeZero N] : Fin N := ⟨N - 1, Nat.sub_lt (Nat.pos_of_neZero N) Nat.one_pos⟩

variable [NeZero N]

/-- `++it`. -/
def increment (o : Bool) (lo hi pt : Fin N → ℤ) : Fin N → ℤ :=
  incLoop lo hi (dimLast o N) (axes o N) pt

/-- `--it`. -/
def decrement (o : Bool) (lo hi pt : Fin N → ℤ) : Fin N → ℤ :=
  decLoop lo hi (dimLast o N) (axes o N) pt

/-- `begin()`, geomc/shape/GridIterator.h:108-112. -/
def begin' (lo : Fin N → ℤ) : Fin N → ℤ := lo

/-- `end()`, geomc/shape/GridIterator.h:118-125. -/
def end' (o : Bool) (lo hi : Fin N → ℤ) : Fin N → ℤ :=
  Function.update lo (dimLast o N) (hi (dimLast o N) + 1)

/-- The constructor from an exclusive upper bound, geomc/shape/GridIterator.h:101-103, giving `(lo, hi)`
of the region. -/
def regionOf (lo hi : Fin N → ℤ) : (Fin N → ℤ) × (Fin N → ℤ) := (lo, fun i => hi i - 1)

/-- The same constructor in the one dimensional specialisation, geomc/shape/GridIterator.h:217-219. -/
def regionOf1 (lo hi : Fin 1 → ℤ) : (Fin 1 → ℤ) × (Fin 1 → ℤ) := (lo, fun i => hi i + 1)

/-- The loop of `advance`, geomc/shape/GridIterator.h:152-164, over the axes in reverse; C++ division
truncates and `/ 0` is undefined. -/
def advLoop (lo hi : Fin N → ℤ) : List (Fin N) → ℤ → ℤ → (Fin N → ℤ) → Option (Fin N → ℤ)
  | [], _, _, dest => some dest
  | i :: is, vol, n, dest =>
    if dim lo hi i = 0 then none
    else
      let vol := vol.tdiv (dim lo hi i)
      if vol = 0 then none
      else advLoop lo hi is vol (n.tmod vol) (Function.update dest i (n.tdiv vol))

/-- `it += n`; the current position is overwritten without being read. -/
def advance (o : Bool) (lo hi _pt : Fin N → ℤ) (n : ℤ) : Option (Fin N → ℤ) :=
  advLoop lo hi (axes o N).reverse (volume lo hi) n (fun _ => 0)

/-- `distance_to`, geomc/shape/GridIterator.h:166-176; the accumulator is `(dist, vol)`. -/
def distanceTo (o : Bool) (lo hi pt other : Fin N → ℤ) : ℤ :=
  ((axes o N).foldl (fun (st : ℤ × ℤ) i =>
    (st.1 + st.2 * (other i - pt i), st.2 * max (dim lo hi i) 0)) (0, 1)).1

end Geomc.Grid
