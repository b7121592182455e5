import Verif.LU.Model

/-!
# Cholesky decomposition

geomc/linalg/Cholesky.h.  Arrays are functions of row and column as in `Verif.LU.Model`; the square root is a parameter.
Once the returned flag is false the C++ array may hold infinities and not-a-numbers; the flag is latched, so nothing
about the contents is claimed in that case (Lean's total division stands in for them).
-/

namespace Geomc.LU

variable {K : Type} [Field K] [LinearOrder K]

/-- The elements and the flag `ok`. -/
structure CState (K : Type) where
  A : ℕ → ℕ → K
  ok : Bool

/-- The body of the loop over `c`: geomc/linalg/Cholesky.h:42-55. -/
def cholElem (sqrt : K → K) (r c : ℕ) (s : CState K) : CState K :=
  let x := loop c (fun k x => x - s.A r k * s.A c k) (s.A r c)
  if r = c then ⟨put s.A r c (sqrt x), s.ok && decide (0 < x)⟩
  else ⟨put (put s.A c r 0) r c (x / s.A c c), s.ok⟩

/-- The body of the loop over `r`: geomc/linalg/Cholesky.h:41-56. -/
def cholRow (sqrt : K → K) (r : ℕ) (s : CState K) : CState K := loop (r + 1) (cholElem sqrt r) s

/-- `cholesky(m, n)`, geomc/linalg/Cholesky.h:37-59. -/
def cholesky (sqrt : K → K) (A : ℕ → ℕ → K) (n : ℕ) : CState K := loop n (cholRow sqrt) ⟨A, true⟩

/-- The overload for matrices, geomc/linalg/Cholesky.h:82-89: it decomposes the storage as if row-major, whatever the
layout, so on a column-major matrix it works on the transpose. -/
def choleskyMatrix (sqrt : K → K) (colMajor : Bool) (A : ℕ → ℕ → K) (rows cols : ℕ) : CState K :=
  if rows ≠ cols then ⟨A, false⟩
  else if colMajor then
    let s := cholesky sqrt (fun r c => A c r) rows
    ⟨fun r c => s.A c r, s.ok⟩
  else cholesky sqrt A rows

end Geomc.LU
