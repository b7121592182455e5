import Verif.Chol.Model
import Verif.LU.FloatModel

/-!
# Cholesky decomposition in floating point

geomc/linalg/Cholesky.h as in `Verif.Chol.Model`, with the result of each operation rounded by `rnd`: `sqrt` is the exact square root, and
`std::sqrt` is rounded correctly.  `s -= a * b` may be fused or not.
-/

namespace Geomc.LU

variable {K : Type} [Field K] [LinearOrder K]

/-- The body of the loop over `c`: geomc/linalg/Cholesky.h:42-55. -/
def cholElemF (rnd : K → K) (fused : Bool) (sqrt : K → K) (r c : ℕ) (s : CState K) : CState K :=
  let x := loop c (fun k x => subProd rnd fused x (s.A r k) (s.A c k)) (s.A r c)
  if r = c then ⟨put s.A r c (rnd (sqrt x)), s.ok && decide (0 < x)⟩
  else ⟨put (put s.A c r 0) r c (rnd (x / s.A c c)), s.ok⟩

/-- The body of the loop over `r`: geomc/linalg/Cholesky.h:41-56. -/
def cholRowF (rnd : K → K) (fused : Bool) (sqrt : K → K) (r : ℕ) (s : CState K) : CState K :=
  loop (r + 1) (cholElemF rnd fused sqrt r) s

/-- `cholesky(m, n)`, geomc/linalg/Cholesky.h:37-59. -/
def choleskyF (rnd : K → K) (fused : Bool) (sqrt : K → K) (A : ℕ → ℕ → K) (n : ℕ) : CState K :=
  loop n (cholRowF rnd fused sqrt) ⟨A, true⟩

end Geomc.LU
