import Verif.LU.Model
import Verif.Vec.Model

/-!
# Orthogonal vectors, null spaces and Gram–Schmidt

geomc/linalg/Orthogonal.h.  An array of vectors is `ℕ → Fin N → K`; for the routines built on `decomp_plu` it is the
array of rows `ℕ → ℕ → K`.
-/

namespace Geomc.LU

open Geomc.Vec (projectOn mag2 leftPerp cross)

variable {K : Type} [Field K] [LinearOrder K]

/-- The back substitution of `orthogonal`: geomc/linalg/Orthogonal.h:84-91.  `r` runs from `N-2` down, `c` from `N-1`
down to `r+1`; `o` starts as `(0, …, 0, 1)`. -/
def orthBack (M : ℕ → ℕ → K) (N : ℕ) : Option (ℕ → K) :=
  loopM (N - 1) (fun t o =>
    let r := N - 2 - t
    let o := loop (N - 1 - r) (fun u o =>
      let c := N - 1 - u
      Function.update o r (o r - o c * M r c)) o
    if M r r = 0 then none else some (Function.update o r (o r / M r r)))
    (Function.update (fun _ => 0) (N - 1) 1)

/-- `orthogonal` for `N ≥ 4`, geomc/linalg/Orthogonal.h:68-94. -/
def orthogonal (v : ℕ → ℕ → K) (N : ℕ) : Option (ℕ → K) :=
  let s := decompPlu v (N - 1) N
  if s.bad > 0 then some (fun _ => 0) else orthBack s.A N

/-- `orthogonal` for `N = 3` and `N = 2`, geomc/linalg/Orthogonal.h:97-106. -/
def orthogonal3 (a b : Fin 3 → K) : Fin 3 → K := cross a b
def orthogonal2 (a : Fin 2 → K) : Fin 2 → K := leftPerp a

/-- One null vector: geomc/linalg/Orthogonal.h:158-168, on column `b` of `X`. -/
def nullBack (V : ℕ → ℕ → K) (n b : ℕ) (x : ℕ → K) : Option (ℕ → K) :=
  loopM n (fun t x =>
    let r := n - 1 - t
    let x := Function.update x r (-V r (n + b))
    let x := loopFrom (r + 1) n (fun c x => Function.update x r (x r - V r c * x c)) x
    if V r r = 0 then none else some (Function.update x r (x r / V r r)))
    (Function.update x (b + n) 1)

/-- `nullspace` for `N ≥ n + 2`, geomc/linalg/Orthogonal.h:138-173; the result is the flag and the null vectors.  (For
`n ≥ N` nothing is done, for `n = N - 1` it stores `orthogonal(bases)` and returns true, :132-137.) -/
def nullspace (bases : ℕ → ℕ → K) (n N : ℕ) : Option (Bool × (ℕ → ℕ → K)) :=
  let s := decompPlu bases n N
  if s.bad > 0 then some (false, fun _ _ => 0)
  else (loopM (N - n) (fun b X => (nullBack s.A n b (X b)).map (Function.update X b)) (fun _ _ => 0)).map
    (fun X => (true, X))

variable {N : ℕ}

/-- `orthogonalize`, geomc/linalg/Orthogonal.h:187-196. -/
def orthogonalize (basis : ℕ → Fin N → K) (n : ℕ) : ℕ → Fin N → K :=
  loopFrom 1 n (fun i b => loop i (fun j b => Function.update b i (b i - projectOn (b i) (b j))) b) basis

/-- `orthogonalize` in two dimensions, geomc/linalg/Orthogonal.h:199-204. -/
def orthogonalize2 (basis : ℕ → Fin 2 → K) (n : ℕ) : ℕ → Fin 2 → K :=
  if n = 2 then Function.update basis 1 (leftPerp (basis 0)) else basis

/-- The normalisation loop of `orthonormalize`, geomc/linalg/Orthogonal.h:218-220. -/
def normalize (sqrt : K → K) (b : ℕ → Fin N → K) (n : ℕ) : Option (ℕ → Fin N → K) :=
  loopM n (fun i b =>
    let m := sqrt (mag2 (b i))
    if m = 0 then none else some (Function.update b i (fun k => b i k / m))) b

/-- `orthonormalize`, geomc/linalg/Orthogonal.h:216-221. -/
def orthonormalize (sqrt : K → K) (b : ℕ → Fin N → K) (n : ℕ) : Option (ℕ → Fin N → K) :=
  normalize sqrt (orthogonalize b n) n

/-- `project_to_orthogonal_subspace`, geomc/linalg/Orthogonal.h:231-238. -/
def projectToOrthogonal (b : ℕ → Fin N → K) (x : Fin N → K) (n : ℕ) : Fin N → K :=
  loop n (fun i out => out + projectOn x (b i)) 0

/-- `project_to_subspace`, geomc/linalg/Orthogonal.h:247-251. -/
def projectToSubspace (sqrt : K → K) (b : ℕ → Fin N → K) (x : Fin N → K) (n : ℕ) : Option (Fin N → K) :=
  (orthonormalize sqrt b n).map fun b => projectToOrthogonal b x n

end Geomc.LU
