import Verif.LU.Model
import Verif.Float.Model

/-!
# LU decomposition and linear systems in floating point

geomc/linalg/LUDecomp.h as in `Verif.LU.Model`, with the result of each operation rounded by `rnd`.  `multiply_add` is `std::fma`.
`x -= y * z` may be compiled to two operations or, where contraction is allowed, to one fused operation: `fused` says which.
-/

namespace Geomc.LU

open Geomc.Mtx (permutationApply)

variable {K : Type} [Field K] [LinearOrder K]

/-- `x -= y * z`. -/
def subProd (rnd : K → K) (fused : Bool) (x y z : K) : K := rnd (x - if fused then y * z else rnd (y * z))

/-- The elimination below the pivot: geomc/linalg/LUDecomp.h:233-248. -/
def eliminateF (rnd : K → K) (A : ℕ → ℕ → K) (rows cols i : ℕ) : ℕ → ℕ → K :=
  let a := A i i
  loopFrom (i + 1) rows (fun r A =>
    let b := rnd (A r i / a)
    let A := if b ≠ 0 then
        loopFrom (i + 1) cols (fun c A => put A r c (Flt.multiplyAdd rnd (-b) (A i c) (A r c))) A
      else A
    put A r i b) A

/-- One round of the main loop of `decomp_plu`: geomc/linalg/LUDecomp.h:204-249. -/
def pluStepF (rnd : K → K) (rows cols i : ℕ) (s : State K) : State K :=
  let (pvt, biggest) := findRowPivot s.A rows i
  if biggest = 0 then { s with bad := s.bad + 1 }
  else
    let s := if pvt ≠ i then
        { s with A := swapRows s.A cols i pvt, p := swapIdx s.p i pvt, parity := !s.parity }
      else s
    { s with A := eliminateF rnd s.A rows cols i }

/-- `decomp_plu`, geomc/linalg/LUDecomp.h:189-252. -/
def decompPluF (rnd : K → K) (A : ℕ → ℕ → K) (rows cols : ℕ) : State K :=
  loop (min rows cols - 1) (pluStepF rnd rows cols) ⟨A, fun i => i, false, 0⟩

/-- The forward substitution of `backsolve_lu`: geomc/linalg/LUDecomp.h:347-355. -/
def forwardLuF (rnd : K → K) (fused : Bool) (M : ℕ → ℕ → K) (n m : ℕ) (X : ℕ → ℕ → K) : ℕ → ℕ → K :=
  loopFrom 1 n (fun r X => loop m (fun i X =>
    loop r (fun c X => put X r i (subProd rnd fused (X r i) (X c i) (M r c))) X) X) X

/-- The backward substitution: geomc/linalg/LUDecomp.h:358-367. -/
def backwardF (rnd : K → K) (fused : Bool) (M : ℕ → ℕ → K) (n m skip : ℕ) (X : ℕ → ℕ → K) : Option (ℕ → ℕ → K) :=
  loopM (n - skip) (fun t X =>
    let r := n - 1 - t
    loopM m (fun i X =>
      let X := loop (n - 1 - r) (fun u X =>
        let c := n - 1 - u
        put X r i (subProd rnd fused (X r i) (X c i) (M r c))) X
      if M r r = 0 then none else some (put X r i (rnd (X r i / M r r)))) X) X

/-- `linear_solve(a, n, m, x, skip)`, geomc/linalg/LUDecomp.h:389-401, and the `Vec` overload with `N ≥ 5`, :430-441. -/
def linearSolveF (rnd : K → K) (fused : Bool) (A : ℕ → ℕ → K) (n m : ℕ) (X : ℕ → ℕ → K) (skip : ℕ) :
    Option (Bool × (ℕ → ℕ → K)) :=
  let s := decompPluF rnd A n n
  if 0 < s.bad then some (false, X)
  else do
    let (_, X) ← permutationApply n s.p X
    let X ← backwardF rnd fused s.A n m skip (forwardLuF rnd fused s.A n m X)
    some (true, X)

/-- `invNxN`, geomc/linalg/mtxdetail/MatrixInv.h:187-200 and :220-233. -/
def invNxNF (rnd : K → K) (fused : Bool) (out A : ℕ → ℕ → K) (n : ℕ) : Option (Bool × (ℕ → ℕ → K)) :=
  let s := decompPluF rnd A n n
  if 0 < s.bad then some (false, out)
  else do
    let o := loop n (fun i o => put o i (s.p i) 1) (fun _ _ => 0)
    let o ← backwardF rnd fused s.A n n 0 (forwardLuF rnd fused s.A n n o)
    some (true, o)

end Geomc.LU
