import Mathlib.Algebra.Order.Field.Basic
import Mathlib.Algebra.Order.Group.Unbundled.Abs
import Verif.Perms.Model

/-!
# LU decomposition and linear systems

geomc/linalg/LUDecomp.h, geomc/linalg/mtxdetail/MatrixInv.h (`invNxN`), geomc/linalg/mtxdetail/MatrixDet.h
(`det_destructive`, `detNxN`).

A `rows × cols` array is a function `ℕ → ℕ → K` from row and column to element: both layouts of `MxWrap`
(geomc/linalg/mtxdetail/MatrixGlue.h:30-60) address the elements injectively (see C21, C25), and every index below stays
inside the loops' bounds.  Elements are an ordered field; a division by zero gives `none` (the C++ result is not
a number).
-/

namespace Geomc.LU

open Geomc.Mtx (permutationApply)

/-- `for (i = 0; i < n; ++i) s = f(i, s)`. -/
def loop {S : Type} : ℕ → (ℕ → S → S) → S → S
  | 0, _, s => s
  | n + 1, f, s => f n (loop n f s)

/-- `for (i = lo; i < hi; ++i) s = f(i, s)`. -/
def loopFrom {S : Type} (lo hi : ℕ) (f : ℕ → S → S) (s : S) : S := loop (hi - lo) (fun t => f (lo + t)) s

/-- A loop whose body may fail. -/
def loopM {S : Type} : ℕ → (ℕ → S → Option S) → S → Option S
  | 0, _, s => some s
  | n + 1, f, s => (loopM n f s).bind (f n)

variable {K : Type}

/-- `mx.elem(r, c) = x`. -/
def put (A : ℕ → ℕ → K) (r c : ℕ) (x : K) : ℕ → ℕ → K :=
  fun r' c' => if r' = r ∧ c' = c then x else A r' c'

section Ordered
variable [Field K] [LinearOrder K]

/-- What `decomp_plu` and `decomp_lup` carry around: the elements, the `reorder` array, the parity and the number of
degenerate lines. -/
structure State (K : Type) where
  A : ℕ → ℕ → K
  p : ℕ → ℕ
  parity : Bool
  bad : ℕ

/-- The pivot search in column `i`: geomc/linalg/LUDecomp.h:206-215.  The pair is `(pvt, biggest)`. -/
def findRowPivot (A : ℕ → ℕ → K) (rows i : ℕ) : ℕ × K :=
  loopFrom (i + 1) rows (fun p s => if s.2 < |A p i| then (p, |A p i|) else s) (i, |A i i|)

/-- The pivot search in row `i`: geomc/linalg/LUDecomp.h:120-129. -/
def findColPivot (A : ℕ → ℕ → K) (cols i : ℕ) : ℕ × K :=
  loopFrom (i + 1) cols (fun p s => if s.2 < |A i p| then (p, |A i p|) else s) (i, |A i i|)

/-- `std::swap` of rows `i` and `j`, element by element: geomc/linalg/LUDecomp.h:224-227. -/
def swapRows (A : ℕ → ℕ → K) (cols i j : ℕ) : ℕ → ℕ → K :=
  loop cols (fun c A => put (put A i c (A j c)) j c (A i c)) A

/-- `std::swap` of columns `i` and `j`: geomc/linalg/LUDecomp.h:139-142. -/
def swapCols (A : ℕ → ℕ → K) (rows i j : ℕ) : ℕ → ℕ → K :=
  loop rows (fun r A => put (put A r i (A r j)) r j (A r i)) A

/-- `std::swap(reorder[i], reorder[pvt])`. -/
def swapIdx (p : ℕ → ℕ) (i j : ℕ) : ℕ → ℕ := Function.update (Function.update p i (p j)) j (p i)

/-- The elimination below the pivot: geomc/linalg/LUDecomp.h:148-163 and :233-248. -/
def eliminate (A : ℕ → ℕ → K) (rows cols i : ℕ) : ℕ → ℕ → K :=
  let a := A i i
  loopFrom (i + 1) rows (fun r A =>
    let b := A r i / a
    let A := if b ≠ 0 then
        loopFrom (i + 1) cols (fun c A => put A r c (-b * A i c + A r c)) A
      else A
    put A r i b) A

/-- One round of the main loop of `decomp_plu`: geomc/linalg/LUDecomp.h:204-249. -/
def pluStep (rows cols i : ℕ) (s : State K) : State K :=
  let (pvt, biggest) := findRowPivot s.A rows i
  if biggest = 0 then { s with bad := s.bad + 1 }
  else
    let s := if pvt ≠ i then
        { s with A := swapRows s.A cols i pvt, p := swapIdx s.p i pvt, parity := !s.parity }
      else s
    { s with A := eliminate s.A rows cols i }

/-- `decomp_plu`, geomc/linalg/LUDecomp.h:189-252. -/
def decompPlu (A : ℕ → ℕ → K) (rows cols : ℕ) : State K :=
  loop (min rows cols - 1) (pluStep rows cols) ⟨A, fun i => i, false, 0⟩

/-- One round of the main loop of `decomp_lup`: geomc/linalg/LUDecomp.h:118-164. -/
def lupStep (rows cols i : ℕ) (s : State K) : State K :=
  let (pvt, biggest) := findColPivot s.A cols i
  if biggest = 0 then { s with bad := s.bad + 1 }
  else
    let s := if pvt ≠ i then
        { s with A := swapCols s.A rows i pvt, p := swapIdx s.p i pvt, parity := !s.parity }
      else s
    { s with A := eliminate s.A rows cols i }

/-- `decomp_lup`, geomc/linalg/LUDecomp.h:103-167. -/
def decompLup (A : ℕ → ℕ → K) (rows cols : ℕ) : State K :=
  loop (min rows cols - 1) (lupStep rows cols) ⟨A, fun i => i, false, 0⟩

/-- The forward substitution of `backsolve_lu`: geomc/linalg/LUDecomp.h:347-355. -/
def forwardLu (M : ℕ → ℕ → K) (n m : ℕ) (X : ℕ → ℕ → K) : ℕ → ℕ → K :=
  loopFrom 1 n (fun r X => loop m (fun i X =>
    loop r (fun c X => put X r i (X r i - X c i * M r c)) X) X) X

/-- The backward substitution (`r` from `n-1` down to `skip`, `c` from `n-1` down to `r+1`):
geomc/linalg/LUDecomp.h:302-312 and :358-367. -/
def backward (M : ℕ → ℕ → K) (n m skip : ℕ) (X : ℕ → ℕ → K) : Option (ℕ → ℕ → K) :=
  loopM (n - skip) (fun t X =>
    let r := n - 1 - t
    loopM m (fun i X =>
      let X := loop (n - 1 - r) (fun u X =>
        let c := n - 1 - u
        put X r i (X r i - X c i * M r c)) X
      if M r r = 0 then none else some (put X r i (X r i / M r r))) X) X

/-- `backsolve_lu`, geomc/linalg/LUDecomp.h:333-368. -/
def backsolveLu (M : ℕ → ℕ → K) (n m : ℕ) (X : ℕ → ℕ → K) (skip : ℕ) : Option (ℕ → ℕ → K) :=
  backward M n m skip (forwardLu M n m X)

/-- The forward substitution of `backsolve_plu`: geomc/linalg/LUDecomp.h:292-299. -/
def forwardPlu (M : ℕ → ℕ → K) (p : ℕ → ℕ) (n m : ℕ) (B X : ℕ → ℕ → K) : ℕ → ℕ → K :=
  loop n (fun r X => loop m (fun i X =>
    loop r (fun c X => put X r i (X r i - X c i * M r c)) (put X r i (B (p r) i))) X) X

/-- `backsolve_plu`, geomc/linalg/LUDecomp.h:272-314; `x` and `b` are separate arrays. -/
def backsolvePlu (M : ℕ → ℕ → K) (p : ℕ → ℕ) (n m : ℕ) (X B : ℕ → ℕ → K) (skip : ℕ) :
    Option (ℕ → ℕ → K) :=
  backward M n m skip (forwardPlu M p n m B X)

/-- `linear_solve(a, n, m, x, skip)`, geomc/linalg/LUDecomp.h:389-401; also the `Vec` overload with `N ≥ 5`
(geomc/linalg/LUDecomp.h:430-441).  `destructive_apply_permutation` exchanges whole rows, so it is
`permutationApply` with rows for elements. The result is the returned flag and the array `x`. -/
def linearSolve (A : ℕ → ℕ → K) (n m : ℕ) (X : ℕ → ℕ → K) (skip : ℕ) : Option (Bool × (ℕ → ℕ → K)) :=
  let s := decompPlu A n n
  if 0 < s.bad then some (false, X)
  else do
    let (_, X) ← permutationApply n s.p X
    let X ← backsolveLu s.A n m X skip
    some (true, X)

/-- `invNxN`, geomc/linalg/mtxdetail/MatrixInv.h:187-200 and :220-233. -/
def invNxN (out A : ℕ → ℕ → K) (n : ℕ) : Option (Bool × (ℕ → ℕ → K)) :=
  let s := decompPlu A n n
  if 0 < s.bad then some (false, out)
  else do
    let o := loop n (fun i o => put o i (s.p i) 1) (fun _ _ => 0)
    let o ← backsolveLu s.A n n o 0
    some (true, o)

/-- The product over the "diagonal" `m[i * i]` of the flat row-major `n × n` buffer, taken from `±1`:
geomc/linalg/mtxdetail/MatrixDet.h:121-126 and :144-151.  Flat index `k` is row `k / n`, column `k % n`. -/
def diagProduct (s : State K) (n : ℕ) : K :=
  loop n (fun i d => d * s.A (i * i / n) (i * i % n)) (if s.parity then -1 else 1)

/-- `det_destructive`, geomc/linalg/mtxdetail/MatrixDet.h:116-127. -/
def detDestructive (A : ℕ → ℕ → K) (n : ℕ) : K :=
  if n = 1 then A 0 0
  else
    let s := decompPlu A n n
    if s.bad ≠ 0 then 0 else diagProduct s n

/-- `detNxN`, geomc/linalg/mtxdetail/MatrixDet.h:139-152. -/
def detNxN (A : ℕ → ℕ → K) (n : ℕ) : K :=
  let s := decompPlu A n n
  if s.bad ≠ 0 then 0 else diagProduct s n

end Ordered

end Geomc.LU
