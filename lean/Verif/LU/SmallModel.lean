import Verif.Duals.Model
import Verif.Perms.Model

/-!
# Small, diagonal and permutation matrices: determinant and inverse

geomc/linalg/mtxdetail/MatrixDet.h:20-100, 175-240 and geomc/linalg/mtxdetail/MatrixInv.h:51-165, 280-410.
A flat array is a function of the index.
-/

namespace Geomc.LU

open Geomc.Duals (diffOfProducts sumOfProducts)
open Geomc.Mtx (Perm Diag Mem permutationSign)

variable {K : Type} [Field K]

/-- `det2x2(a, b, c, d)`, geomc/linalg/mtxdetail/MatrixDet.h:50-53. -/
def det2 (a b c d : K) : K := diffOfProducts a d b c

/-- `cofac`, geomc/linalg/mtxdetail/MatrixDet.h:37-41. -/
def cofac (a b c d e f : K) : K := e * f + diffOfProducts a b c d

/-- `det3x3`, geomc/linalg/mtxdetail/MatrixDet.h:72-84. -/
def det3 (a b c d e f g h i : K) : K :=
  cofac a (det2 e f h i) b (det2 d f g i) c (det2 d e g h)

/-- `det2x2(m)` and `det3x3(m)` on flat arrays, geomc/linalg/mtxdetail/MatrixDet.h:55-70. -/
def det2m (m : ℕ → K) : K := diffOfProducts (m 0) (m 3) (m 1) (m 2)
def det3m (m : ℕ → K) : K :=
  cofac (m 0) (det2 (m 4) (m 5) (m 7) (m 8)) (m 1) (det2 (m 3) (m 5) (m 6) (m 8))
    (m 2) (det2 (m 3) (m 4) (m 6) (m 7))

/-- `det4x4`, geomc/linalg/mtxdetail/MatrixDet.h:86-100 (its `reinterpret_cast` casts away `const`, which compilers
reject; modelled without). -/
def det4m (v : ℕ → K) : K :=
  diffOfProducts
    (v 0) (det3 (v 5) (v 6) (v 7) (v 9) (v 10) (v 11) (v 13) (v 14) (v 15))
    (v 1) (det3 (v 4) (v 6) (v 7) (v 8) (v 10) (v 11) (v 12) (v 14) (v 15))
  + diffOfProducts
    (v 2) (det3 (v 4) (v 5) (v 7) (v 8) (v 9) (v 11) (v 12) (v 13) (v 15))
    (v 3) (det3 (v 4) (v 5) (v 6) (v 8) (v 9) (v 10) (v 12) (v 13) (v 14))

/-- `std::copy(inv, inv + k, out)`. -/
def copyOut (l : List K) (out : ℕ → K) : ℕ → K := fun k => (l[k]?).getD (out k)

variable [DecidableEq K]

/-- `inv2x2`, geomc/linalg/mtxdetail/MatrixInv.h:50-62. -/
def inv2 (out m : ℕ → K) : Bool × (ℕ → K) :=
  let a := m 0
  let b := m 1
  let c := m 2
  let d := m 3
  let det := det2 a b c d
  if det = 0 then (false, out)
  else (true, copyOut [d / det, -b / det, -c / det, a / det] out)

/-- `inv3x3`, geomc/linalg/mtxdetail/MatrixInv.h:76-104. -/
def inv3 (out m : ℕ → K) : Bool × (ℕ → K) :=
  let (a, b, c) := (m 0, m 1, m 2)
  let (d, e, f) := (m 3, m 4, m 5)
  let (g, h, i) := (m 6, m 7, m 8)
  let p0 := det2 i h f e
  let p1 := det2 i h c b
  let p2 := det2 f e c b
  let det := g * p2 + det2 a d p1 p0
  if det = 0 then (false, out)
  else (true, copyOut [
    det2 i h f e / det,
    det2 h i b c / det,
    det2 f e c b / det,
    det2 g i d f / det,
    det2 i g c a / det,
    det2 d f a c / det,
    det2 h g e d / det,
    det2 g h a b / det,
    det2 e d b a / det] out)

/-- `inv4x4`, geomc/linalg/mtxdetail/MatrixInv.h:118-165. -/
def inv4 (out v : ℕ → K) : Bool × (ℕ → K) :=
  let (a, b, c, d) := (v 0, v 1, v 2, v 3)
  let (e, f, g, h) := (v 4, v 5, v 6, v 7)
  let (i, j, k, l) := (v 8, v 9, v 10, v 11)
  let (m, n, o, p) := (v 12, v 13, v 14, v 15)
  let s0 := det2 a b e f
  let s1 := det2 a c e g
  let s2 := det2 a d e h
  let s3 := det2 b c f g
  let s4 := det2 b d f h
  let s5 := det2 c d g h
  let c0 := det2 i j m n
  let c1 := det2 i k m o
  let c2 := det2 i l m p
  let c3 := det2 j k n o
  let c4 := det2 j l n p
  let c5 := det2 k l o p
  let det := diffOfProducts s0 c5 s1 c4 + diffOfProducts s3 c2 s4 c1 + sumOfProducts s2 c3 s5 c0
  if det = 0 then (false, out)
  else (true, copyOut [
     cofac f c5 g c4 h c3 / det,
    -cofac b c5 c c4 d c3 / det,
     cofac n s5 o s4 p s3 / det,
    -cofac j s5 k s4 l s3 / det,
    -cofac e c5 g c2 h c1 / det,
     cofac a c5 c c2 d c1 / det,
    -cofac m s5 o s2 p s1 / det,
     cofac i s5 k s2 l s1 / det,
     cofac e c4 f c2 h c0 / det,
    -cofac a c4 b c2 d c0 / det,
     cofac m s4 n s2 p s0 / det,
    -cofac i s4 j s2 l s0 / det,
    -cofac e c3 f c1 g c0 / det,
     cofac a c3 b c1 c c0 / det,
    -cofac m s3 n s1 o s0 / det,
     cofac i s3 j s1 k s0 / det] out)

/-- `transpose_square_matrix` on a flat `n × n` array (for `n = 2` one exchange), see C26. -/
def flatTranspose (n : ℕ) (m : ℕ → K) : ℕ → K := fun k => if k < n * n then m (k % n * n + k / n) else m k

/-- The class level inverse for sizes 2, 3 and 4: geomc/linalg/mtxdetail/MatrixInv.h:280-340.  `raw` is the flat
inverse; the result is transposed when the layouts differ. -/
def classInv (n : ℕ) (raw : (ℕ → K) → (ℕ → K) → Bool × (ℕ → K)) (outRow srcRow : Bool) (out m : ℕ → K) :
    Bool × (ℕ → K) :=
  let (ok, z) := raw out m
  if ok = false then (false, z)
  else if outRow ≠ srcRow then (true, flatTranspose n z) else (true, z)

/-- `det(DiagMatrix)`, geomc/linalg/mtxdetail/MatrixDet.h:200-209 (initialises a `T*` from a `const T*`, which compilers
reject; modelled with the missing `const`). -/
def detDiag (v : Diag) (m : Mem K) : K :=
  if v.rows ≠ v.cols then 0
  else (List.range (min v.rows v.cols)).foldl (fun d i => d * m (v.base + i)) 1

/-- The loop of the diagonal inverse. -/
def invDiagLoop (into v : Diag) : List ℕ → Mem K → Option (Bool × Mem K)
  | [], m => some (true, m)
  | i :: is, m => do
    let elem ← v.rd m i
    if elem = 0 then some (false, m)
    else
      let m ← into.wr m i (1 / elem)
      invDiagLoop into v is m

/-- `inv` of a diagonal into a diagonal matrix, geomc/linalg/mtxdetail/MatrixInv.h:379-388 (same remark about `const`).
`into` may be the matrix itself (geomc/linalg/Matrix.h:731-735). -/
def invDiag (into v : Diag) (m : Mem K) : Option (Bool × Mem K) :=
  invDiagLoop into v (List.range (min v.rows v.cols)) (into.fill 0 m)

/-- `det(PermutationMatrix)`, geomc/linalg/mtxdetail/MatrixDet.h:225-230. -/
def detPerm (p : Perm) : Option ℤ := (permutationSign p.n p.src).map Prod.snd

/-- `inv` of a permutation matrix, geomc/linalg/mtxdetail/MatrixInv.h:392-404: the transpose, into a dynamically sized
matrix by `setRowSources(m.getColSources())` (geomc/linalg/mtxdetail/MatrixFunctionImpl.h:172-174), else by copy and
`transpose()` (:176-180). -/
def invPermDynamic (into p : Perm) : Option Perm := into.setRowSources p.dst
def invPermStatic (p : Perm) : Perm := p.transpose

end Geomc.LU
