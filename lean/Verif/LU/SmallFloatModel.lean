import Verif.LU.SmallModel
import Verif.Float.Model

/-!
# Determinants and inverses of sizes 2, 3 and 4 in floating point

geomc/linalg/mtxdetail/MatrixDet.h and MatrixInv.h as in `Verif.LU.SmallModel`, with the result of each operation rounded by `rnd`;
`multiply_add`, `diff_of_products` and `sum_of_products` are those of `Verif.Float.Model`.
-/

namespace Geomc.LU

variable {K : Type} [Field K]

/-- `det2x2(a, b, c, d)`, geomc/linalg/mtxdetail/MatrixDet.h:50-53. -/
def det2F (rnd : K → K) (a b c d : K) : K := Flt.diffOfProducts rnd a d b c

/-- `cofac`, geomc/linalg/mtxdetail/MatrixDet.h:37-41. -/
def cofacF (rnd : K → K) (a b c d e f : K) : K := Flt.multiplyAdd rnd e f (Flt.diffOfProducts rnd a b c d)

/-- `det3x3`, geomc/linalg/mtxdetail/MatrixDet.h:61-84, of a flat array. -/
def det3F (rnd : K → K) (m : ℕ → K) : K :=
  cofacF rnd (m 0) (det2F rnd (m 4) (m 5) (m 7) (m 8)) (m 1) (det2F rnd (m 3) (m 5) (m 6) (m 8))
    (m 2) (det2F rnd (m 3) (m 4) (m 6) (m 7))

variable [DecidableEq K]

/-- `inv2x2`, geomc/linalg/mtxdetail/MatrixInv.h:50-62. -/
def inv2F (rnd : K → K) (out m : ℕ → K) : Bool × (ℕ → K) :=
  let a := m 0
  let b := m 1
  let c := m 2
  let d := m 3
  let det := det2F rnd a b c d
  if det = 0 then (false, out)
  else (true, copyOut [rnd (d / det), rnd (-b / det), rnd (-c / det), rnd (a / det)] out)

/-- `inv3x3`, geomc/linalg/mtxdetail/MatrixInv.h:76-104. -/
def inv3F (rnd : K → K) (out m : ℕ → K) : Bool × (ℕ → K) :=
  let (a, b, c) := (m 0, m 1, m 2)
  let (d, e, f) := (m 3, m 4, m 5)
  let (g, h, i) := (m 6, m 7, m 8)
  let p0 := det2F rnd i h f e
  let p1 := det2F rnd i h c b
  let p2 := det2F rnd f e c b
  let det := Flt.multiplyAdd rnd g p2 (det2F rnd a d p1 p0)
  if det = 0 then (false, out)
  else (true, copyOut [
    rnd (det2F rnd i h f e / det),
    rnd (det2F rnd h i b c / det),
    rnd (det2F rnd f e c b / det),
    rnd (det2F rnd g i d f / det),
    rnd (det2F rnd i g c a / det),
    rnd (det2F rnd d f a c / det),
    rnd (det2F rnd h g e d / det),
    rnd (det2F rnd g h a b / det),
    rnd (det2F rnd e d b a / det)] out)

/-- `inv4x4`, geomc/linalg/mtxdetail/MatrixInv.h:118-165. -/
def inv4F (rnd : K → K) (out v : ℕ → K) : Bool × (ℕ → K) :=
  let (a, b, c, d) := (v 0, v 1, v 2, v 3)
  let (e, f, g, h) := (v 4, v 5, v 6, v 7)
  let (i, j, k, l) := (v 8, v 9, v 10, v 11)
  let (m, n, o, p) := (v 12, v 13, v 14, v 15)
  let s0 := det2F rnd a b e f
  let s1 := det2F rnd a c e g
  let s2 := det2F rnd a d e h
  let s3 := det2F rnd b c f g
  let s4 := det2F rnd b d f h
  let s5 := det2F rnd c d g h
  let c0 := det2F rnd i j m n
  let c1 := det2F rnd i k m o
  let c2 := det2F rnd i l m p
  let c3 := det2F rnd j k n o
  let c4 := det2F rnd j l n p
  let c5 := det2F rnd k l o p
  let det := rnd (rnd (Flt.diffOfProducts rnd s0 c5 s1 c4 + Flt.diffOfProducts rnd s3 c2 s4 c1) + Flt.sumOfProducts rnd s2 c3 s5 c0)
  if det = 0 then (false, out)
  else (true, copyOut [
    rnd (cofacF rnd f c5 g c4 h c3 / det),
    rnd (-cofacF rnd b c5 c c4 d c3 / det),
    rnd (cofacF rnd n s5 o s4 p s3 / det),
    rnd (-cofacF rnd j s5 k s4 l s3 / det),
    rnd (-cofacF rnd e c5 g c2 h c1 / det),
    rnd (cofacF rnd a c5 c c2 d c1 / det),
    rnd (-cofacF rnd m s5 o s2 p s1 / det),
    rnd (cofacF rnd i s5 k s2 l s1 / det),
    rnd (cofacF rnd e c4 f c2 h c0 / det),
    rnd (-cofacF rnd a c4 b c2 d c0 / det),
    rnd (cofacF rnd m s4 n s2 p s0 / det),
    rnd (-cofacF rnd i s4 j s2 l s0 / det),
    rnd (-cofacF rnd e c3 f c1 g c0 / det),
    rnd (cofacF rnd a c3 b c1 c c0 / det),
    rnd (-cofacF rnd m s3 n s1 o s0 / det),
    rnd (cofacF rnd i s3 j s1 k s0 / det)] out)

end Geomc.LU
