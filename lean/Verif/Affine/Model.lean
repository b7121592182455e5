import Mathlib.Data.Matrix.Basic
import Mathlib.LinearAlgebra.Matrix.Notation
import Verif.LU.SmallModel
import Verif.LU.Model
import Verif.Vec.Model

/-!
# Affine transforms

geomc/linalg/AffineTransform.h.  An `AffineTransform<T,N>` holds two `(N+1) × (N+1)` matrices.  The matrix product is the
one proved right in C25 for destinations apart from the operands (`operator*` returns a fresh matrix), so it is
modelled directly by its sum.  Cosines and sines of the angle are parameters.
-/

namespace Geomc.Affine

open Geomc.Vec (cross dot unit mag2)
open Geomc.Duals (sumOfProducts diffOfProducts)

variable {K : Type} [Field K] {n : ℕ}

/-- geomc/linalg/AffineTransform.h:80-88. -/
structure XF (K : Type) (n : ℕ) where
  mat : Matrix (Fin (n + 1)) (Fin (n + 1)) K
  inv : Matrix (Fin (n + 1)) (Fin (n + 1)) K

/-- A default constructed `SimpleMatrix` is the identity (C27). -/
def eye (n : ℕ) : Matrix (Fin n) (Fin n) K := Matrix.of fun r c => if r = c then 1 else 0

/-- The default constructor, geomc/linalg/AffineTransform.h:88. -/
def XF.identity : XF K n := ⟨eye _, eye _⟩

/-- The product of matrices, and of a matrix and a vector. -/
def mulMat {n : ℕ} (A B : Matrix (Fin n) (Fin n) K) : Matrix (Fin n) (Fin n) K :=
  Matrix.of fun r c => (List.finRange n).foldl (fun s k => s + A r k * B k c) 0
def mulVec {n : ℕ} (A : Matrix (Fin n) (Fin n) K) (v : Fin n → K) : Fin n → K :=
  fun r => (List.finRange n).foldl (fun s k => s + A r k * v k) 0

/-- `M * Vec<T,N+1>(p, 1)` cut back to `N` components. -/
def applyMat (M : Matrix (Fin (n + 1)) (Fin (n + 1)) K) (p : Fin n → K) : Fin n → K :=
  fun i => mulVec M (Fin.snoc (α := fun _ => K) p 1) i.castSucc

/-- The loops of the functions on directions: `o[r] += M(r,c) * v[c]`. -/
def applyBlock (f : Fin n → Fin n → K) (v : Fin n → K) : Fin n → K :=
  fun r => (List.finRange n).foldl (fun o c => o + f r c * v c) 0

/-- geomc/linalg/AffineTransform.h:216-285. -/
def XF.apply (x : XF K n) (p : Fin n → K) : Fin n → K := applyMat x.mat p
def XF.applyVector (x : XF K n) (v : Fin n → K) : Fin n → K := applyBlock (fun r c => x.mat r.castSucc c.castSucc) v
def XF.applyNormal (x : XF K n) (v : Fin n → K) : Fin n → K := applyBlock (fun r c => x.inv c.castSucc r.castSucc) v
def XF.applyInverse (x : XF K n) (p : Fin n → K) : Fin n → K := applyMat x.inv p
def XF.applyInverseVector (x : XF K n) (v : Fin n → K) : Fin n → K :=
  applyBlock (fun r c => x.inv r.castSucc c.castSucc) v
def XF.applyInverseNormal (x : XF K n) (v : Fin n → K) : Fin n → K :=
  applyBlock (fun r c => x.mat c.castSucc r.castSucc) v

/-- `apply(xf)`, `apply_inverse(xf)`, `inverse`: geomc/linalg/AffineTransform.h:292-319. -/
def XF.applyXF (x xf : XF K n) : XF K n := ⟨mulMat xf.mat x.mat, mulMat x.inv xf.inv⟩
def XF.applyInverseXF (x xf : XF K n) : XF K n := ⟨mulMat xf.inv x.mat, mulMat x.inv xf.mat⟩
def XF.inverse (x : XF K n) : XF K n := ⟨x.inv, x.mat⟩

/-- `xf1 * xf2` and `xf1 / xf2`: geomc/linalg/AffineTransform.h:134-151. -/
def XF.mul (x₁ x₂ : XF K n) : XF K n := x₂.applyXF x₁
def XF.div (x₁ x₂ : XF K n) : XF K n := x₁.applyInverseXF x₂

/-- `xf * ray` and `ray / xf`: geomc/linalg/AffineTransform.h:104-113. -/
def XF.applyRay (x : XF K n) (r : (Fin n → K) × (Fin n → K)) : (Fin n → K) × (Fin n → K) :=
  (x.apply r.1, x.applyVector r.2)
def XF.applyInverseRay (x : XF K n) (r : (Fin n → K) × (Fin n → K)) : (Fin n → K) × (Fin n → K) :=
  (x.applyInverse r.1, x.applyInverseVector r.2)

/-- `direction_matrix`, geomc/linalg/AffineTransform.h:324-332. -/
def XF.directionMatrix (x : XF K n) : Matrix (Fin n) (Fin n) K := Matrix.of fun r c => x.mat r.castSucc c.castSucc

/-- `a *= b` for the objects numbered `i` and `j`, which may be the same: geomc/linalg/AffineTransform.h:158-162.  The two
assignments are made one after the other. -/
def mulAssign (env : ℕ → XF K n) (i j : ℕ) : ℕ → XF K n :=
  let env := Function.update env i ⟨mulMat (env j).mat (env i).mat, (env i).inv⟩
  Function.update env i ⟨(env i).mat, mulMat (env i).inv (env j).inv⟩

/-- `a /= b`, geomc/linalg/AffineTransform.h:170-174. -/
def divAssign (env : ℕ → XF K n) (i j : ℕ) : ℕ → XF K n :=
  let env := Function.update env i ⟨mulMat (env j).inv (env i).mat, (env i).inv⟩
  Function.update env i ⟨(env i).mat, mulMat (env i).inv (env j).mat⟩

/-- `resized`, geomc/linalg/AffineTransform.h:176-191.  The stores to `xf.mat(i,M)` and `xf.mat(M,M)` come after
the block, and touch no element of it. -/
def XF.resized (m : ℕ) (x : XF K n) : XF K m :=
  { mat := Matrix.of fun i j =>
      if h : (i : ℕ) < min m n ∧ (j : ℕ) < min m n then x.mat ⟨i, by omega⟩ ⟨j, by omega⟩
      else if h : (i : ℕ) < min m n ∧ (j : ℕ) = m then x.mat ⟨i, by omega⟩ (Fin.last n)
      else if (i : ℕ) = m ∧ (j : ℕ) = m then x.mat (Fin.last n) (Fin.last n)
      else eye _ i j
    inv := Matrix.of fun i j =>
      if h : (i : ℕ) < min m n ∧ (j : ℕ) < min m n then x.inv ⟨i, by omega⟩ ⟨j, by omega⟩
      else eye _ i j }

/-! ### Construction -/

/-- `translation`, geomc/linalg/AffineTransform.h:783-790. -/
def translation (t : Fin n → K) : XF K n :=
  ⟨Matrix.of fun i j => if h : (i : ℕ) < n then (if (j : ℕ) = n then t ⟨i, h⟩ else eye _ i j) else eye _ i j,
   Matrix.of fun i j => if h : (i : ℕ) < n then (if (j : ℕ) = n then -t ⟨i, h⟩ else eye _ i j) else eye _ i j⟩

/-- `scale`, geomc/linalg/AffineTransform.h:799-806. -/
def scale [DecidableEq K] (s : Fin n → K) : Option (XF K n) :=
  if ∃ i, s i = 0 then none
  else some
    ⟨Matrix.of fun i j => if h : (i : ℕ) < n then (if i = j then s ⟨i, h⟩ else eye _ i j) else eye _ i j,
     Matrix.of fun i j => if h : (i : ℕ) < n then (if i = j then 1 / s ⟨i, h⟩ else eye _ i j) else eye _ i j⟩

/-- `rotation(radians)` in two dimensions, geomc/linalg/AffineTransform.h:721-737. -/
def rotation2 (c s : K) : XF K 2 :=
  ⟨!![c, -s, 0; s, c, 0; 0, 0, 1], !![c, s, 0; -s, c, 0; 0, 0, 1]⟩

/-- `rotmat(into, x, y, z, theta)`, geomc/linalg/AffineTransform.h:341-353. -/
def rotmat (k : Fin 3 → K) (c s : K) : Matrix (Fin 4) (Fin 4) K :=
  let (x, y, z) := (k 0, k 1, k 2)
  let c1 := 1 - c
  !![c + c1 * x * x, c1 * x * y - s * z, c1 * x * z + s * y, 0;
     c1 * y * x + s * z, c + c1 * y * y, c1 * y * z - s * x, 0;
     c1 * z * x - s * y, c1 * z * y + s * x, c + c1 * z * z, 0;
     0, 0, 0, 1]

/-- `rotmat(into, q)`, geomc/linalg/AffineTransform.h:363-389. -/
def rotmatQuat (q : Fin 4 → K) : Matrix (Fin 4) (Fin 4) K :=
  let (x, y, z, w) := (q 0, q 1, q 2, q 3)
  let x2 := x * x
  let y2 := y * y
  let z2 := z * z
  let w2 := w * w
  let twox := 2 * x
  let twoy := 2 * y
  let twoz := 2 * z
  let xy := twox * y
  let xz := twox * z
  let xw := twox * w
  let yz := twoy * z
  let yw := twoy * w
  let zw := twoz * w
  !![w2 + x2 - y2 - z2, xy - zw, xz + yw, 0;
     xy + zw, w2 - x2 + y2 - z2, yz - xw, 0;
     xz - yw, yz + xw, w2 - x2 - y2 + z2, 0;
     0, 0, 0, 1]

/-- `rotmat(into, x, y, z, px, py, pz, theta)`, geomc/linalg/AffineTransform.h:393-427. -/
def rotmatAbout (k p : Fin 3 → K) (c s : K) : Matrix (Fin 4) (Fin 4) K :=
  let (x, y, z) := (k 0, k 1, k 2)
  let (px, py, pz) := (p 0, p 1, p 2)
  let c1 := 1 - c
  let x2 := x * x
  let y2 := y * y
  let z2 := z * z
  let q0 := diffOfProducts py z pz y
  let q1 := diffOfProducts pz x px z
  let q2 := diffOfProducts px y py x
  let s0 := sumOfProducts py y pz z
  let s1 := sumOfProducts px x pz z
  let s2 := sumOfProducts px x py y
  let t0 := diffOfProducts px (y2 + z2) x s0
  let t1 := diffOfProducts py (x2 + z2) y s1
  let t2 := diffOfProducts pz (x2 + y2) z s2
  let u0 := sumOfProducts t0 c1 q0 s
  let u1 := sumOfProducts t1 c1 q1 s
  let u2 := sumOfProducts t2 c1 q2 s
  !![x2 + c * (y2 + z2), x * y * c1 - z * s, x * z * c1 + y * s, u0;
     x * y * c1 + z * s, y2 + c * (x2 + z2), y * z * c1 - x * s, u1;
     x * z * c1 - y * s, y * z * c1 + x * s, z2 + c * (x2 + y2), u2;
     0, 0, 0, 1]

/-- `rotmat(out_mat, out_inv, …)`, geomc/linalg/AffineTransform.h:590-635: the first twelve elements get the sine terms
added in one matrix and subtracted in the other. -/
def rotmatBoth (k p : Fin 3 → K) (c s : K) : XF K 3 :=
  let (x, y, z) := (k 0, k 1, k 2)
  let (px, py, pz) := (p 0, p 1, p 2)
  let c1 := 1 - c
  let x2 := x * x
  let y2 := y * y
  let z2 := z * z
  let xyc := x * y * c1
  let xzc := x * z * c1
  let yzc := y * z * c1
  let da := x2 + c * (y2 + z2)
  let db := y2 + c * (x2 + z2)
  let dc := z2 + c * (x2 + y2)
  let fac : Matrix (Fin 4) (Fin 4) K :=
    !![da, xyc, xzc, (px * (y2 + z2) - x * (py * y + pz * z)) * c1;
       xyc, db, yzc, (py * (x2 + z2) - y * (px * x + pz * z)) * c1;
       xzc, yzc, dc, (pz * (x2 + y2) - z * (px * x + py * y)) * c1;
       0, 0, 0, 1]
  let sterms : Matrix (Fin 3) (Fin 4) K :=
    !![0, -z * s, y * s, (py * z - pz * y) * s;
       z * s, 0, -x * s, (pz * x - px * z) * s;
       -y * s, x * s, 0, (px * y - py * x) * s]
  ⟨Matrix.of fun i j => if h : (i : ℕ) < 3 then fac i j + sterms ⟨i, h⟩ j else fac i j,
   Matrix.of fun i j => if h : (i : ℕ) < 3 then fac i j - sterms ⟨i, h⟩ j else fac i j⟩

/-- `rotmat_direction_align` into a 4 × 4 matrix, geomc/linalg/AffineTransform.h:443-466 (the 3 × 3 versions at :468-491
and :562-585 have the same elements). -/
def rotmatAlign [LinearOrder K] (dir tgt : Fin 3 → K) : Matrix (Fin 4) (Fin 4) K :=
  let v := cross dir tgt
  let c := dot dir tgt
  if |c| = 1 then
    if c < 0 then !![-1, 0, 0, 0; 0, 1, 0, 0; 0, 0, -1, 0; 0, 0, 0, 1] else eye 4
  else
    let k := (1 - c) / (1 - c * c)
    !![v 0 * v 0 * k + c, v 1 * v 0 * k - v 2, v 2 * v 0 * k + v 1, 0;
       v 0 * v 1 * k + v 2, v 1 * v 1 * k + c, v 2 * v 1 * k - v 0, 0;
       v 0 * v 2 * k - v 1, v 1 * v 2 * k + v 0, v 2 * v 2 * k + c, 0;
       0, 0, 0, 1]

/-- `rotmat_x`, `rotmat_y`, `rotmat_z`: geomc/linalg/AffineTransform.h:526-560. -/
def rotmatX (c s : K) : Matrix (Fin 4) (Fin 4) K := !![1, 0, 0, 0; 0, c, -s, 0; 0, s, c, 0; 0, 0, 0, 1]
def rotmatY (c s : K) : Matrix (Fin 4) (Fin 4) K := !![c, 0, s, 0; 0, 1, 0, 0; -s, 0, c, 0; 0, 0, 0, 1]
def rotmatZ (c s : K) : Matrix (Fin 4) (Fin 4) K := !![c, -s, 0, 0; s, c, 0, 0; 0, 0, 1, 0; 0, 0, 0, 1]

/-- `transpose(&xfnew.inv, xfnew.mat)`. -/
def withTranspose (M : Matrix (Fin (n + 1)) (Fin (n + 1)) K) : XF K n := ⟨M, Matrix.of fun r c => M c r⟩

/-- `rotation(axis, radians)`, geomc/linalg/AffineTransform.h:661-667. -/
def rotation [DecidableEq K] (sqrt : K → K) (axis : Fin 3 → K) (c s : K) : Option (XF K 3) :=
  (unit sqrt axis).map fun k => withTranspose (rotmat k c s)

/-- `rotation(axis, center, radians)`, geomc/linalg/AffineTransform.h:683-697. -/
def rotationAbout [DecidableEq K] (sqrt : K → K) (axis center : Fin 3 → K) (c s : K) : Option (XF K 3) :=
  (unit sqrt axis).map fun k => rotmatBoth k center c s

/-- `rotation(q)`, geomc/linalg/AffineTransform.h:706-712. -/
def rotationQuat [DecidableEq K] (sqrt : K → K) (q : Fin 4 → K) : Option (XF K 3) :=
  (unit sqrt q).map fun q => withTranspose (rotmatQuat q)

/-- `rotation_x`, `rotation_y`, `rotation_z`, `direction_align`: geomc/linalg/AffineTransform.h:739-776. -/
def rotationX (c s : K) : XF K 3 := withTranspose (rotmatX c s)
def rotationY (c s : K) : XF K 3 := withTranspose (rotmatY c s)
def rotationZ (c s : K) : XF K 3 := withTranspose (rotmatZ c s)
def directionAlign [LinearOrder K] (dir tgt : Fin 3 → K) : XF K 3 := withTranspose (rotmatAlign dir tgt)

/-- `inv(&m_inv, mat)` for the `n × n` matrix stored in the flat array `m` (row-major or not), into a fresh row-major
matrix, which is the identity: geomc/linalg/mtxdetail/MatrixInv.h:280-375.  The result is by row and column. -/
def simpleInv [LinearOrder K] (n : ℕ) (rowMajor : Bool) (m : ℕ → K) : Option (Bool × (ℕ → ℕ → K)) :=
  let out : ℕ → K := fun k => if k / n = k % n then 1 else 0
  let sized (r : Bool × (ℕ → K)) : Option (Bool × (ℕ → ℕ → K)) := some (r.1, fun i j => r.2 (n * i + j))
  if n = 2 then sized (LU.classInv 2 LU.inv2 true rowMajor out m)
  else if n = 3 then sized (LU.classInv 3 LU.inv3 true rowMajor out m)
  else if n = 4 then sized (LU.classInv 4 LU.inv4 true rowMajor out m)
  else LU.invNxN (fun r c => if r = c then 1 else 0) (fun r c => if rowMajor then m (n * r + c) else m (n * c + r)) n

/-- `transformation(mat)`, geomc/linalg/AffineTransform.h:815-835; what `inv` returns is not looked at. -/
def transformation [LinearOrder K] (n : ℕ) (rowMajor : Bool) (m : ℕ → K) : Option (XF K n) :=
  (simpleInv n rowMajor m).map fun r =>
    ⟨Matrix.of fun i j => if (i : ℕ) < n ∧ (j : ℕ) < n then
        (if rowMajor then m (n * (i : ℕ) + j) else m (n * (j : ℕ) + i)) else eye _ i j,
     Matrix.of fun i j => if (i : ℕ) < n ∧ (j : ℕ) < n then r.2 i j else eye _ i j⟩

end Geomc.Affine
