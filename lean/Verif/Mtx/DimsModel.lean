import Mathlib.Tactic.Common

/-! # Model of the compile-time and run-time dimension checks of matrix functions

Sources: geomc/linalg/Matrix.h, geomc/linalg/mtxdetail/MatrixGlue.h, MatrixCopy.h.  Only dimensions are
modelled: an argument is a matrix with its compile-time dimensions (0 if chosen at run time) and its
run-time dimensions, or a vector.  `GEOMC_MTX_CHECK_DIMS` and `GEOMC_MTX_CHECK_ALIASING` are on, the default
(geomc/geomc_defs.h:44, 52). -/

namespace Geomc.Dims

/-- A matrix type with dimensions `R x C` (`DYNAMIC_DIM` is 0) and an object of `r x c` elements, or a
`Vec<T,n>`. -/
inductive Obj where
  | mtx (R C r c : ℕ)
  | vec (n : ℕ)
  deriving DecidableEq

/-- Dimensions known at compile time are those of the object (`rows()`, `cols()`,
geomc/linalg/mtxtypes/SimpleMatrix.h:333-342, geomc/Storage.h:75-89). -/
def Obj.Wf : Obj → Prop
  | .mtx R C r c => (R = 0 ∨ R = r) ∧ (C = 0 ∨ C = c)
  | .vec n => 0 < n

/-- `VecOrientation`. -/
inductive Orient where
  | row | col | unknown
  deriving DecidableEq

/-- What becomes of a call: it does not compile, it throws an exception, or the calculation starts. -/
inductive Out where
  | rejected | throws | runs
  deriving DecidableEq

/-- `IsMatrix`, MatrixGlue.h:117-129. -/
def Obj.isMtx : Obj → Bool
  | .mtx .. => true
  | .vec _ => false

/-- `_ImplMtxAdaptor::ROWDIM`, MatrixGlue.h:220-256. -/
def Obj.R : Obj → Orient → ℕ
  | .mtx R _ _ _, _ => R
  | .vec n, .col => n
  | .vec _, .row => 1
  | .vec _, .unknown => 0

/-- `_ImplMtxAdaptor::COLDIM`, MatrixGlue.h:220-256. -/
def Obj.C : Obj → Orient → ℕ
  | .mtx _ C _ _, _ => C
  | .vec _, .col => 1
  | .vec n, .row => n
  | .vec _, .unknown => 0

/-- `_ImplMtxAdaptor::rows`, MatrixGlue.h:220-256; there is none for a vector of unknown orientation (and
no call of it). -/
def Obj.rows : Obj → Orient → ℕ
  | .mtx _ _ r _, _ => r
  | .vec n, .col => n
  | .vec _, .row => 1
  | .vec _, .unknown => 0

/-- `_ImplMtxAdaptor::cols`, MatrixGlue.h:220-256. -/
def Obj.cols : Obj → Orient → ℕ
  | .mtx _ _ _ c, _ => c
  | .vec _, .col => 1
  | .vec n, .row => n
  | .vec _, .unknown => 0

/-- `_ImplVecMulOrient`, MatrixGlue.h:264-286. -/
def mulOrient (a b d : Obj) : Orient :=
  if a.R .row = d.R .col ∧ b.C .col = d.C .col then .col
  else if a.R .row = d.R .row ∧ b.C .col = d.C .row then .row
  else .unknown

/-- `MatrixMultipliable`, MatrixGlue.h:385-402. -/
def multipliable (a b : Obj) : Bool :=
  (a.isMtx || b.isMtx) && (a.C .row = b.R .col || a.C .row = 0 || b.R .col = 0)

/-- `MATRIX_DEST_MATCH`, MatrixGlue.h:431-439. -/
def destMatch (a b d : Obj) : Bool :=
  let o := mulOrient a b d
  (d.R o = a.R .row || d.R o * a.R .row = 0) && (d.C o = b.C .col || d.C o * b.C .col = 0)

/-- The overload of `mul_acc(into, a, b)` for `MTX_RESULT_MATCH`, geomc/linalg/Matrix.h:443-457: the checks
before the calculation. -/
def matchChecks (a b d : Obj) : Out :=
  let o := mulOrient a b d
  if (a.C .row = 0 ∨ b.R .col = 0) ∧ a.cols .row ≠ b.rows .col then .throws
  else if ((d.R o = 0 ∨ a.R .row = 0) ∧ a.rows .row ≠ d.rows o) ∨
      ((d.C o = 0 ∨ b.C .col = 0) ∧ b.cols .col ≠ d.cols o) then .throws
  else .runs

/-- The overload for `MTX_RESULT_UNKNOWN`, geomc/linalg/Matrix.h:522-534. -/
def unknownChecks (a b d : Obj) : Out :=
  if ¬ ((d.rows .row = a.rows .row ∧ d.cols .row = b.cols .col) ∨
        (d.rows .col = a.rows .row ∧ d.cols .col = b.cols .col)) then .throws
  else .runs

/-- `mul_acc(into, a, b)`, geomc/linalg/Matrix.h:428-458, 508-535, selected by `_ImplMtxResult`,
MatrixGlue.h:441-456. -/
def mulAcc (d a b : Obj) : Out :=
  if !(multipliable a b && destMatch a b d) then .rejected
  else if mulOrient a b d = .unknown then unknownChecks a b d
  else matchChecks a b d

/-- `mul(into, a, b)`, geomc/linalg/Matrix.h:382-423, 464-503.  The test for aliasing requires its arguments
to be matrices (:312), or both to be vectors (:332), of which there are not three: with any vector there is
an assertion at compile time. -/
def mulInto (d a b : Obj) : Out :=
  if !(d.isMtx && a.isMtx && b.isMtx) then .rejected else mulAcc d a b

/-- `mul(a, b)` and `a * b`, geomc/linalg/Matrix.h:557-579, 1024-1028. -/
def mulNew (a b : Obj) : Out :=
  if !(multipliable a b) then .rejected
  else if (a.C .row = 0 ∨ b.R .col = 0) ∧ a.cols .row ≠ b.rows .col then .throws
  else .runs

/-! ## Functions of matrices alone -/

/-- A matrix. -/
structure Mx where
  (R C r c : ℕ)
  deriving DecidableEq

/-- Dimensions known at compile time are those of the object. -/
def Mx.Wf (m : Mx) : Prop := (m.R = 0 ∨ m.R = m.r) ∧ (m.C = 0 ∨ m.C = m.c)

/-- `MatrixDimensionMatch::isStaticMatch`, MatrixGlue.h:137-157. -/
def staticMatch (a b : Mx) : Bool := (a.R = b.R || a.R * b.R = 0) && (a.C = b.C || a.C * b.C = 0)

/-- `MatrixDimensionMatch::isMatch`, MatrixGlue.h:141-143, 159-165. -/
def isMatch (a b : Mx) : Bool :=
  if staticMatch a b then !((a.R * b.R = 0 && a.r ≠ b.r) || (a.C * b.C = 0 && a.c ≠ b.c)) else false

/-- `MatrixDimensionMatch::check`, MatrixGlue.h:145-147, 167-171: then go on. -/
def check (a b : Mx) (k : Out) : Out := if isMatch a b then k else .throws

/-- `add(d, a, b)` and `sub(d, a, b)`, geomc/linalg/Matrix.h:785-797, 811-823. -/
def addInto (d a b : Mx) : Out :=
  if staticMatch a b && staticMatch a d then check a b (check d a .runs) else .rejected

/-- `add(a, b)`, `sub(a, b)` and the operators, geomc/linalg/Matrix.h:837-850, 864-877, 984-1003. -/
def addNew (a b : Mx) : Out := if staticMatch a b then check a b .runs else .rejected

/-- `scale(d, k, m)`, geomc/linalg/Matrix.h:896-908. -/
def scaleInto (d m : Mx) : Out := if staticMatch m d then check m d .runs else .rejected

/-- `transpose(into, m)` for different matrix types, geomc/linalg/Matrix.h:646-680. -/
def transposeInto (d m : Mx) : Out :=
  if !((d.R = m.C || d.R * m.C = 0) && (d.C = m.R || d.C * m.R = 0)) then .rejected
  else if (d.R * m.C = 0 ∧ d.r ≠ m.c) ∨ (d.C * m.R = 0 ∧ d.c ≠ m.r) then .throws
  else .runs

/-- `transpose(into, m)` for matrices of the same type, geomc/linalg/Matrix.h:587-606; `same` says that they
are one object. -/
def transposeSame (same : Bool) (d m : Mx) : Out :=
  if !(m.R * m.C = 0 || m.R = m.C) then .rejected
  else if same ∧ (0 < m.R * m.C ∨ m.r = m.c) then .runs
  else if m.R * m.C = 0 ∧ (m.r ≠ d.c ∨ m.c ≠ d.r) then .throws
  else .runs

/-- `inv(into, src)`, geomc/linalg/Matrix.h:718-737. -/
def invInto (d m : Mx) : Out :=
  if !(staticMatch d m && (m.R = m.C || m.R * m.C = 0)) then .rejected
  else if m.R * m.C = 0 ∧ m.r ≠ m.c then .throws
  else check d m .runs

/-- `inv(m, success)`, geomc/linalg/Matrix.h:751-766. -/
def invNew (m : Mx) : Out :=
  if !(m.R = m.C || m.R * m.C = 0) then .rejected
  else if (m.R = 0 ∨ m.C = 0) ∧ m.r ≠ m.c then .throws
  else .runs

/-- `m *= d` for a diagonal matrix `d`, geomc/linalg/Matrix.h:1043-1061. -/
def mulDiagAssign (m d : Mx) : Out :=
  if !(m.C = d.R || m.C = 0 || d.R = 0) then .rejected
  else if (m.C = 0 ∨ d.R = 0) ∧ m.c ≠ d.r then .throws
  else .runs

/-- `a == b`, geomc/linalg/Matrix.h:1075-1099: `elems` is what the comparison of the elements says. -/
def equal (a b : Mx) (elems : Bool) : Bool :=
  if staticMatch a b then (if !isMatch a b then false else elems) else false

/-- The conversion constructor `SimpleMatrix(mtx)`, geomc/linalg/mtxtypes/SimpleMatrix.h:571-579, 277-283,
from a matrix: `LinalgDimensionMatch`, MatrixGlue.h:369-379; nothing is checked at run time.  The result has
its compile-time dimensions where there are such. -/
def convert (R C : ℕ) (m : Mx) : Option Mx :=
  if staticMatch ⟨R, C, 0, 0⟩ m then
    some ⟨R, C, if R = 0 then m.r else R, if C = 0 then m.c else C⟩
  else none

/-! ## Copies between matrices and vectors -/

/-- Whether the specialisation of `_ImplVecOrient` for columns (`true`) or rows applies to a vector and a
matrix, MatrixGlue.h:302-342. -/
def orients (col : Bool) (n R C : ℕ) : Bool :=
  if col then (n = R || R = 0) && (C = 1 || C = 0) && !(C = 0 && R = 0)
  else (n = C || C = 0) && (R = 1 || R = 0) && !(C = 0 && R = 0)

/-- `_ImplVecOrient` of a vector and a matrix, MatrixGlue.h:295-342; `none` if two specialisations apply,
which is an error. -/
def copyOrient (n R C : ℕ) : Option Orient :=
  if orients true n R C then (if orients false n R C then none else some .col)
  else if orients false n R C then some .row else some .unknown

/-- `mtxcopy(into, src)` between a `Vec<T,n>` and a matrix, in either direction,
geomc/linalg/mtxdetail/MatrixCopy.h:77-97, 101-125, with `LinalgDimensionMatch`, MatrixGlue.h:369-379. -/
def copyVec (n : ℕ) (m : Mx) : Out :=
  match copyOrient n m.R m.C with
  | none => .rejected
  | some .unknown =>
    if (n = m.r ∧ 1 = m.c) ∨ (1 = m.r ∧ n = m.c) then .runs else .throws
  | some o =>
    let v : Obj := .vec n
    if !((v.R o = m.R || v.R o * m.R = 0) && (v.C o = m.C || v.C o * m.C = 0)) then .rejected
    else if (v.R o * m.R = 0 ∧ v.rows o ≠ m.r) ∨ (v.C o * m.C = 0 ∧ v.cols o ≠ m.c) then .throws
    else .runs

/-- `mtxcopy(into, src)` between matrices, MatrixCopy.h:77-97: the orientation is `ORIENT_VEC_COL`
(MatrixGlue.h:352-356). -/
def copyMtx (d s : Mx) : Out :=
  if !(staticMatch d s) then .rejected
  else if (d.R * s.R = 0 ∧ d.r ≠ s.r) ∨ (d.C * s.C = 0 ∧ d.c ≠ s.c) then .throws
  else .runs

end Geomc.Dims
