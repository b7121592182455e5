import Mathlib.Data.Matrix.Basic

/-!
# Model of the matrix storage classes and of the matrix operations

`geomc/linalg/mtxtypes/{SimpleMatrix,DiagMatrix,PermutationMatrix}.h`,
`geomc/linalg/mtxdetail/{MatrixMult,MatrixArithmetic,MatrixCopy,MatrixFunctionImpl}.h` and
`geomc/linalg/Matrix.h`.

All element storage lives in one memory `Mem K` (address, in elements, to value), so that two matrices may
share or overlap storage.  An access outside the storage of its own object is undefined: `none`.  The
element type is a ring; a `Vec` is a flat `n × 1` or `1 × n` view, as in `_ImplMtxAdaptor`.
Row-major iterators are replaced by the pair of loops they run through (their order is proved in
`Verif.Grid` and `Verif.Layout`).  Dimension checks (`GEOMC_MTX_CHECK_DIMS`) are hypotheses of the theorems.
-/

namespace Geomc.Mtx

abbrev Mem (K : Type) := ℕ → K

/-- `for (i = 0; i < n; i++) f(i)`. -/
def forN {S : Type} (n : ℕ) (f : ℕ → S → Option S) (s : S) : Option S :=
  (List.range n).foldlM (fun s i => f i s) s

/-- A readable matrix: dimensions and `operator()(r, c)`. -/
structure Src (K : Type) where
  rows : ℕ
  cols : ℕ
  get : Mem K → ℕ → ℕ → Option K

/-- A `SimpleMatrix` (owning or wrapping), geomc/linalg/mtxtypes/SimpleMatrix.h:160-170; also a `Vec`. -/
structure Flat where
  base : ℕ
  rows : ℕ
  cols : ℕ
  rowMajor : Bool
  deriving DecidableEq

/-- `FlatMatrixLayout::index`, geomc/linalg/mtxdetail/MatrixLayout.h:106-108 and 144-146. -/
def Flat.off (v : Flat) (r c : ℕ) : ℕ :=
  if v.rowMajor then r * v.cols + c else c * v.rows + r

/-- `operator()(r, c) const`, geomc/linalg/mtxtypes/SimpleMatrix.h:444-447. -/
def Flat.get {K : Type} (v : Flat) (m : Mem K) (r c : ℕ) : Option K :=
  if v.off r c < v.rows * v.cols then some (m (v.base + v.off r c)) else none

/-- `set(r, c, val)`, geomc/linalg/mtxtypes/SimpleMatrix.h:467-472. -/
def Flat.set {K : Type} (v : Flat) (m : Mem K) (r c : ℕ) (x : K) : Option (Mem K) :=
  if v.off r c < v.rows * v.cols then some (Function.update m (v.base + v.off r c) x) else none

/-- The flat matrix as an operand. -/
def Flat.src {K : Type} (v : Flat) : Src K := ⟨v.rows, v.cols, v.get⟩

/-- `set_zero()`, geomc/linalg/mtxtypes/SimpleMatrix.h:512-514. -/
def Flat.setZero {K : Type} [Zero K] (v : Flat) (m : Mem K) : Mem K :=
  fun x => if v.base ≤ x ∧ x < v.base + v.rows * v.cols then 0 else m x

/-- The loop of `set_identity()`: `for (p = begin + i; p < last; p += cols() + 1) *p = 1`,
geomc/linalg/mtxtypes/SimpleMatrix.h:503-506. -/
def Flat.idLoop {K : Type} [One K] (v : Flat) (i : ℕ) (m : Mem K) : Mem K :=
  if h : i < v.rows * v.cols then
    v.idLoop (i + (v.cols + 1)) (Function.update m (v.base + i) 1)
  else m
termination_by v.rows * v.cols - i

/-- `set_identity()`, geomc/linalg/mtxtypes/SimpleMatrix.h:501-507. -/
def Flat.setIdentity {K : Type} [Zero K] [One K] (v : Flat) (m : Mem K) : Mem K :=
  v.idLoop 0 (v.setZero m)

/-- `operator*=(k)`, geomc/linalg/mtxtypes/SimpleMatrix.h:318-324. -/
def Flat.scaleIn {K : Type} [Mul K] (v : Flat) (k : K) (m : Mem K) : Option (Mem K) :=
  forN (v.rows * v.cols) (fun i m => some (Function.update m (v.base + i) (m (v.base + i) * k))) m

/-- `as_transpose()`, geomc/linalg/mtxtypes/SimpleMatrix.h:490-496. -/
def Flat.asTranspose (v : Flat) : Flat := ⟨v.base, v.cols, v.rows, !v.rowMajor⟩

/-- A `DiagMatrix`, geomc/linalg/mtxtypes/DiagMatrix.h:36-46; `diag = min(rows, cols)`. -/
structure Diag where
  base : ℕ
  rows : ℕ
  cols : ℕ
  deriving DecidableEq

/-- `diagonal_begin()[i]`, geomc/linalg/mtxtypes/DiagMatrix.h:118-127. -/
def Diag.rd {K : Type} (v : Diag) (m : Mem K) (i : ℕ) : Option K :=
  if i < min v.rows v.cols then some (m (v.base + i)) else none

/-- Store through `diagonal_begin()[i]`. -/
def Diag.wr {K : Type} (v : Diag) (m : Mem K) (i : ℕ) (x : K) : Option (Mem K) :=
  if i < min v.rows v.cols then some (Function.update m (v.base + i) x) else none

/-- `operator()(r, c)`, geomc/linalg/mtxtypes/DiagMatrix.h:98-105. -/
def Diag.get {K : Type} [Zero K] (v : Diag) (m : Mem K) (r c : ℕ) : Option K :=
  if r = c then v.rd m r else some 0

/-- The diagonal matrix as an operand. -/
def Diag.src {K : Type} [Zero K] (v : Diag) : Src K := ⟨v.rows, v.cols, v.get⟩

/-- `set_identity()` and `set_zero()`, geomc/linalg/mtxtypes/DiagMatrix.h:107-113. -/
def Diag.fill {K : Type} (v : Diag) (k : K) (m : Mem K) : Mem K :=
  fun x => if v.base ≤ x ∧ x < v.base + min v.rows v.cols then k else m x

/-- A `PermutationMatrix`, geomc/linalg/mtxtypes/PermutationMatrix.h:36-115: `src` and `dst` are the two index
arrays (of `n` entries each), `sign` the cached sign, 0 when not computed. -/
structure Perm where
  n : ℕ
  src : ℕ → ℕ
  dst : ℕ → ℕ
  sign : ℤ

/-- `operator()(row, col)`, geomc/linalg/mtxtypes/PermutationMatrix.h:369-371, as an element of `K`. -/
def Perm.get {K : Type} [Zero K] [One K] (p : Perm) (_ : Mem K) (r c : ℕ) : Option K :=
  if r < p.n then some (if p.src r = c then 1 else 0) else none

/-- The permutation as an operand. -/
def Perm.asSrc {K : Type} [Zero K] [One K] (p : Perm) : Src K := ⟨p.n, p.n, p.get⟩

/-- An access to one of the index arrays. -/
def Perm.at (n : ℕ) (a : ℕ → ℕ) (i : ℕ) : Option ℕ := if i < n then some (a i) else none

section Products
variable {K : Type} [Ring K]

/-- The inner loop of a product: `x = init; for (k < n) x += a(r, k) * b(k, c)`. -/
def inner (a b : Src K) (m : Mem K) (n r c : ℕ) (init : K) : Option K :=
  (List.range n).foldlM (fun s k => do
    let x ← a.get m r k
    let y ← b.get m k c
    some (s + x * y)) init

/-- `_ImplMtxMul<Ma,Mb>::mul`, geomc/linalg/mtxdetail/MatrixMult.h:55-67; a matrix times a `Vec`,
MatrixMult.h:184-193 and 206-215, is the case `b.cols = 1`. -/
def mul (d : Flat) (a b : Src K) (m : Mem K) : Option (Mem K) :=
  forN a.rows (fun r m => forN b.cols (fun c m => do
    let s ← inner a b m a.cols r c 0
    d.set m r c s) m) m

/-- `_ImplMtxMul<Ma,Mb>::mul_acc`, geomc/linalg/mtxdetail/MatrixMult.h:69-81; with a `Vec` operand,
MatrixMult.h:195-204 and 217-226. -/
def mulAcc (d : Flat) (a b : Src K) (m : Mem K) : Option (Mem K) :=
  forN a.rows (fun r m => forN b.cols (fun c m => do
    let x ← d.get m r c
    let s ← inner a b m a.cols r c x
    d.set m r c s) m) m

/-- `vec * mtx`, geomc/linalg/mtxdetail/MatrixMult.h:237-246 and 259-268 (`acc` false), 248-257 and 270-279
(`acc` true).  The vector is passed by value, so it is read from the memory at entry. -/
def vecMul (acc : Bool) (d v : Flat) (a : Src K) (m₀ : Mem K) : Option (Mem K) :=
  forN a.cols (fun c m => do
    let x₀ ← if acc then d.get m 0 c else some 0
    let s ← (List.range v.cols).foldlM (fun s r => do
      let x ← a.get m r c
      let y ← v.get m₀ 0 r
      some (s + x * y)) x₀
    d.set m 0 c s) m₀

/-- `mtx * diag`, geomc/linalg/mtxdetail/MatrixMult.h:93-101. -/
def mulDiag (d : Flat) (a : Src K) (b : Diag) (m : Mem K) : Option (Mem K) :=
  forN b.cols (fun c m => forN a.rows (fun r m => do
    let p ← b.rd m c
    let x ← a.get m r c
    d.set m r c (p * x)) m) m

/-- `diag * mtx`, geomc/linalg/mtxdetail/MatrixMult.h:113-121: the loops run to `b.rows()` and `a.cols()`,
and the element multiplied is `a(r, c)`. -/
def diagMul (d : Flat) (a : Diag) (b : Src K) (m : Mem K) : Option (Mem K) :=
  forN b.rows (fun r m => forN a.cols (fun c m => do
    let p ← a.rd m r
    let x ← a.get m r c
    d.set m r c (p * x)) m) m

/-- `diag * diag` into a diagonal matrix, geomc/linalg/mtxdetail/MatrixMult.h:133-141 (`acc` false) and
143-151 (`acc` true).  As written `T* pa` is initialised from a `const T*`, which a compiler rejects; the
model is of the loop. -/
def diagDiag (acc : Bool) (d a b : Diag) (m : Mem K) : Option (Mem K) :=
  forN a.rows (fun i m => do
    let x₀ ← if acc then d.rd m i else some 0
    let x ← a.rd m i
    let y ← b.rd m i
    d.wr m i (x₀ + x * y)) m

/-- `diag * diag` into another matrix, geomc/linalg/mtxdetail/MatrixMult.h:153-162. -/
def diagDiagTo (d : Flat) (a b : Diag) (m : Mem K) : Option (Mem K) :=
  forN a.rows (fun i m => do
    let x ← a.rd m i
    let y ← b.rd m i
    d.set m i i (x * y)) (d.setZero m)

/-- `mtx * permutation`, geomc/linalg/mtxdetail/MatrixMult.h:294-302. -/
def mulPerm (d : Flat) (a : Src K) (b : Perm) (m : Mem K) : Option (Mem K) :=
  forN b.n (fun col m => do
    let s ← Perm.at b.n b.dst col
    forN a.rows (fun r m => do
      let x ← a.get m r s
      d.set m r col x) m) m

/-- `permutation * mtx`, geomc/linalg/mtxdetail/MatrixMult.h:315-323. -/
def permMul (d : Flat) (a : Perm) (b : Src K) (m : Mem K) : Option (Mem K) :=
  forN a.n (fun row m => do
    let s ← Perm.at a.n a.src row
    forN b.cols (fun c m => do
      let x ← b.get m s c
      d.set m row c x) m) m

/-- `permutation * permutation` into a non-permutation matrix, geomc/linalg/mtxdetail/MatrixMult.h:334-343. -/
def permPermTo (d : Flat) (a b : Perm) (m : Mem K) : Option (Mem K) :=
  forN a.n (fun i m => do
    let j ← Perm.at b.n b.dst i
    let k ← Perm.at a.n a.dst j
    d.set m i k 1) (d.setZero m)

/-- `permutation * permutation` into a permutation `d` (distinct from both operands; its cached sign is left),
geomc/linalg/mtxdetail/MatrixMult.h:345-361. -/
def permPerm (d a b : Perm) : Option Perm :=
  forN a.n (fun i d => do
    let j ← Perm.at a.n a.src i
    let s ← Perm.at b.n b.src j
    let j' ← Perm.at b.n b.dst i
    let t ← Perm.at a.n a.dst j'
    if i < d.n then
      some { d with src := Function.update d.src i s, dst := Function.update d.dst i t }
    else none) d

/-- `permutation * vec`, geomc/linalg/mtxdetail/MatrixMult.h:372-387; the vector is passed by value. -/
def permVec (d : Flat) (a : Perm) (v : Flat) (m₀ : Mem K) : Option (Mem K) :=
  forN v.rows (fun i m => do
    let s ← Perm.at a.n a.src i
    let x ← v.get m₀ s 0
    d.set m i 0 x) m₀

/-- `vec * permutation`, geomc/linalg/mtxdetail/MatrixMult.h:396-411; the vector is passed by reference. -/
def vecPerm (d v : Flat) (b : Perm) (m : Mem K) : Option (Mem K) :=
  forN v.cols (fun i m => do
    let s ← Perm.at b.n b.dst i
    let x ← v.get m 0 s
    d.set m 0 i x) m

end Products

section Copy
variable {K : Type}

/-- `_mtxcopy`, geomc/linalg/mtxdetail/MatrixCopy.h:20-23 (row-major iterators) and, for two flat matrices of
the same layout, 37-47 (bare arrays). -/
def copy (into src : Flat) (m : Mem K) : Option (Mem K) :=
  if into.rowMajor = src.rowMajor then
    forN (src.rows * src.cols) (fun i m =>
      if i < into.rows * into.cols then some (Function.update m (into.base + i) (m (src.base + i)))
      else none) m
  else
    forN src.rows (fun r m => forN src.cols (fun c m => do
      let x ← src.get m r c
      into.set m r c x) m) m

/-- `mtx_copy_txpose`, geomc/linalg/mtxdetail/MatrixFunctionImpl.h:92-99. -/
def copyTxpose (into : Flat) (s : Src K) (m : Mem K) : Option (Mem K) :=
  forN into.cols (fun c m => forN into.rows (fun r m => do
    let x ← s.get m c r
    into.set m r c x) m) m

/-- `transpose` of a diagonal into a diagonal matrix, geomc/linalg/mtxdetail/MatrixFunctionImpl.h:156-159. -/
def diagTxpose (into v : Diag) (m : Mem K) : Option (Mem K) :=
  forN (min v.rows v.cols) (fun i m => do
    let x ← v.rd m i
    into.wr m i x) m

/-- `std::swap((*into)(r,c), (*into)(c,r))`. -/
def Flat.swap (v : Flat) (m : Mem K) (r c : ℕ) : Option (Mem K) := do
  let x ← v.get m r c
  let y ← v.get m c r
  let m ← v.set m r c y
  v.set m c r x

/-- The in-place branch of `transpose`, geomc/linalg/Matrix.h:593-597. -/
def txposeInPlace (v : Flat) (m : Mem K) : Option (Mem K) :=
  forN v.rows (fun r m => forN r (fun c m => v.swap m r c) m) m

/-- `transpose_square_matrix`, geomc/linalg/mtxdetail/MatrixFunctionImpl.h:29-37 and 41-49. -/
def txposeSquare (v : Flat) (m : Mem K) : Option (Mem K) :=
  forN v.rows (fun i m => forN (v.rows - (i + 1)) (fun k m => v.swap m i (i + 1 + k)) m) m

/-- `mtx_aliases_storage`, geomc/linalg/Matrix.h:311-329, on two one-token matrices: `false` as soon as `a`'s
range is not inside `b`'s. -/
def aliases (a b : Flat) : Bool :=
  !(a.base < b.base || b.base + b.rows * b.cols < a.base + a.rows * a.cols)

/-- The "ordinary case" loops of `transpose`, geomc/linalg/Matrix.h:626-630, and the same loops over the copied
storage, 615-620. -/
def txposeCopy (into src : Flat) (m : Mem K) : Option (Mem K) :=
  forN src.rows (fun r m => forN src.cols (fun c m => do
    let x ← src.get m r c
    into.set m c r x) m) m

/-- `UniqueStorage<T,M*N> buf(rows * cols, m.data_begin())` at address `t`. -/
def copyAside (t : ℕ) (v : Flat) (m : Mem K) : Option (Mem K) :=
  forN (v.rows * v.cols) (fun i m => some (Function.update m (t + i) (m (v.base + i)))) m

/-- `transpose` between two `SimpleMatrix` objects of the same type, geomc/linalg/Matrix.h:588-634.
`same` is `into == &m`; `t` is the address of the temporary. -/
def txposeSame (same : Bool) (t : ℕ) (into v : Flat) (m : Mem K) : Option (Mem K) :=
  if same && v.rows == v.cols then txposeInPlace into m
  else if aliases into v then do
    let m ← copyAside t v m
    txposeCopy into { v with base := t } m
  else txposeCopy into v m

/-- `transpose` between `SimpleMatrix` objects of different types, geomc/linalg/Matrix.h:654-676: after the
buffered copy control falls through to the direct one.  The buffer has the layout of the source. -/
def txposeOther (t : ℕ) (into v : Flat) (m : Mem K) : Option (Mem K) := do
  let m ←
    if aliases into v then do
      let buf : Flat := ⟨t, v.cols, v.rows, v.rowMajor⟩
      let m ← copyTxpose buf v.src m
      copy into buf m
    else some m
  copyTxpose into v.src m

/-- `mul(into, a, b)`, geomc/linalg/Matrix.h:387-424, on flat matrices; `t` is the address of the temporary,
a row-major `SimpleMatrix`. -/
def mulInto [Ring K] (t : ℕ) (into a b : Flat) (m : Mem K) : Option (Mem K) :=
  if aliases into a || aliases into b then do
    let tmp : Flat := ⟨t, a.rows, b.cols, true⟩
    let m ← mul tmp a.src b.src m
    copy into tmp m
  else mul into a.src b.src m

end Copy

section Elementwise
variable {K : Type}

/-- The generic `add` (`f = +`) and `sub` (`f = -`), geomc/linalg/mtxdetail/MatrixArithmetic.h:31-49. -/
def zipWith (f : K → K → K) (d : Flat) (a b : Src K) (m : Mem K) : Option (Mem K) :=
  forN d.rows (fun r m => forN d.cols (fun c m => do
    let x ← a.get m r c
    let y ← b.get m r c
    d.set m r c (f x y)) m) m

/-- Diagonal `add`/`sub` into a general matrix, geomc/linalg/mtxdetail/MatrixArithmetic.h:70-92. -/
def zipDiagTo [Zero K] (f : K → K → K) (d : Flat) (a b : Diag) (m : Mem K) : Option (Mem K) :=
  forN (min a.rows a.cols) (fun i m => do
    let x ← a.rd m i
    let y ← b.rd m i
    d.set m i i (f x y)) (d.setZero m)

/-- Diagonal `add`/`sub` into a diagonal matrix, geomc/linalg/mtxdetail/MatrixArithmetic.h:97-117. -/
def zipDiag (f : K → K → K) (d a b : Diag) (m : Mem K) : Option (Mem K) :=
  forN (min a.rows a.cols) (fun i m => do
    let x ← a.rd m i
    let y ← b.rd m i
    d.wr m i (f x y)) m

/-- `scale`, geomc/linalg/mtxdetail/MatrixArithmetic.h:154-161. -/
def scale [Mul K] (k : K) (d : Flat) (a : Src K) (m : Mem K) : Option (Mem K) :=
  forN a.rows (fun r m => forN a.cols (fun c m => do
    let x ← a.get m r c
    d.set m r c (k * x)) m) m

/-- `scale` of a diagonal into a general matrix, geomc/linalg/mtxdetail/MatrixArithmetic.h:170-178. -/
def scaleDiagTo [Zero K] [Mul K] (k : K) (d : Flat) (a : Diag) (m : Mem K) : Option (Mem K) :=
  forN (min a.rows a.cols) (fun i m => do
    let x ← a.rd m i
    d.set m i i (k * x)) (d.setZero m)

/-- `scale` of a diagonal into a diagonal matrix, geomc/linalg/mtxdetail/MatrixArithmetic.h:180-187. -/
def scaleDiag [Mul K] (k : K) (d a : Diag) (m : Mem K) : Option (Mem K) :=
  forN (min a.rows a.cols) (fun i m => do
    let x ← a.rd m i
    d.wr m i (k * x)) m

/-- A comparison loop: `for (i < n) if (x_i != y_i) return false; return true`. -/
def eqLoop [DecidableEq K] (x y : ℕ → Option K) : List ℕ → Option Bool
  | [] => some true
  | i :: l => do
    let u ← x i
    let v ← y i
    if u ≠ v then some false else eqLoop x y l

/-- `mtxequal`, geomc/linalg/mtxdetail/MatrixFunctionImpl.h:187-199, over row-major iterators. -/
def mtxEqual [DecidableEq K] (a b : Src K) (m : Mem K) : Option Bool :=
  eqLoop (fun i => a.get m (i / a.cols) (i % a.cols)) (fun i => b.get m (i / b.cols) (i % b.cols))
    (List.range (a.rows * a.cols))

/-- `mtxequal` of flat matrices of one layout, geomc/linalg/mtxdetail/MatrixFunctionImpl.h:207-216. -/
def flatEqual [DecidableEq K] (a b : Flat) (m : Mem K) : Option Bool :=
  eqLoop (fun i => some (m (a.base + i)))
    (fun i => if i < b.rows * b.cols then some (m (b.base + i)) else none) (List.range (a.rows * a.cols))

/-- `mtxequal` of diagonal matrices, geomc/linalg/mtxdetail/MatrixFunctionImpl.h:218-230. -/
def diagEqual [DecidableEq K] (a b : Diag) (m : Mem K) : Option Bool :=
  eqLoop (a.rd m) (b.rd m) (List.range (min a.rows a.cols))

/-- `mtxequal` of permutations, geomc/linalg/mtxdetail/MatrixFunctionImpl.h:233-247. -/
def permEqual (a b : Perm) : Option Bool :=
  eqLoop (Perm.at a.n a.src) (Perm.at b.n b.src) (List.range a.n)

/-- `operator==`, geomc/linalg/Matrix.h:1071-1095: `false` on mismatched dimensions, else `mtxequal`. -/
def opEq (ra ca rb cb : ℕ) (eq : Option Bool) : Option Bool :=
  if ra ≠ rb ∨ ca ≠ cb then some false else eq

end Elementwise

end Geomc.Mtx
