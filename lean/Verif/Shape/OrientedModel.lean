import Verif.Affine.Model
import Verif.Rect.Model
import Verif.LU.Model
import Verif.Shape.WrapModel

/-!
# Shapes placed by an affine transform: geomc/shape/Oriented.h

The wrapped shape is given by the results of its queries, as functions.
-/

namespace Geomc.Shape

open Geomc.Vec Geomc.Rect Geomc.Affine

variable {K : Type} {n : ℕ} [Field K] [LinearOrder K]

/-- `Oriented::contains`, Oriented.h:70-73 and :186-189. -/
def oriContains (contains : (Fin n → K) → Bool) (x : XF K n) (p : Fin n → K) : Bool := contains (x.applyInverse p)

/-- `Oriented::convex_support`, Oriented.h:75-79. -/
def oriSupport (support : (Fin n → K) → Fin n → K) (x : XF K n) (d : Fin n → K) : Fin n → K :=
  let d := x.applyInverseNormal d
  let p := support d
  x.apply p

/-- `Vec<T,N>(xf.mat.row(axis))`: the row has one element more than are read. -/
def matRow (x : XF K n) (axis : Fin n) : Fin n → K := fun j => x.mat axis.castSucc j.castSucc

/-- `Oriented::bounds`, Oriented.h:81-99. -/
def oriBounds (support : (Fin n → K) → Fin n → K) (x : XF K n) : Box K n :=
  ⟨fun axis => x.apply (support (-matRow x axis)) axis, fun axis => x.apply (support (matRow x axis)) axis⟩

/-- `Oriented::intersect(Ray)`, Oriented.h:102-104 and :218-220. -/
def oriRay {R : Type} (ray : (Fin n → K) → (Fin n → K) → R) (x : XF K n) (o v : Fin n → K) : R :=
  let r := x.applyInverseRay (o, v)
  ray r.1 r.2

/-- Corner `c` of a box: `pts[(c & (1 << j)) != 0][j]`, Oriented.h:155-159. -/
def corner (b : Box K n) (c : ℕ) : Fin n → K := fun j => if c.testBit j then b.hi j else b.lo j

/-- `Oriented<Rect>::bounds`, Oriented.h:147-166.  `1 << N` overflows an `int` from 31 dimensions on. -/
def oriRectBounds (b : Box K n) (x : XF K n) : Option (Box K n) :=
  if 31 ≤ n then none
  else
    let r := (List.range' 1 (2 ^ n - 1)).foldl (fun (s : (Fin n → K) × (Fin n → K)) i =>
      let p := x.apply (corner b i)
      (vmin s.1 p, vmax s.2 p)) (x.apply b.lo, x.apply b.lo)
    some ⟨r.1, r.2⟩

/-- `Oriented<Rect>::convex_support`, Oriented.h:173-180. -/
def oriRectSupport (b : Box K n) (x : XF K n) (d : Fin n → K) : Fin n → K :=
  let dBody := x.applyInverseNormal d
  x.apply fun i => if dBody i < 0 then b.lo i else b.hi i

/-- The array handed to `det_destructive` in `Oriented<Rect>::volume`, Oriented.h:224-231: row `j`, column `i`.  A new
`SimpleMatrix` is the identity (C27); the loops write all of its elements. -/
def volumeMatrix (b : Box K n) (x : XF K n) (j i : ℕ) : K :=
  if h : j < n ∧ i < n then (b.hi ⟨i, h.2⟩ - b.lo ⟨i, h.2⟩) * x.mat (Fin.castSucc ⟨j, h.1⟩) (Fin.castSucc ⟨i, h.2⟩)
  else if j = i then 1 else 0

/-- `Oriented<Rect>::volume`, Oriented.h:223-233. -/
def oriVolume (b : Box K n) (x : XF K n) : K := LU.detDestructive (volumeMatrix b x) n

/-- A shape with its placement, Oriented.h:49-63. -/
structure Oriented (S K : Type) (n : ℕ) where
  shape : S
  xf : XF K n

variable {S : Type}

/-- `xf * shape`, `xf * oriented`, `shape / xf`, `oriented / xf`: Oriented.h:254-273, :296-316. -/
def orient (x : XF K n) (s : S) : Oriented S K n := ⟨s, x⟩
def Oriented.mul (x : XF K n) (s : Oriented S K n) : Oriented S K n := ⟨s.shape, x.mul s.xf⟩
def unorient (s : S) (x : XF K n) : Oriented S K n := ⟨s, x.inverse⟩
def Oriented.div (s : Oriented S K n) (x : XF K n) : Oriented S K n := ⟨s.shape, s.xf.div x⟩

/-- `oriented *= xf` and `oriented /= xf`, Oriented.h:281-288, :324-331: `i` is the object that is the placement of the shape,
`j` the argument; they may be the same object. -/
def Oriented.mulAssign (shape : S) (env : ℕ → XF K n) (i j : ℕ) : Oriented S K n := ⟨shape, Affine.mulAssign env i j i⟩
def Oriented.divAssign (shape : S) (env : ℕ → XF K n) (i j : ℕ) : Oriented S K n := ⟨shape, Affine.divAssign env i j i⟩

/-- `oriented_bounds`, Oriented.h:107-109. -/
def orientedBounds (bounds : Box K n) (x : XF K n) : Oriented (Box K n) K n := orient x bounds

end Geomc.Shape
