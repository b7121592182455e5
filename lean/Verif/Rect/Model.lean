import Mathlib.Algebra.Order.Field.Basic
import Mathlib.Data.Fin.Tuple.Basic
import Mathlib.Order.WithBot
import Mathlib.Data.Rat.Floor
import Verif.Vec.Model

/-!
# Axis-aligned boxes

geomc/shape/Rect.h.  A `Rect<T,N>` is a pair of corners; the one-dimensional case has `N = 1`.  Arithmetic is exact.  What
depends on whether the element type is an integer or a floating point type is modelled twice (`…F` and `…Z`).
-/

namespace Geomc.Rect

open Geomc.Vec (stdMin stdMax vmin vmax mag2)

/-- geomc/shape/Rect.h:69-76. -/
structure Box (K : Type) (n : ℕ) where
  lo : Fin n → K
  hi : Fin n → K

variable {K : Type} {n : ℕ}

instance [DecidableEq K] : DecidableEq (Box K n) := fun a b =>
  decidable_of_iff (a.lo = b.lo ∧ a.hi = b.hi) (by cases a; cases b; simp)

section Order
variable [LinearOrder K]

/-- The default constructor, geomc/shape/Rect.h:94-96; `mx` and `lw` are the extreme values of the element type.  Also
`Rect::empty` and (with the arguments exchanged) `Rect::full`, with infinities, :1034-1044. -/
def Box.default (mx lw : K) : Box K n := ⟨fun _ => mx, fun _ => lw⟩

/-- `Rect(p)`, geomc/shape/Rect.h:113-115. -/
def Box.point (p : Fin n → K) : Box K n := ⟨p, p⟩

/-- `spanning_corners`, geomc/shape/Rect.h:168-175 (also `set_corners`, :702-705). -/
def spanningCorners (c₁ c₂ : Fin n → K) : Box K n := ⟨vmin c₁ c₂, vmax c₁ c₂⟩

/-- `operator|` with a box or a point, geomc/shape/Rect.h:280-322. -/
def Box.union (a b : Box K n) : Box K n := ⟨vmin a.lo b.lo, vmax a.hi b.hi⟩
def Box.unionAssign (a b : Box K n) : Box K n := ⟨vmin b.lo a.lo, vmax b.hi a.hi⟩
def Box.unionPoint (a : Box K n) (p : Fin n → K) : Box K n := ⟨vmin a.lo p, vmax a.hi p⟩

/-- `from_point_sequence`, geomc/shape/Rect.h:195-201. -/
def fromPoints (mx lw : K) (ps : List (Fin n → K)) : Box K n := ps.foldl Box.unionPoint (Box.default mx lw)

/-- `operator&`, geomc/shape/Rect.h:335-356. -/
def Box.inter (a b : Box K n) : Box K n := ⟨vmax a.lo b.lo, vmin a.hi b.hi⟩

/-- `contains(pt)`, geomc/shape/Rect.h:581-592 (and the static version, :210-219). -/
def Box.contains (b : Box K n) (p : Fin n → K) : Bool :=
  (List.finRange n).all fun i => !(decide (p i < b.lo i) || decide (b.hi i < p i))

/-- `contains(box)`, geomc/shape/Rect.h:600-610. -/
def Box.containsBox (a b : Box K n) : Bool :=
  (List.finRange n).all fun i => !(decide (b.lo i < a.lo i) || decide (a.hi i < b.hi i))

/-- `intersects(box)`, geomc/shape/Rect.h:626-635. -/
def Box.intersects (a b : Box K n) : Bool :=
  (List.finRange n).all fun i => !(decide (a.hi i ≤ b.lo i) || decide (b.hi i ≤ a.lo i))

/-- `is_empty`, geomc/shape/Rect.h:823-832. -/
def Box.isEmpty (b : Box K n) : Bool := (List.finRange n).any fun i => decide (b.hi i < b.lo i)

/-- `clip`, geomc/shape/Rect.h:839-841. -/
def Box.clip (b : Box K n) (p : Fin n → K) : Fin n → K := vmin b.hi (vmax b.lo p)

/-- The product with a box of `M` further dimensions, geomc/shape/Rect.h:549-560. -/
def Box.prod {m : ℕ} (a : Box K n) (b : Box K m) : Box K (n + m) := ⟨Fin.append a.lo b.lo, Fin.append a.hi b.hi⟩

end Order

section Ring
variable [LinearOrder K] [CommRing K]

/-- `operator+`, `operator-` with a point, `dilated`, `minkowski_sum`: geomc/shape/Rect.h:365-406, :778-789. -/
def Box.translate (b : Box K n) (d : Fin n → K) : Box K n := ⟨b.lo + d, b.hi + d⟩
def Box.untranslate (b : Box K n) (d : Fin n → K) : Box K n := ⟨b.lo - d, b.hi - d⟩
def Box.dilated (b : Box K n) (c : Fin n → K) : Box K n := ⟨b.lo - c, b.hi + c⟩
def Box.minkowski (a b : Box K n) : Box K n := ⟨a.lo + b.lo, a.hi + b.hi⟩

/-- `p - rect`, geomc/shape/Rect.h:1017-1020. -/
def pointMinusBox (p : Fin n → K) (b : Box K n) : Box K n := b.untranslate p

/-- `operator*(a)`, geomc/shape/Rect.h:482-506. -/
def Box.scale (b : Box K n) (a : Fin n → K) : Box K n := spanningCorners (b.lo * a) (b.hi * a)

/-- `operator-(Rect)`, geomc/shape/Rect.h:418-439: the result and what becomes of the object it is called on. -/
def Box.exclude (mx lw : K) (a b : Box K n) : Box K n × Box K n :=
  (Box.default mx lw,
   ⟨fun i => if b.hi i < b.lo i then a.lo i
      else if b.lo i < a.lo i then a.hi i else stdMin (a.hi i) (b.lo i),
    fun i => if b.hi i < b.lo i then a.hi i
      else if a.hi i < b.hi i then a.lo i else stdMax (b.hi i) (a.lo i)⟩)

/-- `volume`, geomc/shape/Rect.h:800-807, given `dimensions()`. -/
def volumeOf (dim : Fin n → K) : K := (List.finRange n).foldl (fun v i => v * stdMax (dim i) 0) 1

/-- `dimensions`, geomc/shape/Rect.h:666-668; `em` is `endpoint_measure`: one for integers, zero otherwise (:1046-1048). -/
def Box.dimensions (em : K) (b : Box K n) : Fin n → K := fun i => b.hi i - b.lo i + em

/-- `from_corner`, geomc/shape/Rect.h:155-161. -/
def fromCorner (em : K) (corner dims : Fin n → K) : Box K n :=
  spanningCorners corner (fun i => corner i + dims i - em)

/-- `project`, geomc/shape/Rect.h:850-861. -/
def Box.project (b : Box K n) (p : Fin n → K) : Fin n → K := fun i =>
  let dlo := |p i - b.lo i|
  let dhi := |p i - b.hi i|
  if dlo < dhi then b.lo i else b.hi i

/-- `convex_support`, geomc/shape/Rect.h:950-957. -/
def Box.support (b : Box K n) (d : Fin n → K) : Fin n → K := fun i => if d i < 0 then b.lo i else b.hi i

/-- The translation along one axis in `contact_vector`. -/
def Box.gap (a b : Box K n) (i : Fin n) : K :=
  let d0 := b.lo i - a.hi i
  let d1 := b.hi i - a.lo i
  if |d0| < |d1| then d0 else d1

/-- `r0.intersects(r1)` for one axis. -/
def Box.overlaps (a b : Box K n) (i : Fin n) : Bool := !(decide (a.hi i ≤ b.lo i) || decide (b.hi i ≤ a.lo i))

/-- `contact_vector`, geomc/shape/Rect.h:910-948, for integer element types.  `mx` is the greatest value of the type;
the state of the search is `(shortest_axis, shortest_val)`, the axis being uninitialised at first.  For floating point
types `index_t shortest_val = max()` does not fit and is undefined (see C48). -/
def Box.contactVector (mx : K) (a b : Box K n) : Option ((Fin n → K) × Bool) :=
  let all := (List.finRange n).all (a.overlaps b)
  let best := (List.finRange n).foldl (fun (s : Option (Fin n) × K) i =>
    if |a.gap b i| < |s.2| then (some i, a.gap b i) else s) (none, mx)
  if all then best.1.map fun k => (Function.update (fun _ => 0) k best.2, true)
  else some (fun i => if a.overlaps b i then 0 else a.gap b i, false)

end Ring

section Field
variable [LinearOrder K] [Field K]

/-- `operator/(a)`, geomc/shape/Rect.h:514-534. -/
def Box.unscale (b : Box K n) (a : Fin n → K) : Option (Box K n) :=
  if ∃ i, a i = 0 then none else some (spanningCorners (fun i => b.lo i / a i) (fun i => b.hi i / a i))

/-- `from_center`, `center`, `set_dimensions`, `centered_on` for floating point elements: geomc/shape/Rect.h:136-144,
:655-657, :674-697, :714-716. -/
def fromCenterF (c dims : Fin n → K) : Box K n := spanningCorners (fun i => c i - dims i / 2) (fun i => c i + dims i / 2)
def Box.centerF (b : Box K n) : Fin n → K := fun i => (b.hi i + b.lo i) / 2
def Box.setDimensionsF (b : Box K n) (dim : Fin n → K) : Box K n :=
  let diff : Fin n → K := fun i => (|dim i| - b.dimensions 0 i) / 2
  ⟨fun i => b.lo i - diff i, fun i => b.hi i + diff i⟩

/-- `fitted_to`, geomc/shape/Rect.h:752-770. -/
def Box.fittedTo (a b : Box K n) : Box K n :=
  let d0 := a.dimensions 0
  let d1 := b.dimensions 0
  let m := (List.finRange n).foldl (fun m i => stdMax m |if d0 i = 0 then 0 else d1 i / d0 i|) 0
  fromCenterF b.centerF (fun i => d0 i * m)

/-- `dist2`, geomc/shape/Rect.h:876-878; `sdf`, :866-869. -/
def Box.dist2 (b : Box K n) (p : Fin n → K) : K := mag2 (p - b.clip p)
def Box.sdf (sqrt : K → K) (b : Box K n) (p : Fin n → K) : K :=
  (if b.contains p then -1 else 1) * sqrt (mag2 (b.project p - p))

/-- `remap`, `unmap`: geomc/shape/Rect.h:891-903. -/
def Box.remap (b : Box K n) (s : Fin n → K) : Fin n → K := fun i => (1 - s i) * b.lo i + s i * b.hi i
def Box.unmap (b : Box K n) (p : Fin n → K) : Option (Fin n → K) :=
  if ∃ i, b.hi i = b.lo i then none else some fun i => (p i - b.lo i) / (b.hi i - b.lo i)

/-- A one-dimensional interval of numbers and infinities. -/
abbrev Ext (K : Type) := WithBot (WithTop K)

/-- The loop of `intersect(Ray)`, geomc/shape/Rect.h:960-980, over the axes; the interval starts as `(-∞, ∞)`.  A miss
returns `Rect<T,1>()`, here `none`. -/
def Box.slabs (b : Box K n) (o d : Fin n → K) : List (Fin n) → Ext K × Ext K → Option (Ext K × Ext K)
  | [], s => some s
  | i :: is, s =>
    if d i = 0 then
      if o i < b.lo i ∨ b.hi i < o i then none else b.slabs o d is s
    else
      let t0 := (b.hi i - o i) / d i
      let t1 := (b.lo i - o i) / d i
      b.slabs o d is (stdMax s.1 ((stdMin t0 t1 : K) : Ext K), stdMin s.2 ((stdMax t0 t1 : K) : Ext K))

def Box.intersectRay (b : Box K n) (o d : Fin n → K) : Option (Ext K × Ext K) :=
  b.slabs o d (List.finRange n) (⊥, ((⊤ : WithTop K) : Ext K))

end Field

/-- Conversion of a floating point value to `index_t`, a 64-bit integer: truncation, undefined if out of range. -/
def truncQ (x : ℚ) : ℤ := if 0 ≤ x then ⌊x⌋ else ⌈x⌉
def toIndex (x : ℚ) : Option ℤ :=
  if -2 ^ 63 ≤ truncQ x ∧ truncQ x < 2 ^ 63 then some (truncQ x) else none

/-- `contact_vector` for floating point element types: `shortest_val` is an `index_t`. -/
def contactVectorF (mx : ℚ) (a b : Box ℚ n) : Option ((Fin n → ℚ) × Bool) := do
  let v₀ ← toIndex mx
  let all := (List.finRange n).all (a.overlaps b)
  let best ← (List.finRange n).foldlM (fun (s : Option (Fin n) × ℤ) i =>
    if |a.gap b i| < |(s.2 : ℚ)| then (toIndex (a.gap b i)).map fun x => (some i, x) else some s) (none, v₀)
  if all then best.1.map fun k => (Function.update (fun _ => 0) k (best.2 : ℚ), true)
  else some (fun i => if a.overlaps b i then 0 else a.gap b i, false)

/-- `from_center`, `center`, `set_dimensions` for integers: geomc/shape/Rect.h:136-144, :655-657, :674-697. -/
def fromCenterZ (c dims : Fin n → ℤ) : Box ℤ n :=
  spanningCorners (fun i => c i - (dims i).tdiv 2) (fun i => c i + (dims i - 1).tdiv 2)
def Box.centerZ (b : Box ℤ n) : Fin n → ℤ := fun i => (b.hi i + b.lo i + 1).tdiv 2
def Box.setDimensionsZ (b : Box ℤ n) (dim : Fin n → ℤ) : Box ℤ n :=
  let diff : Fin n → ℤ := fun i => (|dim i| - b.dimensions 1 i).tdiv 2
  ⟨fun i => b.lo i - diff i, fun i => b.hi i + diff i⟩

end Geomc.Rect
