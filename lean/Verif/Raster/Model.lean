import Verif.Grid.Model
import Verif.Util.Model
import Mathlib.Algebra.Order.Floor.Ring
import Mathlib.Algebra.Order.Field.Basic

/-!
# Model of `geomc/function/Raster.h` and `geomc/function/functiondetail/RasterDetail.h`

Grid coordinates are `Fin M → ℤ` without overflow; sample coordinates live in an ordered field with a
floor.  Reading or writing outside the data array, and dividing by zero, are `none`.  The narrowing of
`cyc` and `i` to `int` in the mirror rule (RasterDetail.h:46-47) is not modelled.
-/

namespace Geomc.Rast

/-- `EdgeBehavior`, geomc/function/FunctionTypes.h. -/
inductive Edge where
  | clamp | periodic | mirror | constant
  deriving DecidableEq

/-- `_ImplEdge<Edge>::coord(c, max)`, RasterDetail.h:26-58. -/
def coord : Edge → ℤ → ℤ → Option ℤ
  | .clamp, c, mx => some (max (min c (mx - 1)) 0)
  | .periodic, c, mx => if mx = 0 then none else some ((c.tmod mx + mx).tmod mx)
  | .mirror, c, mx =>
    let c := |c|
    let m := mx - 1
    if m = 0 then none
    else
      let cyc := c.tdiv m
      let i := c.tmod m
      some (if cyc % 2 = 0 then i else m - i)
  | .constant, c, _ => some c

variable {M : ℕ}

/-- `_ImplRasterIndex::index`, RasterDetail.h:139-149 (and its `N = 1` form, 155-158). -/
def gridIndex (e : Edge) (ext c : Fin M → ℤ) : Option ℤ := do
  let st ← (List.finRange M).foldlM (fun (st : ℤ × ℤ) (i : Fin M) => do
      let x ← coord e (c i) (ext i)
      some (st.1 + x * st.2, st.2 * ext i)) (0, 1)
  some st.1

/-- `array_product<M>`, RasterDetail.h:165-173. -/
def arrayProduct (ext : Fin M → ℤ) : ℤ := (List.finRange M).foldl (fun p i => p * ext i) 1

/-- Fields of `Raster<I,O,M,N>`, geomc/function/Raster.h:129-133; `ch` is the template parameter `N`. -/
structure Raster (K O : Type) (M ch : ℕ) where
  ext : Fin M → ℤ
  size : ℤ
  data : ℤ → O
  abyss : Fin ch → O
  lo : Fin M → K
  hi : Fin M → K

variable {K O : Type} {ch : ℕ}

/-- Constructor from data and domain, geomc/function/Raster.h:200-206.  (`m_abyss` is left
default-initialised by the code; here it is a parameter.) -/
def Raster.new (ext : Fin M → ℤ) (data : ℤ → O) (abyss : Fin ch → O) (lo hi : Fin M → K) :
    Raster K O M ch := ⟨ext, arrayProduct ext * ch, data, abyss, lo, hi⟩

/-- `index<Edge>(c)`, geomc/function/Raster.h:437-441. -/
def Raster.index (r : Raster K O M ch) (e : Edge) (c : Fin M → ℤ) : Option ℤ := do
  let i ← gridIndex e r.ext c
  some (i * ch)

/-- `contains_gridpt`, geomc/function/Raster.h:381-393. -/
def Raster.containsGridpt (r : Raster K O M ch) (c : Fin M → ℤ) : Bool :=
  (List.finRange M).all fun i => !(decide (c i < 0) || decide (c i ≥ r.ext i))

/-- `from_ptr(m_data.get() + offs)`: reads `ch` consecutive items. -/
def Raster.readAt (r : Raster K O M ch) (offs : ℤ) : Option (Fin ch → O) :=
  if 0 ≤ offs ∧ offs + ch ≤ r.size then some (fun k => r.data (offs + k)) else none

/-- `sample_discrete<Edge>`, geomc/function/Raster.h:325-341. -/
def Raster.sampleDiscrete (r : Raster K O M ch) (e : Edge) (pt : Fin M → ℤ) : Option (Fin ch → O) :=
  if e = .constant then
    if r.containsGridpt pt then do let o ← r.index .constant pt; r.readAt o
    else some r.abyss
  else do let o ← r.index e pt; r.readAt o

/-- `std::copy(val.begin(), val.end(), ptr + o)`. -/
def writeAt (data : ℤ → O) (o : ℤ) (v : Fin ch → O) (a : ℤ) : O :=
  if h : 0 ≤ a - o ∧ a - o < ch then v (Fin.mk (a - o).toNat (by omega)) else data a

/-- `set`, geomc/function/Raster.h:223-229. -/
def Raster.set (r : Raster K O M ch) (idx : Fin M → ℤ) (val : Fin ch → O) :
    Option (Raster K O M ch) :=
  if r.containsGridpt idx then do
    let o ← r.index .constant idx
    if 0 ≤ o ∧ o + ch ≤ r.size then
      some { r with data := writeAt r.data o val }
    else none
  else some r

/-- The loop `for (; i != end; ++i, ++dest)` of `copy<Edge>`, geomc/function/Raster.h:240-247, with a
step budget: `none` if the budget runs out before `end` is met.  The destination is the list of values
written. -/
def Raster.copyLoop [NeZero M] (r : Raster K O M ch) (e : Edge) (lo hi : Fin M → ℤ) :
    ℕ → (Fin M → ℤ) → Option (List (Fin ch → O))
  | 0, _ => none
  | fuel + 1, i =>
    if i = Grid.end' true lo hi then some []
    else do
      let v ← r.sampleDiscrete e i
      let rest ← Raster.copyLoop r e lo hi fuel (Grid.increment true lo hi i)
      some (v :: rest)

/-- `copy<Edge>(dest, region)`. -/
def Raster.copy [NeZero M] (r : Raster K O M ch) (e : Edge) (lo hi : Fin M → ℤ) (fuel : ℕ) :
    Option (List (Fin ch → O)) := r.copyLoop e lo hi fuel (Grid.begin' lo)

variable [Field K] [LinearOrder K] [FloorRing K]

/-- The cast `(grid_t)pt`: truncation towards zero. -/
def trunc (x : K) : ℤ := if 0 ≤ x then ⌊x⌋ else ⌈x⌉

/-- `toGridSpace`, geomc/function/Raster.h:431-433, with `Rect::unmap`, geomc/shape/Rect.h:901-903. -/
def Raster.toGridSpace (r : Raster K O M ch) (pt : Fin M → K) : Fin M → K :=
  fun i => (r.ext i : K) * ((pt i - r.lo i) / (r.hi i - r.lo i))

/-- `_ImplRasterSample<..., INTERP_NEAREST>::sample`, RasterDetail.h:89-92. -/
def Raster.sampleNearest (r : Raster K O M ch) (e : Edge) (pt : Fin M → K) : Option (Fin ch → O) :=
  r.sampleDiscrete e fun i => trunc (pt i + 1 / 2)

/-- `_ImplRasterSample<..., INTERP_LINEAR>::sample`, RasterDetail.h:102-111, one channel of the result:
the `2^M` samples of the cell are copied and blended by `interp_linear`. -/
def Raster.sampleLinear [NeZero M] (r : Raster K K M ch) (e : Edge) (fuel : ℕ) (pt : Fin M → K)
    (k : Fin ch) : Option K := do
  let g : Fin M → ℤ := fun i => trunc (pt i)
  let s : Fin M → K := fun i => pt i - (g i : K)
  let buf ← r.copy e g (fun i => g i + 1) fuel
  some (Util.interpLinear (fun i => if h : i < M then s ⟨i, h⟩ else 0) M
    fun c => ((buf[c]?).map (· k)).getD 0)

/-- `sample<Edge, INTERP_NEAREST>(pt)`, geomc/function/Raster.h:275-278. -/
def Raster.nearest (r : Raster K O M ch) (e : Edge) (pt : Fin M → K) : Option (Fin ch → O) :=
  r.sampleNearest e (r.toGridSpace pt)

/-- `sample<Edge, INTERP_LINEAR>(pt)`, geomc/function/Raster.h:275-278. -/
def Raster.linear [NeZero M] (r : Raster K K M ch) (e : Edge) (fuel : ℕ) (pt : Fin M → K)
    (k : Fin ch) : Option K := r.sampleLinear e fuel (r.toGridSpace pt) k

end Geomc.Rast
