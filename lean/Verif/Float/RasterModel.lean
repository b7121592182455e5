import Verif.Float.LerpModel
import Verif.Float.BoxModel
import Verif.Raster.Model

/-! # Model of rasters sampled in floating point

geomc/function/Raster.h and geomc/function/functiondetail/RasterDetail.h, for coordinates and samples of one floating-point type and one
channel.  Every operation is the exact result rounded by `rnd`; reading the samples is exact. -/

namespace Geomc.Flt

open Geomc.Rast (Raster Edge trunc)

variable {K : Type} [Field K] [LinearOrder K] [FloorRing K] {M : ℕ}

/-- `toGridSpace`, geomc/function/Raster.h:431-433, with `Rect::unmap`, geomc/shape/Rect.h:901-903.  Not defined for a flat domain. -/
def gridSpace (rnd : K → K) (r : Raster K K M 1) (x : Fin M → K) : Option (Fin M → K) :=
  (boxUnmap rnd ⟨r.lo, r.hi⟩ x).map fun u i => rnd (rnd (r.ext i : K) * u i)

/-- `_ImplRasterSample<..., INTERP_NEAREST>::sample`, RasterDetail.h:89-92. -/
def sampleNearest (rnd : K → K) (r : Raster K K M 1) (e : Edge) (pt : Fin M → K) : Option (Fin 1 → K) :=
  r.sampleDiscrete e fun i => trunc (rnd (pt i + 1 / 2))

/-- `_ImplRasterSample<..., INTERP_LINEAR>::sample`, RasterDetail.h:102-111. -/
def sampleLinear [NeZero M] (rnd : K → K) (r : Raster K K M 1) (e : Edge) (fuel : ℕ) (pt : Fin M → K) : Option K := do
  let g : Fin M → ℤ := fun i => trunc (pt i)
  let s : Fin M → K := fun i => rnd (pt i - rnd (g i : K))
  let buf ← r.copy e g (fun i => g i + 1) fuel
  some (interpLinear rnd (fun i => if h : i < M then s ⟨i, h⟩ else 0) M fun c => ((buf[c]?).map (· 0)).getD 0)

/-- `sample<Edge, INTERP_NEAREST>(pt)` and `sample<Edge, INTERP_LINEAR>(pt)`, geomc/function/Raster.h:275-278. -/
def rasterNearest (rnd : K → K) (r : Raster K K M 1) (e : Edge) (x : Fin M → K) : Option (Fin 1 → K) :=
  (gridSpace rnd r x).bind (sampleNearest rnd r e)
def rasterLinear [NeZero M] (rnd : K → K) (r : Raster K K M 1) (e : Edge) (fuel : ℕ) (x : Fin M → K) : Option K :=
  (gridSpace rnd r x).bind (sampleLinear rnd r e fuel)

end Geomc.Flt
