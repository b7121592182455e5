import Verif.Raster.Model

/-! # Model of cubic raster sampling -/

namespace Geomc.Rast

variable {M ch : ℕ} {K : Type} [Field K] [LinearOrder K] [FloorRing K]

/-- `_ImplRasterSample<..., INTERP_CUBIC>::sample`, RasterDetail.h:120-129, one channel of the result:
the `4^M` samples from one before to two after the truncated position are copied and blended by
`interp_cubic`. -/
def Raster.sampleCubic [NeZero M] (r : Raster K K M ch) (e : Edge) (fuel : ℕ) (pt : Fin M → K)
    (k : Fin ch) : Option K := do
  let g : Fin M → ℤ := fun i => trunc (pt i)
  let s : Fin M → K := fun i => pt i - (g i : K)
  let buf ← r.copy e (fun i => g i - 1) (fun i => g i + 2) fuel
  some (Util.interpCubic (fun i => if h : i < M then s ⟨i, h⟩ else 0) M
    fun c => ((buf[c]?).map (· k)).getD 0)

/-- `sample<Edge, INTERP_CUBIC>(pt)`, geomc/function/Raster.h:275-278. -/
def Raster.cubic [NeZero M] (r : Raster K K M ch) (e : Edge) (fuel : ℕ) (pt : Fin M → K)
    (k : Fin ch) : Option K := r.sampleCubic e fuel (r.toGridSpace pt) k

end Geomc.Rast
