import Verif.Float.GeomModel
import Verif.Affine.Model

/-! # Model of the composition of transforms in floating point

geomc/linalg/AffineTransform.h.  Every operation is the exact result rounded by `rnd`. -/

namespace Geomc.Flt

open Geomc.Affine (XF)

variable {K : Type} [Field K] {n : ℕ}

/-- `xf1 * xf2`, geomc/linalg/AffineTransform.h:134-139 with `apply(xf)`, :291-296. -/
def xfMul (rnd : K → K) (x y : XF K n) : XF K n := ⟨mulMtx rnd x.mat y.mat, mulMtx rnd y.inv x.inv⟩

/-- `xf1 / xf2`, geomc/linalg/AffineTransform.h:146-151 with `apply_inverse(xf)`, :303-308. -/
def xfDiv (rnd : K → K) (x y : XF K n) : XF K n := ⟨mulMtx rnd y.inv x.mat, mulMtx rnd x.inv y.mat⟩

/-- `scale`, geomc/linalg/AffineTransform.h:799-806. -/
def xfScale [DecidableEq K] (rnd : K → K) (s : Fin n → K) : Option (XF K n) :=
  if ∃ i, s i = 0 then none
  else some
    ⟨Matrix.of fun i j => if h : (i : ℕ) < n then (if i = j then s ⟨i, h⟩ else Affine.eye _ i j) else Affine.eye _ i j,
     Matrix.of fun i j => if h : (i : ℕ) < n then (if i = j then rnd (1 / s ⟨i, h⟩) else Affine.eye _ i j) else Affine.eye _ i j⟩

end Geomc.Flt
