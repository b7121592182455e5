import Verif.Float.VecModel

/-! # Model of gradual underflow

`Verif.Float.Model` leaves the exponent of a float unbounded.  Here it is bounded from below by `q`: the smallest
positive float is `2^q` (`q = -149` for `float`, `-1074` for `double`).  The operations are those of
`Verif.Float.Model` and `Verif.Float.VecModel`; only the rounding differs (`std::fma` in geomc/function/functiondetail/UtilDetail.h:72-88 and the operators of
`float` and `double`).  Overflow is not modelled. -/

namespace Geomc.Flt

variable {K : Type} [Field K]

/-- Round to the nearest float with `p` bits and an exponent of at least `q`, ties upwards. -/
def nearestE [LinearOrder K] [IsStrictOrderedRing K] [FloorRing K] (p : ℕ) (q : ℤ) (x : K) : K :=
  if x = 0 then 0 else
    let h : K := 2 ^ max (Int.log 2 |x| + 1 - p) q
    round (x / h) * h

end Geomc.Flt
