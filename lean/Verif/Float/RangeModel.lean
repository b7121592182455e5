import Verif.Float.Model
import Verif.Ieee.Model

/-! # Model of random floats in ranges

`rand<float>()` is `Verif.Random.Model`; here its value, an arbitrary float `u` of the unit interval (C15), is scaled, first with
floats of unbounded exponent and then with overflow. -/

namespace Geomc.Flt

variable {K : Type} [Field K]

/-- `rand<float>(hi)` and `rand<double>(hi)`, geomc/random/Random.cpp:258-265. -/
def randTo (rnd : K → K) (hi u : K) : K := rnd (hi * u)

/-- `rand<float>(lo, hi)` and `rand<double>(lo, hi)`, geomc/random/Random.cpp:287-294. -/
def randIn (rnd : K → K) (lo hi u : K) : K := rnd (rnd (rnd (hi - lo) * u) + lo)

end Geomc.Flt

namespace Geomc.Ieee

variable {K : Type} [Field K] [LinearOrder K]

/-- `rand<float>(hi)` and `rand<double>(hi)`, geomc/random/Random.cpp:258-265, with infinities and NaN. -/
def randTo (R : K → Option K) (hi u : Fl K) : Fl K := hi.mul R u

/-- `rand<float>(lo, hi)` and `rand<double>(lo, hi)`, geomc/random/Random.cpp:287-294, with infinities and NaN. -/
def randIn (R : K → Option K) (lo hi u : Fl K) : Fl K := ((hi.sub R lo).mul R u).add R lo

end Geomc.Ieee
