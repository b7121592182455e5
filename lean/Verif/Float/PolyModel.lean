import Verif.Float.VecModel

/-! # Model of the Legendre and Chebyshev polynomials in floating point

Every operation is the exact result rounded by `rnd`, as in `Verif.Float.Model`; an integer that meets a floating-point number is
converted to one first, which is also rounded.  The loop counters are exact. -/

namespace Geomc.Flt

variable {K : Type} [Field K]

/-- One pass of the loop of `legendre`: `((2 * i + 1) * x * p_1 - i * p_0) / ((T)i + 1)`, geomc/function/Basis.h:97. -/
def legendreNext (rnd : K → K) (x : K) (i : ℕ) (p0 p1 : K) : K :=
  rnd (rnd (rnd (rnd (rnd ((2 * i + 1 : ℕ) : K) * x) * p1) - rnd (rnd (i : K) * p0)) / rnd (rnd (i : K) + 1))

/-- The loop variables `(p_0, p_1)` after `k` passes, geomc/function/Basis.h:93-100 (also 115-122); `p_i` is `p_1`. -/
def legendreLoopF (rnd : K → K) (x : K) : ℕ → K × K
  | 0 => (1, x)
  | k + 1 =>
    let s := legendreLoopF rnd x k
    (s.2, legendreNext rnd x (k + 1) s.1 s.2)

/-- `legendre(n, x)`, geomc/function/Basis.h:91-102. -/
def legendreF (rnd : K → K) (n : ℤ) (x : K) : K := if n ≤ 0 then 1 else (legendreLoopF rnd x (n.toNat - 1)).2

/-- `legendre_integral(n, x)`, geomc/function/Basis.h:113-125. -/
def legendreIntegralF (rnd : K → K) (n : ℤ) (x : K) : K :=
  if n ≤ 0 then rnd (x + 1)
  else
    let s := legendreLoopF rnd x (n.toNat - 1)
    rnd (rnd (legendreNext rnd x n.toNat s.1 s.2 - s.1) / rnd ((2 * n.toNat + 1 : ℕ) : K))

/-- The loop variables `(t_0, t_1)` of `chebyshev`, geomc/function/Basis.h:138-145; `t_i` is `t_1`. -/
def chebyshevLoopF (rnd : K → K) (t1 x : K) : ℕ → K × K
  | 0 => (1, t1)
  | k + 1 =>
    let s := chebyshevLoopF rnd t1 x k
    (s.2, rnd (rnd (rnd (2 * x) * s.2) - s.1))

/-- `chebyshev(kind, n, x)`, geomc/function/Basis.h:136-147. -/
def chebyshevF (rnd : K → K) (kind n : ℤ) (x : K) : K :=
  if n ≤ 0 then 1 else (chebyshevLoopF rnd (rnd (rnd (kind : K) * x)) x (n.toNat - 1)).2

end Geomc.Flt
