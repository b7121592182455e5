import Mathlib.Algebra.Field.Basic
import Mathlib.Data.Nat.Cast.Basic

/-!
# Model of `geomc/function/Basis.h`

Values are in a field.  Each `for` loop is the recursion giving its variables after `k` passes.
`std::pow(1 - x * x, m / 2.0)` is the parameter `halfPow m (1 - x * x)`.
-/

namespace Geomc.Basis

variable {K : Type*} [Field K]

/-- The loop variables `(p_0, p_1, p_i)` of `legendre(n, x)` after `k` passes,
geomc/function/Basis.h:93-100 (also 115-122 in `legendre_integral`). -/
def legendreLoop (x : K) : ℕ → K × K × K
  | 0 => (1, x, x)
  | k + 1 =>
    let s := legendreLoop x k
    let i : K := ((k + 1 : ℕ) : K)
    let p := ((2 * i + 1) * x * s.2.1 - i * s.1) / (i + 1)
    (s.2.1, p, p)

/-- `legendre(n, x)`, geomc/function/Basis.h:91-102. -/
def legendre (n : ℤ) (x : K) : K := if n ≤ 0 then 1 else (legendreLoop x (n.toNat - 1)).2.2

/-- `legendre_integral(n, x)`, geomc/function/Basis.h:113-125. -/
def legendreIntegral (n : ℤ) (x : K) : K :=
  if n ≤ 0 then x + 1
  else
    let s := legendreLoop x (n.toNat - 1)
    let p := ((2 * (n : K) + 1) * x * s.2.1 - (n : K) * s.1) / ((n : K) + 1)
    (p - s.1) / (2 * (n : K) + 1)

/-- Loop variables `(t_0, t_1, t_i)` of `chebyshev`, geomc/function/Basis.h:138-145. -/
def chebyshevLoop (kind x : K) : ℕ → K × K × K
  | 0 => (1, kind * x, kind * x)
  | k + 1 =>
    let s := chebyshevLoop kind x k
    let t := 2 * x * s.2.1 - s.1
    (s.2.1, t, t)

/-- `chebyshev(kind, n, x)`, geomc/function/Basis.h:136-147. -/
def chebyshev (kind : ℤ) (n : ℤ) (x : K) : K :=
  if n ≤ 0 then 1 else (chebyshevLoop (kind : K) x (n.toNat - 1)).2.2

/-- The loop computing the signed double factorial of `2m - 1`, geomc/function/Basis.h:66-68. -/
def dfact (p : K) : ℕ → K
  | 0 => p
  | i + 1 => dfact p i * (-(((i + 1 : ℕ) : K) * 2 - 1))

/-- First value `P(m, m, x)`, geomc/function/Basis.h:62-70. -/
def pmm (halfPow : ℕ → K → K) (m : ℕ) (x : K) : K :=
  if m > 0 then dfact 1 m * halfPow m (1 - x * x) else 1

/-- The pair `(pmm0, pmm1)` after `k` passes of the loop, geomc/function/Basis.h:74-78. -/
def assocLoop (m : ℕ) (x p0 p1 : K) : ℕ → K × K
  | 0 => (p0, p1)
  | k + 1 =>
    let s := assocLoop m x p0 p1 k
    let i : K := ((m + 2 + k : ℕ) : K)
    (s.2, (x * (2 * i - 1) * s.2 - (i + m - 1) * s.1) / (i - m))

/-- `legendre(l, m, x)` for `0 ≤ m`, geomc/function/Basis.h:61-80. -/
def assocLegendre (halfPow : ℕ → K → K) (l m : ℕ) (x : K) : K :=
  let p0 := pmm halfPow m x
  if l = m then p0
  else
    let p1 := x * (2 * (m : K) + 1) * p0
    if l = m + 1 then p1
    else (assocLoop m x p0 p1 (l - (m + 1))).2

end Geomc.Basis
