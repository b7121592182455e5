import Verif.Basis.Model
import Mathlib.Data.List.Range

/-!
# Model of `geomc/function/SphericalHarmonics.h`

Coefficient values are in a field; the library functions `sqrt`, `cos`, `sin`, `pow(_, m/2.0)` and the
constant π are parameters.  Reading or writing outside the coefficient array is `none`.  `std::clamp`-like
narrowing of band counts in the fixed-size template case is not modelled: band counts are run-time values.
-/

namespace Geomc.SH

/-- Library functions used by the code. -/
structure Fns (K : Type) where
  sqrt : K → K
  cos : K → K
  sin : K → K
  /-- `halfPow m y` is `pow(y, m / 2.0)`. -/
  halfPow : ℕ → K → K
  pi : K

/-- A `SphericalHarmonics`, geomc/function/SphericalHarmonics.h:151-157. -/
structure SH (K : Type) where
  bands : ℕ
  c : ℤ → K

variable {K : Type}

/-- `size()`, SphericalHarmonics.h:258-261. -/
def SH.size (s : SH K) : ℕ := s.bands * s.bands

/-- Bounds-checked `coeffs[i]`. -/
def SH.get (s : SH K) (i : ℤ) : Option K := if 0 ≤ i ∧ i < s.size then some (s.c i) else none

/-- Bounds-checked `coeffs[i] = v`. -/
def SH.put (s : SH K) (i : ℤ) (v : K) : Option (SH K) :=
  if 0 ≤ i ∧ i < s.size then some { s with c := Function.update s.c i v } else none

/-- The position of coefficient `(l, m)`, SphericalHarmonics.h:227-239. -/
def idx (l m : ℤ) : ℤ := l * l + l + m

/-- `coeff(l, m)`. -/
def SH.coeff (s : SH K) (l m : ℤ) : Option K := s.get (idx l m)

variable [Field K]

/-- Constructor with a band count: allocates and clears, SphericalHarmonics.h:175-178. -/
def SH.new (bands : ℕ) : SH K := ⟨bands, fun _ => 0⟩

/-- `dot`, SphericalHarmonics.h:274-281. -/
def SH.dot (s o : SH K) : Option K :=
  (List.range (min s.size o.size)).foldlM (fun (sum : K) (i : ℕ) => do
    let a ← s.get i
    let b ← o.get i
    some (sum + a * b)) 0

/-- `normalize`, SphericalHarmonics.h:287-293: the loop starts at 1. -/
def SH.normalize [DecidableEq K] (s : SH K) : Option (SH K) := do
  let nh ← s.get 0
  if nh = 0 then some s
  else (List.range' 1 (s.size - 1)).foldlM (fun (t : SH K) (i : ℕ) => do
    let a ← t.get i
    t.put i (a / nh)) s

/-- `operator*=(T)`, SphericalHarmonics.h:511-516. -/
def SH.scale (s : SH K) (k : K) : Option (SH K) :=
  (List.range s.size).foldlM (fun (t : SH K) (i : ℕ) => do
    let a ← t.get i
    t.put i (a * k)) s

/-- `operator+=(SphericalHarmonics)`, SphericalHarmonics.h:541-547. -/
def SH.addAssign (s o : SH K) : Option (SH K) :=
  (List.range (min o.size s.size)).foldlM (fun (t : SH K) (i : ℕ) => do
    let a ← t.get i
    let b ← o.get i
    t.put i (a + b)) s

/-- The loop `for (i = l - m + 1; i <= l + m; i++) z *= i`, SphericalHarmonics.h:124-125, 356-357. -/
def zprod (l m : ℕ) : K :=
  if l ≠ 0 then (List.range (2 * m)).foldl (fun (z : K) (k : ℕ) => z * ((((l : ℤ) - m + 1 + k : ℤ)) : K)) 1
  else 1

/-- The normalisation `k` as written in `_eval` and `_project`, SphericalHarmonics.h:360, 412. -/
def knorm (F : Fns K) (l m : ℕ) : K := F.sqrt (1 / zprod l m * (2 * (l : K) + 1) / (4 * F.pi))

/-- `spherical_harmonic_coeff(l, m, cos_alt, azi)`, SphericalHarmonics.h:111-136. -/
def shCoeff (F : Fns K) (l : ℕ) (m : ℤ) (x azi : K) : K :=
  let ma := m.natAbs
  let P := Basis.assocLegendre F.halfPow l ma x
  let k := F.sqrt (1 / zprod l ma * ((2 * (l : K) + 1) / (4 * F.pi)))
  if m > 0 then F.sqrt 2 * k * F.cos ((m : K) * azi) * P
  else if m < 0 then F.sqrt 2 * k * F.sin (-(m : K) * azi) * P
  else k * Basis.assocLegendre F.halfPow l 0 x

/-- One pass of the inner loop: the value `P_lm` and the new `(pmm0, pmm1)`,
SphericalHarmonics.h:330-351, 385-404. -/
def plm (F : Fns K) (x : K) (m li : ℕ) (st : K × K) : K × (K × K) :=
  if li = m then
    let p := if m > 0 then Basis.dfact st.1 m * F.halfPow m (1 - x * x) else st.1
    (p, (p, st.2))
  else if li = m + 1 then
    let q := x * (2 * (m : K) + 1) * st.1
    (q, (st.1, q))
  else
    let q := (x * (2 * (li : K) - 1) * st.2 - ((li : K) + m - 1) * st.1) / ((li : K) - m)
    (q, (st.2, q))

/-- Body of the inner loop of `_eval`, SphericalHarmonics.h:329-368. -/
def evalBody (F : Fns K) (s : SH K) (x azi : K) (m : ℕ) (acc : K × (K × K)) (li : ℕ) :
    Option (K × (K × K)) := do
  let r := plm F x m li acc.2
  let k := knorm F li m
  if m ≠ 0 then
    let a ← s.coeff li m
    let b ← s.coeff li (-(m : ℤ))
    some (acc.1 + r.1 * F.sqrt 2 * k * F.cos (m * azi) * a + r.1 * F.sqrt 2 * k * F.sin (m * azi) * b, r.2)
  else
    let a ← s.coeff li 0
    some (acc.1 + r.1 * k * a, r.2)

/-- `_eval(cos_alt, azi)`, SphericalHarmonics.h:317-371. -/
def SH.eval (F : Fns K) (s : SH K) (x azi : K) : Option K :=
  (List.range s.bands).foldlM (fun (sum : K) (m : ℕ) => do
    let r ← (List.range' m (s.bands - m)).foldlM (evalBody F s x azi m) (sum, (1, 1))
    some r.1) 0

/-- Body of the inner loop of `_project`, SphericalHarmonics.h:383-420. -/
def projBody (F : Fns K) (x azi val : K) (m : ℕ) (acc : SH K × (K × K)) (li : ℕ) :
    Option (SH K × (K × K)) := do
  let r := plm F x m li acc.2
  let k := knorm F li m
  if m ≠ 0 then
    let a ← acc.1.coeff li m
    let t ← acc.1.put (idx li m) (a + r.1 * F.sqrt 2 * k * F.cos (m * azi) * val)
    let b ← t.coeff li (-(m : ℤ))
    let t ← t.put (idx li (-(m : ℤ))) (b + r.1 * F.sqrt 2 * k * F.sin (m * azi) * val)
    some (t, r.2)
  else
    let a ← acc.1.coeff li 0
    let t ← acc.1.put (idx li 0) (a + r.1 * k * val)
    some (t, r.2)

/-- `_project(cos_alt, azi, val)`, SphericalHarmonics.h:374-423. -/
def SH.project (F : Fns K) (s : SH K) (x azi val : K) : Option (SH K) :=
  (List.range s.bands).foldlM (fun (t : SH K) (m : ℕ) => do
    let r ← (List.range' m (s.bands - m)).foldlM (projBody F x azi val m) (t, (1, 1))
    some r.1) s

/-- `basis(d, n)` in terms of `cos_alt` and `azi`, SphericalHarmonics.h:565-570. -/
def SH.basis (F : Fns K) (n : ℕ) (x azi : K) : Option (SH K) := (SH.new n).project F x azi 1

/-- A `ZonalHarmonics`, SphericalHarmonics.h:586-591; at least one band is stored (598, 609). -/
structure ZH (K : Type) where
  bands : ℕ
  c : ℕ → K

/-- Bounds-checked `coeffs[i]`. -/
def ZH.get (z : ZH K) (i : ℕ) : Option K := if i < z.bands then some (z.c i) else none

/-- Bounds-checked `coeffs[i] = v`. -/
def ZH.put (z : ZH K) (i : ℕ) (v : K) : Option (ZH K) :=
  if i < z.bands then some { z with c := Function.update z.c i v } else none

/-- `dot`, SphericalHarmonics.h:660-668: `n` is computed and not used. -/
def ZH.dot (z o : ZH K) : Option K :=
  (List.range z.bands).foldlM (fun (sum : K) (i : ℕ) => do
    let a ← z.get i
    let b ← o.get i
    some (sum + a * b)) 0

/-- `eval`, SphericalHarmonics.h:737-751; the loop variables are `(sum, p_0, p_1)`. -/
def ZH.eval (z : ZH K) (x : K) : Option K := do
  let c0 ← z.get 0
  let sum ← if z.bands > 1 then do let c1 ← z.get 1; some (c0 + c1 * x) else some c0
  let r ← (List.range' 1 (z.bands - 2)).foldlM (fun (st : K × K × K) (i : ℕ) => do
      let p := ((2 * (i : K) + 1) * x * st.2.2 - (i : K) * st.2.1) / ((i : K) + 1)
      let a ← z.get (i + 1)
      some (st.1 + a * p, st.2.2, p)) (sum, 1, x)
  some r.1

/-- `generate_spot`, SphericalHarmonics.h:713-730; the loop variables are `(coeffs, p_0, p_1)`.
`clampUnit` is `min(1, max(-1, ·))`. -/
def ZH.spot (clampUnit : K → K) (z : ZH K) (cosAngle : K) : Option (ZH K) := do
  let x := clampUnit cosAngle
  let z ← z.put 0 ((2 - x - 1) / 2)
  let r ← (List.range' 1 (z.bands - 1)).foldlM (fun (st : ZH K × K × K) (i : ℕ) => do
      let k := (2 * (i : K) + 1) / 2
      let p := ((2 * (i : K) + 1) * x * st.2.2 - (i : K) * st.2.1) / ((i : K) + 1)
      let t ← st.1.put i (-k * (p - st.2.1) / (2 * (i : K) + 1))
      some (t, st.2.2, p)) (z, 1, x)
  some r.1

/-- `project`, SphericalHarmonics.h:759-771; the loop variables are `(coeffs, p_0, p_1)`. -/
def ZH.project (z : ZH K) (x val : K) : Option (ZH K) := do
  let z ← z.put 0 val
  let z ← if z.bands > 1 then z.put 1 (x * val) else some z
  let r ← (List.range' 1 (z.bands - 1)).foldlM (fun (st : ZH K × K × K) (i : ℕ) => do
      let p := (2 * (i : K) + 1) * x * st.2.2 - (i : K) * st.2.1 / ((i : K) + 1)
      let t ← st.1.put i (val * p)
      some (t, st.2.2, p)) (z, 1, x)
  some r.1

/-- `SphericalHarmonics(zh)`, SphericalHarmonics.h:184-198. -/
def SH.ofZH (F : Fns K) (z : ZH K) : Option (SH K) :=
  (List.range z.bands).foldlM (fun (s : SH K) (l : ℕ) => do
    let p ← z.get l
    s.put (idx l 0) (p * F.sqrt (4 * F.pi / (2 * (l : K) + 1)))) (SH.new z.bands)

/-- `ZonalHarmonics(sh)`, SphericalHarmonics.h:618-625. -/
def ZH.ofSH (F : Fns K) (s : SH K) : Option (ZH K) :=
  (List.range s.bands).foldlM (fun (z : ZH K) (l : ℕ) => do
    let a ← s.coeff l 0
    z.put l (a * F.sqrt ((2 * (l : K) - 1) / (4 * F.pi)))) ⟨s.bands, fun _ => 0⟩

/-- `convolve(zh)`, SphericalHarmonics.h:301-310, on coefficient `(l, m)`; the loops visit each
`0 ≤ l < bands`, `-l ≤ m ≤ l`. -/
def SH.convolve (s : SH K) (z : ZH K) : Option (SH K) :=
  (List.range s.bands).foldlM (fun (t : SH K) (l : ℕ) =>
    (List.range (2 * l + 1)).foldlM (fun (t : SH K) (j : ℕ) => do
      let m : ℤ := (j : ℤ) - l
      if l < z.bands then
        let a ← t.coeff l m
        let b ← z.get l
        t.put (idx l m) (a * b)
      else t.put (idx l m) 0) t) s

end Geomc.SH
