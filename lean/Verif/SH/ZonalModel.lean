import Verif.SH.Model
import Verif.Vec.Model

/-!
# Model of `geomc/function/SphericalHarmonics.h`, continued

Directions given as vectors, zonal functions about another axis, and the remaining operations of
`ZonalHarmonics`.
-/

namespace Geomc.SH

variable {K : Type} [Field K]

/-- `eval(Vec d)`, geomc/function/SphericalHarmonics.h:435-438.  A zero direction has no unit vector:
`none`. -/
def SH.evalDir [DecidableEq K] (F : Fns K) (atan2 : K → K → K) (s : SH K) (d : Fin 3 → K) : Option K := do
  let d ← Vec.unit F.sqrt d
  s.eval F (d 2) (atan2 (d 1) (d 0))

/-- `eval(alt, azi)`, SphericalHarmonics.h:447-449. -/
def SH.evalAngles (F : Fns K) (s : SH K) (alt azi : K) : Option K := s.eval F (F.cos alt) azi

/-- `project(Vec d, val)`, SphericalHarmonics.h:464-467. -/
def SH.projectDir [DecidableEq K] (F : Fns K) (atan2 : K → K → K) (s : SH K) (d : Fin 3 → K) (val : K) :
    Option (SH K) := do
  let d ← Vec.unit F.sqrt d
  s.project F (d 2) (atan2 (d 1) (d 0)) val

/-- The scaling loop of the constructor from a zonal function and an axis, SphericalHarmonics.h:215-219. -/
def SH.scaleBands (F : Fns K) (s : SH K) (z : ZH K) : Option (SH K) :=
  (List.range s.bands).foldlM (fun (t : SH K) (l : ℕ) =>
    (List.range (2 * l + 1)).foldlM (fun (t : SH K) (j : ℕ) => do
      let m : ℤ := (j : ℤ) - l
      let a ← t.coeff l m
      let b ← z.get l
      t.put (idx l m) (a * (b * F.sqrt (4 * F.pi / (2 * (l : K) + 1))))) t) s

/-- `SphericalHarmonics(zh, new_axis)`, SphericalHarmonics.h:206-220.  `bands` is the number of bands of the
new object: `zh.bands()` when the size is dynamic, the template argument when it is fixed (line 211 computes
the smaller of the two, but `Dimension<Bands>::set` ignores it and `bands()` returns the template argument). -/
def SH.ofAxis [DecidableEq K] (F : Fns K) (atan2 : K → K → K) (bands : ℕ) (z : ZH K) (axis : Fin 3 → K) :
    Option (SH K) := do
  let s ← (SH.new bands : SH K).projectDir F atan2 axis 1
  s.scaleBands F z

/-- The loops `fac_num *= i + n/2` and `fac_den *= i`, SphericalHarmonics.h:691-696. -/
def lambertFacs (n : ℕ) : K × K :=
  (List.range' 1 (n / 2)).foldl (fun (f : K × K) (i : ℕ) => (f.1 * ((i + n / 2 : ℕ) : K), f.2 * (i : K))) (1, 1)

/-- The value stored in band `n` by `generate_lambertian`, SphericalHarmonics.h:690-701; `fac` (line 690) is
not used.  `n & 2` is bit 1 of `n`. -/
def lambertCoeff (n : ℕ) : K :=
  let k := (2 * (n : K) + 1) / 2
  let a := k / (((n : K) + 2) * ((n : K) - 1))
  let a := a * ((2 ^ n)⁻¹ * (lambertFacs n).1 / (lambertFacs n).2)
  if n.testBit 1 then a else a * (-1)

/-- `generate_lambertian(order)`, SphericalHarmonics.h:678-704; the loop visits `n = 2, 4, … < ct`. -/
def ZH.lambertian (z : ZH K) (order : ℤ) : Option (ZH K) := do
  let ct : ℕ := if order < 1 then z.bands else (min order z.bands).toNat
  let z : ZH K := { z with c := fun _ => 0 }
  let z ← z.put 0 (1 / 4)
  if z.bands > 1 then
    let z ← z.put 1 (1 / 2)
    (List.range ((ct - 1) / 2)).foldlM (fun (t : ZH K) (k : ℕ) => t.put (2 * k + 2) (lambertCoeff (2 * k + 2))) z
  else some z

/-- The factor `k`, SphericalHarmonics.h:779, 797. -/
def kfac (F : Fns K) (l : ℕ) : K := F.sqrt (F.pi * 4 / (2 * (l : K) + 1))

/-- `convolve(kernel)` of a zonal function, SphericalHarmonics.h:777-782. -/
def ZH.convolve (F : Fns K) (z w : ZH K) : Option (ZH K) :=
  (List.range z.bands).foldlM (fun (t : ZH K) (l : ℕ) => do
    let a ← t.get l
    let b ← w.get l
    t.put l (a * (kfac F l * b))) z

/-- `diffuse(t)`, SphericalHarmonics.h:792-803; `cpow` is `detail::cpow` (lines 20-23). -/
def ZH.diffuse (F : Fns K) (cpow : K → K → K) (z : ZH K) (t : K) : Option (ZH K) :=
  (List.range z.bands).foldlM (fun (w : ZH K) (l : ℕ) => do
    let a ← w.get l
    w.put l (cpow (kfac F l * a) t / kfac F l)) z

/-- `normalize()` of a zonal function, SphericalHarmonics.h:821-830. -/
def ZH.normalize [DecidableEq K] (F : Fns K) (z : ZH K) : Option (ZH K) := do
  let k := F.sqrt (4 * F.pi / 3)
  let a ← z.get 1
  let nh := a * k
  if nh = 0 then some z
  else
    let z ← z.put 1 (1 / k)
    (List.range z.bands).foldlM (fun (t : ZH K) (i : ℕ) =>
      if i = 1 then some t
      else do
        let a ← t.get i
        t.put i (a / nh)) z

end Geomc.SH
