import Verif.SH.Model

/-! # Model of the arithmetic operators of spherical functions

`operator+` (SphericalHarmonics.h:547-553) reads its loop variable before giving it a value and returns
nothing: it is undefined for all arguments and is not modelled. -/

namespace Geomc.SH

variable {K : Type} [Field K]

/-- `operator-()`, geomc/function/SphericalHarmonics.h:495-500: the object itself is negated and returned
by reference. -/
def SH.neg (s : SH K) : Option (SH K) :=
  (List.range s.size).foldlM (fun (t : SH K) (i : ℕ) => do
    let a ← t.get i
    t.put i (-a)) s

/-- `operator/=(T)`, SphericalHarmonics.h:517-522.  Division by zero is `none`. -/
def SH.div [DecidableEq K] (s : SH K) (k : K) : Option (SH K) :=
  (List.range s.size).foldlM (fun (t : SH K) (i : ℕ) => do
    let a ← t.get i
    if k = 0 then none else t.put i (a / k)) s

/-- `operator+=(T)`, SphericalHarmonics.h:528-531. -/
def SH.addConst (s : SH K) (k : K) : Option (SH K) := do
  let a ← s.get 0
  s.put 0 (a + k)

end Geomc.SH
