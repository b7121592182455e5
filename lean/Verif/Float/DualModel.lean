import Verif.Float.Model
import Verif.Duals.Model

/-! # Model of dual numbers in floating point

geomc/function/functiondetail/DualFunctions.h, and the dual overloads of geomc/function/functiondetail/UtilDetail.h.  Every operation
is the exact result rounded by `rnd`. -/

namespace Geomc.Flt

open Geomc.Duals (Dual)

variable {K : Type} [Field K]

/-- `Dual * Dual`, DualFunctions.h:21-26. -/
def dualMul (rnd : K → K) (a b : Dual K) : Dual K := ⟨rnd (a.x * b.x), sumOfProducts rnd a.x b.dx a.dx b.x⟩
/-- `Dual * scalar`, DualFunctions.h:33-35. -/
def dualMulS (rnd : K → K) (d : Dual K) (s : K) : Dual K := ⟨rnd (d.x * s), rnd (d.dx * s)⟩
/-- `scalar * Dual`, DualFunctions.h:42-44. -/
def dualSMul (rnd : K → K) (s : K) (d : Dual K) : Dual K := ⟨rnd (s * d.x), rnd (s * d.dx)⟩
/-- `Dual / Dual`, DualFunctions.h:75-80.  Not defined where a zero is divided by. -/
def dualDiv [DecidableEq K] (rnd : K → K) (a b : Dual K) : Option (Dual K) :=
  if b.x = 0 then none else some ⟨rnd (a.x / b.x), rnd (diffOfProducts rnd a.dx b.x a.x b.dx / rnd (b.x * b.x))⟩
/-- `Dual / scalar`, DualFunctions.h:87-92. -/
def dualDivS (rnd : K → K) (d : Dual K) (s : K) : Dual K := ⟨rnd (d.x / s), rnd (d.dx / s)⟩
/-- `scalar / Dual`, DualFunctions.h:99-104. -/
def dualSDiv [DecidableEq K] (rnd : K → K) (s : K) (d : Dual K) : Option (Dual K) :=
  if d.x = 0 then none else some ⟨rnd (s / d.x), rnd (rnd (-s * d.dx) / rnd (d.x * d.x))⟩
/-- `Dual + Dual`, DualFunctions.h:137-142. -/
def dualAdd (rnd : K → K) (a b : Dual K) : Dual K := ⟨rnd (a.x + b.x), rnd (a.dx + b.dx)⟩
/-- `Dual + scalar` and `scalar + Dual`, DualFunctions.h:149-166. -/
def dualAddS (rnd : K → K) (d : Dual K) (s : K) : Dual K := ⟨rnd (d.x + s), d.dx⟩
def dualSAdd (rnd : K → K) (s : K) (d : Dual K) : Dual K := ⟨rnd (s + d.x), d.dx⟩
/-- `Dual - Dual`, DualFunctions.h:170-175. -/
def dualSub (rnd : K → K) (a b : Dual K) : Dual K := ⟨rnd (a.x - b.x), rnd (a.dx - b.dx)⟩
/-- `Dual - scalar`, DualFunctions.h:182-187. -/
def dualSubS (rnd : K → K) (d : Dual K) (s : K) : Dual K := ⟨rnd (d.x - s), d.dx⟩
/-- `multiply_add` for duals and `std::fma`, UtilDetail.h:119-124, DualFunctions.h:556-562. -/
def dualFma (rnd : K → K) (a b c : Dual K) : Dual K :=
  ⟨multiplyAdd rnd a.x b.x c.x, rnd (sumOfProducts rnd a.x b.dx a.dx b.x + c.dx)⟩
/-- `sum_of_products` for duals, UtilDetail.h:106-117. -/
def dualSum (rnd : K → K) (a b c d : Dual K) : Dual K :=
  let dp := sumOfProducts rnd a.x b.dx a.dx b.x
  let dq := sumOfProducts rnd c.x d.dx c.dx d.x
  ⟨sumOfProducts rnd a.x b.x c.x d.x, rnd (dp + dq)⟩

/-- A formula in one variable, as written in a function template that is called with a float or with a dual. -/
inductive Formula (K : Type) where
  | var
  | con (c : K)
  | add (f g : Formula K)
  | sub (f g : Formula K)
  | mul (f g : Formula K)
  | neg (f : Formula K)
  | fma (f g h : Formula K)
  | sum (f g h k : Formula K)
  | addS (f : Formula K) (s : K)
  | sadd (s : K) (f : Formula K)
  | subS (f : Formula K) (s : K)
  | mulS (f : Formula K) (s : K)
  | smul (s : K) (f : Formula K)
  | divS (f : Formula K) (s : K)

/-- The formula called with a float: the built-in operators, and the functions of UtilDetail.h:79-88. -/
def Formula.run (rnd : K → K) (x : K) : Formula K → K
  | .var => x
  | .con c => c
  | .add f g => rnd (f.run rnd x + g.run rnd x)
  | .sub f g => rnd (f.run rnd x - g.run rnd x)
  | .mul f g => rnd (f.run rnd x * g.run rnd x)
  | .neg f => -f.run rnd x
  | .fma f g h => multiplyAdd rnd (f.run rnd x) (g.run rnd x) (h.run rnd x)
  | .sum f g h k => sumOfProducts rnd (f.run rnd x) (g.run rnd x) (h.run rnd x) (k.run rnd x)
  | .addS f s => rnd (f.run rnd x + s)
  | .sadd s f => rnd (s + f.run rnd x)
  | .subS f s => rnd (f.run rnd x - s)
  | .mulS f s => rnd (f.run rnd x * s)
  | .smul s f => rnd (s * f.run rnd x)
  | .divS f s => rnd (f.run rnd x / s)

/-- The formula called with a dual; a constant is converted by `Dual(T x)`, DualImpl.h:144, and the unary minus is that of
DualFunctions.h:243-245. -/
def Formula.runD (rnd : K → K) (x : Dual K) : Formula K → Dual K
  | .var => x
  | .con c => Duals.const c
  | .add f g => dualAdd rnd (f.runD rnd x) (g.runD rnd x)
  | .sub f g => dualSub rnd (f.runD rnd x) (g.runD rnd x)
  | .mul f g => dualMul rnd (f.runD rnd x) (g.runD rnd x)
  | .neg f => Duals.neg (f.runD rnd x)
  | .fma f g h => dualFma rnd (f.runD rnd x) (g.runD rnd x) (h.runD rnd x)
  | .sum f g h k => dualSum rnd (f.runD rnd x) (g.runD rnd x) (h.runD rnd x) (k.runD rnd x)
  | .addS f s => dualAddS rnd (f.runD rnd x) s
  | .sadd s f => dualSAdd rnd s (f.runD rnd x)
  | .subS f s => dualSubS rnd (f.runD rnd x) s
  | .mulS f s => dualMulS rnd (f.runD rnd x) s
  | .smul s f => dualSMul rnd s (f.runD rnd x)
  | .divS f s => dualDivS rnd (f.runD rnd x) s

end Geomc.Flt
