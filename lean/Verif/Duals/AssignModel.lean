import Verif.Duals.Model

/-!
# Compound assignment of dual numbers

The assignment operators take the right operand by reference, so it may be the object assigned to.  Objects are
numbered, and every store to a field is one update of the environment.
-/

namespace Geomc.Duals

variable {K : Type} [Field K]

/-- A store to the value of object `i`. -/
def putX (env : ℕ → Dual K) (i : ℕ) (v : K) : ℕ → Dual K := Function.update env i { env i with x := v }
/-- A store to the derivative of object `i`. -/
def putD (env : ℕ → Dual K) (i : ℕ) (v : K) : ℕ → Dual K := Function.update env i { env i with dx := v }

/-- One statement on numbered objects. -/
inductive Stmt (K : Type) where
  | add (i j : ℕ)
  | sub (i j : ℕ)
  | mul (i j : ℕ)
  | div (i j : ℕ)
  | addS (i : ℕ) (s : K)
  | subS (i : ℕ) (s : K)
  | divS (i : ℕ) (s : K)

/-- The assignment operators, geomc/function/functiondetail/DualFunctions.h:
`+=` 203-216, `-=` 219-232, `*=` 46-54, `/=` 106-116 and 119-127.  The `*=` with a scalar, 57-65, has a template parameter
that cannot be deduced, and is never selected: the scalar is converted to a dual and `*=` of duals is called. -/
def exec (env : ℕ → Dual K) : Stmt K → (ℕ → Dual K)
  | .add i j =>
    let env := putX env i ((env i).x + (env j).x)
    putD env i ((env i).dx + (env j).dx)
  | .sub i j =>
    let env := putX env i ((env i).x - (env j).x)
    putD env i ((env i).dx - (env j).dx)
  | .mul i j =>
    let xx := (env i).x
    let env := putX env i ((env i).x * (env j).x)
    putD env i (sumOfProducts xx (env j).dx (env j).x (env i).dx)
  | .div i j =>
    let xx := (env i).x
    let env := putX env i ((env i).x / (env j).x)
    putD env i (diffOfProducts (env i).dx (env j).x xx (env j).dx / ((env j).x * (env j).x))
  | .addS i s => putX env i ((env i).x + s)
  | .subS i s => putX env i ((env i).x - s)
  | .divS i s =>
    let env := putX env i ((env i).x / s)
    putD env i ((env i).dx / s)

/-- Statements one after the other. -/
def execAll (env : ℕ → Dual K) (p : List (Stmt K)) : ℕ → Dual K := p.foldl exec env

end Geomc.Duals
