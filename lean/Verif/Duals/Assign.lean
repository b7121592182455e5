import Verif.Duals.AssignModel
import Verif.Duals.Props

/-! # Property C101: compound assignment of dual numbers -/

namespace Geomc.Duals

/-- What a statement means for the functions the variables stand for. -/
noncomputable def meaning (F : ℕ → ℝ → ℝ) : Stmt ℝ → ℕ → ℝ → ℝ
  | .add i j => Function.update F i fun t => F i t + F j t
  | .sub i j => Function.update F i fun t => F i t - F j t
  | .mul i j => Function.update F i fun t => F i t * F j t
  | .div i j => Function.update F i fun t => F i t / F j t
  | .addS i s => Function.update F i fun t => F i t + s
  | .subS i s => Function.update F i fun t => F i t - s
  | .divS i s => Function.update F i fun t => F i t / s

/-- The objects multiplied or divided are distinct, and no divisor is zero at `t`. -/
def Safe (F : ℕ → ℝ → ℝ) (t : ℝ) : Stmt ℝ → Prop
  | .mul i j => i ≠ j
  | .div i j => i ≠ j ∧ F j t ≠ 0
  | _ => True

/-- The same for every statement of a program, at the time it is executed. -/
def SafeAll (t : ℝ) : (ℕ → ℝ → ℝ) → List (Stmt ℝ) → Prop
  | _, [] => True
  | F, s :: p => Safe F t s ∧ SafeAll t (meaning F s) p

theorem tracks_update {F : ℕ → ℝ → ℝ} {t : ℝ} {env : ℕ → Dual ℝ} (h : ∀ k, Tracks (F k) t (env k)) {i : ℕ}
    {f : ℝ → ℝ} {d : Dual ℝ} (hd : Tracks f t d) (k : ℕ) :
    Tracks (Function.update F i f k) t (Function.update env i d k) := by
  by_cases e : k = i
  · subst e; simpa using hd
  · simpa [Function.update_of_ne e] using h k

theorem exec_add {K : Type} [Field K] (env : ℕ → Dual K) (i j : ℕ) :
    exec env (.add i j) = Function.update env i (add (env i) (env j)) := by
  funext k
  by_cases e : k = i
  · subst e
    by_cases f : j = k
    · subst f; simp [exec, putX, putD, add]
    · simp [exec, putX, putD, add, Function.update_of_ne f]
  · simp [exec, putX, putD, Function.update_of_ne e]

theorem exec_sub {K : Type} [Field K] (env : ℕ → Dual K) (i j : ℕ) :
    exec env (.sub i j) = Function.update env i (sub (env i) (env j)) := by
  funext k
  by_cases e : k = i
  · subst e
    by_cases f : j = k
    · subst f; simp [exec, putX, putD, sub]
    · simp [exec, putX, putD, sub, Function.update_of_ne f]
  · simp [exec, putX, putD, Function.update_of_ne e]

theorem exec_mul {K : Type} [Field K] (env : ℕ → Dual K) {i j : ℕ} (h : i ≠ j) :
    exec env (.mul i j) = Function.update env i (mulAssign (env i) (env j)) := by
  funext k
  by_cases e : k = i
  · subst e
    simp [exec, putX, putD, mulAssign, Function.update_of_ne h.symm]
  · simp [exec, putX, putD, Function.update_of_ne e]

theorem exec_div {K : Type} [Field K] (env : ℕ → Dual K) {i j : ℕ} (h : i ≠ j) :
    exec env (.div i j) = Function.update env i (divAssign (env i) (env j)) := by
  funext k
  by_cases e : k = i
  · subst e
    simp [exec, putX, putD, divAssign, Function.update_of_ne h.symm]
  · simp [exec, putX, putD, Function.update_of_ne e]

theorem exec_addS {K : Type} [Field K] (env : ℕ → Dual K) (i : ℕ) (s : K) :
    exec env (.addS i s) = Function.update env i (addS (env i) s) := rfl

theorem exec_subS {K : Type} [Field K] (env : ℕ → Dual K) (i : ℕ) (s : K) :
    exec env (.subS i s) = Function.update env i (subS (env i) s) := rfl

theorem exec_divS {K : Type} [Field K] (env : ℕ → Dual K) (i : ℕ) (s : K) :
    exec env (.divS i s) = Function.update env i (divS (env i) s) := by
  funext k
  by_cases e : k = i
  · subst e; simp [exec, putX, putD, divS]
  · simp [exec, putX, putD, Function.update_of_ne e]

theorem step_tracks {F : ℕ → ℝ → ℝ} {t : ℝ} {env : ℕ → Dual ℝ} (h : ∀ k, Tracks (F k) t (env k)) (s : Stmt ℝ)
    (hs : Safe F t s) (k : ℕ) : Tracks (meaning F s k) t (exec env s k) := by
  cases s with
  | add i j => rw [exec_add]; exact tracks_update h (C61_arithmetic (h i) (h j) 0).1 k
  | sub i j => rw [exec_sub]; exact tracks_update h (C61_arithmetic (h i) (h j) 0).2.1 k
  | mul i j => rw [exec_mul env hs]; exact tracks_update h (C61_arithmetic (h i) (h j) 0).2.2.2.1 k
  | div i j => rw [exec_div env hs.1]; exact tracks_update h (C61_division (h i) (h j) hs.2 0).2.1 k
  | addS i s => rw [exec_addS]; exact tracks_update h (C61_arithmetic (h i) (h i) s).2.2.2.2.2.1 k
  | subS i s => rw [exec_subS]; exact tracks_update h (C61_arithmetic (h i) (h i) s).2.2.2.2.2.2.2.1 k
  | divS i s =>
    rw [exec_divS]; exact tracks_update h (C61_arithmetic (h i) (h i) s).2.2.2.2.2.2.2.2.2.2.1 k

/-- **C101, part.** After any sequence of compound assignments every variable holds the value and the derivative of the
function the sequence computes, provided no variable is multiplied or divided by itself and no divisor is zero. -/
theorem C101_program_partial (p : List (Stmt ℝ)) {F : ℕ → ℝ → ℝ} {t : ℝ} {env : ℕ → Dual ℝ}
    (h : ∀ k, Tracks (F k) t (env k)) (hp : SafeAll t F p) (k : ℕ) :
    Tracks (p.foldl meaning F k) t (execAll env p k) := by
  induction p generalizing F env with
  | nil => exact h k
  | cons s p ih => exact ih (fun k => step_tracks h s hp.1 k) hp.2

/-- **C101 refuted for `x *= x`.** The derivative is right only where it is zero or the value is `0` or `1`. -/
theorem C101_square_refuted {F : ℕ → ℝ → ℝ} {t : ℝ} {env : ℕ → Dual ℝ} (h : ∀ k, Tracks (F k) t (env k)) (i : ℕ) :
    Tracks (fun t => F i t * F i t) t (exec env (.mul i i) i) ↔ (env i).dx = 0 ∨ F i t = 0 ∨ F i t = 1 := by
  have ex : (exec env (.mul i i) i).x = F i t * F i t := by simp [exec, putX, putD, (h i).1]
  have ed : (exec env (.mul i i) i).dx = F i t * (env i).dx + F i t * F i t * (env i).dx := by
    simp [exec, putX, putD, (h i).1, sumOfProducts_eq]
  have hd := (h i).2.mul (h i).2
  constructor
  · intro ⟨_, k⟩
    have e := k.unique hd
    rw [ed] at e
    have : (env i).dx * (F i t * (F i t - 1)) = 0 := by linarith
    rcases mul_eq_zero.mp this with h | h
    · exact .inl h
    · rcases mul_eq_zero.mp h with h | h
      · exact .inr (.inl h)
      · exact .inr (.inr (by linarith))
  · intro k
    refine ⟨ex, ?_⟩
    rw [ed]
    have e : F i t * (env i).dx + F i t * F i t * (env i).dx = (env i).dx * F i t + F i t * (env i).dx := by
      rcases k with k | k | k <;> rw [k] <;> ring
    rw [e]; exact hd

/-- **C101 refuted for `x /= x`.** The quotient is the constant `1`; its derivative is reported as zero only where that of
the operand is, or where the operand is `1`. -/
theorem C101_quotient_refuted {F : ℕ → ℝ → ℝ} {t : ℝ} {env : ℕ → Dual ℝ} (h : ∀ k, Tracks (F k) t (env k)) (i : ℕ)
    (h0 : F i t ≠ 0) :
    Tracks (fun t => F i t / F i t) t (exec env (.div i i) i) ↔ (env i).dx = 0 ∨ F i t = 1 := by
  have ex : (exec env (.div i i) i).x = F i t / F i t := by simp [exec, putX, putD, (h i).1]
  have ed : (exec env (.div i i) i).dx = (env i).dx * (1 - F i t) := by
    simp [exec, putX, putD, (h i).1, diffOfProducts_eq, div_self h0]; ring
  have hd := (h i).2.div (h i).2 h0
  have z : ((env i).dx * F i t - F i t * (env i).dx) / F i t ^ 2 = 0 := by
    rw [mul_comm, sub_self, zero_div]
  rw [z] at hd
  constructor
  · intro ⟨_, k⟩
    have e := k.unique hd
    rw [ed] at e
    rcases mul_eq_zero.mp e with h | h
    · exact .inl h
    · exact .inr (by linarith)
  · intro k
    refine ⟨ex, ?_⟩
    rw [ed]
    have e : (env i).dx * (1 - F i t) = 0 := by
      rcases k with k | k <;> rw [k] <;> ring
    rw [e]; exact hd

/-- **C101.** A sum or difference of a variable with itself is right as it is. -/
theorem C101_self {F : ℕ → ℝ → ℝ} {t : ℝ} {env : ℕ → Dual ℝ} (h : ∀ k, Tracks (F k) t (env k)) (i : ℕ) :
    Tracks (fun t => 2 * F i t) t (exec env (.add i i) i) ∧ Tracks (fun _ => 0) t (exec env (.sub i i) i) := by
  have a := step_tracks h (.add i i) trivial i
  have b := step_tracks h (.sub i i) trivial i
  simp only [meaning, Function.update_self] at a b
  constructor
  · simpa [two_mul] using a
  · simpa using b

/-- **C101.** Only the variable on the left changes. -/
theorem C101_frame {K : Type} [Field K] (env : ℕ → Dual K) (s : Stmt K) (k : ℕ) (hk : match s with
      | .add i _ | .sub i _ | .mul i _ | .div i _ | .addS i _ | .subS i _ | .divS i _ => k ≠ i) :
    exec env s k = env k := by
  cases s <;> simp_all [exec, putX, putD]

/-- `y *= x` at `x = 3`, `y = x`: the derivative is 6, as it should be for the square. -/
example : exec (fun _ => (⟨3, 1⟩ : Dual ℚ)) (.mul 0 1) 0 = ⟨9, 6⟩ := by decide +kernel
/-- `x *= x` at `x = 3`: the derivative is reported as 12. -/
example : exec (fun _ => (⟨3, 1⟩ : Dual ℚ)) (.mul 0 0) 0 = ⟨9, 12⟩ := by decide +kernel
/-- `x /= x` at `x = 3`: the derivative is reported as -2. -/
example : exec (fun _ => (⟨3, 1⟩ : Dual ℚ)) (.div 0 0) 0 = ⟨1, -2⟩ := by decide +kernel
/-- A safe program: `y += x; y *= x; y -= 1`. -/
example (F : ℕ → ℝ → ℝ) (t : ℝ) : SafeAll t F [.add 1 0, .mul 1 0, .subS 1 1] := by simp [SafeAll, Safe]

end Geomc.Duals
