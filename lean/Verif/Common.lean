import Mathlib.Data.List.Range
import Mathlib.Logic.Function.Basic

/-! Shared helpers: loop invariants for monadic folds in `Option` (`none` = undefined behaviour). -/

namespace Geomc

/-- Loop invariant rule for `for (i = 0; i < n; ++i)` modelled as a monadic fold over `range n`. -/
theorem foldlM_range_inv {σ : Type*} (f : σ → ℕ → Option σ) (P : ℕ → σ → Prop) (n : ℕ) (s0 : σ)
    (h0 : P 0 s0) (hs : ∀ i, i < n → ∀ s, P i s → ∃ s', f s i = some s' ∧ P (i + 1) s') :
    ∃ s, (List.range n).foldlM f s0 = some s ∧ P n s := by
  induction n with
  | zero => exact ⟨s0, rfl, h0⟩
  | succ n ih =>
    obtain ⟨s, h1, h2⟩ := ih fun i hi => hs i (by omega)
    obtain ⟨s', h3, h4⟩ := hs n (by omega) s h2
    refine ⟨s', ?_, h4⟩
    rw [List.range_succ, List.foldlM_append, h1]
    simp [h3]

/-- Loop invariant rule for a pure `for (i = 0; i < n; ++i)`. -/
theorem foldl_range_inv {σ : Type*} (f : σ → ℕ → σ) (P : ℕ → σ → Prop) (n : ℕ) (s0 : σ)
    (h0 : P 0 s0) (hs : ∀ i, i < n → ∀ s, P i s → P (i + 1) (f s i)) :
    P n ((List.range n).foldl f s0) := by
  induction n with
  | zero => exact h0
  | succ n ih =>
    rw [List.range_succ, List.foldl_append]
    exact hs n (by omega) _ (ih fun i hi => hs i (by omega))

end Geomc
