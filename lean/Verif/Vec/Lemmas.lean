import Mathlib.LinearAlgebra.CrossProduct
import Mathlib.Algebra.Order.BigOperators.Ring.Finset
import Mathlib.Data.Fintype.BigOperators
import Mathlib.Tactic.FieldSimp
import Mathlib.Tactic.Linarith
import Mathlib.Tactic.LinearCombination
import Mathlib.Tactic.FinCases
import Verif.Vec.Model
import Verif.Duals.Props

namespace Geomc.Vec

open Geomc.Duals (sumOfProducts diffOfProducts diffOfProducts_eq sumOfProducts_eq)

variable {K : Type} {n : ℕ}

theorem stdMin_eq [LinearOrder K] (a b : K) : stdMin a b = min a b := by
  unfold stdMin
  split_ifs with h
  · exact (min_eq_right h.le).symm
  · exact (min_eq_left (not_lt.1 h)).symm

theorem stdMax_eq [LinearOrder K] (a b : K) : stdMax a b = max a b := by
  unfold stdMax
  split_ifs with h
  · exact (max_eq_right h.le).symm
  · exact (max_eq_left (not_lt.1 h)).symm

/-- An accumulating loop over the components is the sum. -/
theorem foldl_sum [AddCommMonoid K] (f : Fin n → K) (a : K) :
    (List.finRange n).foldl (fun s i => f i + s) a = a + ∑ i, f i := by
  have : ∀ (l : List (Fin n)) (a : K), l.foldl (fun s i => f i + s) a = a + (l.map f).sum := by
    intro l
    induction l with
    | nil => intro a; simp
    | cons i l ih =>
      intro a
      rw [List.foldl_cons, ih, List.map_cons, List.sum_cons, add_comm (f i) a, add_assoc]
  rw [this, ← List.ofFn_eq_map, List.sum_ofFn]

variable [Field K]

theorem dot_eq (u v : Fin n → K) : dot u v = u ⬝ᵥ v := by
  rw [dot, foldl_sum, zero_add]
  rfl

theorem mag2_eq (u : Fin n → K) : mag2 u = u ⬝ᵥ u := by
  rw [mag2, foldl_sum, zero_add]
  rfl

theorem dist2_eq (u v : Fin n → K) : dist2 u v = (u - v) ⬝ᵥ (u - v) := by
  rw [dist2, mag2_eq]
  rfl

theorem cross_eq (a b : Fin 3 → K) : cross a b = crossProduct a b := by
  rw [cross_apply, cross]
  simp only [diffOfProducts_eq]

theorem dot3 (u v : Fin 3 → K) : u ⬝ᵥ v = u 0 * v 0 + u 1 * v 1 + u 2 * v 2 := by
  rw [dotProduct, Fin.sum_univ_three]

variable [LinearOrder K] [IsStrictOrderedRing K]

theorem self_dot_nonneg (u : Fin n → K) : 0 ≤ u ⬝ᵥ u := Finset.sum_nonneg fun i _ => mul_self_nonneg (u i)

theorem self_dot_eq_zero (u : Fin n → K) : u ⬝ᵥ u = 0 ↔ u = 0 := by
  rw [dotProduct, Finset.sum_eq_zero_iff_of_nonneg (fun i _ => mul_self_nonneg (u i))]
  constructor
  · intro h
    ext i
    exact mul_self_eq_zero.1 (h i (Finset.mem_univ i))
  · rintro rfl i _
    simp

theorem self_dot_pos {u : Fin n → K} (h : u ≠ 0) : 0 < u ⬝ᵥ u :=
  lt_of_le_of_ne (self_dot_nonneg u) (fun h0 => h ((self_dot_eq_zero u).1 h0.symm))

theorem cauchy (u v : Fin n → K) : (u ⬝ᵥ v) ^ 2 ≤ (u ⬝ᵥ u) * (v ⬝ᵥ v) := by
  have := Finset.sum_mul_sq_le_sq_mul_sq Finset.univ u v
  simpa only [dotProduct, pow_two] using this

/-- What is assumed of the square root. -/
structure IsSqrt (sqrt : K → K) : Prop where
  zero : sqrt 0 = 0
  pos : ∀ x, 0 < x → 0 < sqrt x
  sq : ∀ x, 0 ≤ x → sqrt x * sqrt x = x

omit [IsStrictOrderedRing K] in
theorem IsSqrt.ne_zero {sqrt : K → K} (h : IsSqrt sqrt) {x : K} (hx : 0 ≤ x) : sqrt x = 0 ↔ x = 0 := by
  constructor
  · intro h0
    rw [← h.sq x hx, h0, mul_zero]
  · rintro rfl
    exact h.zero

theorem isSqrt_real : IsSqrt Real.sqrt :=
  ⟨Real.sqrt_zero, fun _ h => Real.sqrt_pos.2 h, fun _ h => Real.mul_self_sqrt h⟩

end Geomc.Vec
