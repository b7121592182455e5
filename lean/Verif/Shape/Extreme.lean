import Mathlib.Algebra.Order.Field.Basic
import Mathlib.Data.Matrix.Mul
import Mathlib.Tactic.Linarith
import Mathlib.Tactic.FieldSimp
import Mathlib.Tactic.Ring
import Mathlib.Data.Finset.Max

/-!
# Separating directions of sums of segments

A sum of segments with directions `a k` and half lengths `w k` stays clear of a point `c` when `c ⬝ u - ∑ w k |a k ⬝ u|` is
positive for some direction `u`.  Such a `u` can be chosen extreme: it is determined, up to scale, by the segments it is
orthogonal to.
-/

namespace Geomc.Shape

open Finset

variable {K : Type} [Field K] [LinearOrder K] [IsStrictOrderedRing K] {n : ℕ} {ι : Type} [Fintype ι]

/-- The gap left along `u`. -/
def gap (c : Fin n → K) (w : ι → K) (a : ι → Fin n → K) (u : Fin n → K) : K := c ⬝ᵥ u - ∑ k, w k * |a k ⬝ᵥ u|

/-- `u` is determined up to scale by the `a k` orthogonal to it. -/
def Extreme (a : ι → Fin n → K) (u : Fin n → K) : Prop :=
  ∀ v, (∀ k, a k ⬝ᵥ u = 0 → a k ⬝ᵥ v = 0) → ∃ t : K, v = t • u

theorem abs_scaled {x y : K} (hx : x ≠ 0) (h : 0 ≤ y / x) : |y| = (|x| / x) * y := by
  have e : y = (y / x) * x := by field_simp
  rcases lt_or_gt_of_ne hx with h' | h'
  · have hy : y ≤ 0 := by rw [e]; exact mul_nonpos_of_nonneg_of_nonpos h h'.le
    rw [abs_of_nonpos hy, abs_of_neg h']
    field_simp
  · have hy : 0 ≤ y := by rw [e]; exact mul_nonneg h h'.le
    rw [abs_of_nonneg hy, abs_of_pos h']
    field_simp

/-- The slope of the gap at `u` in the direction `v`, for directions that keep the zeros. -/
def slope (c : Fin n → K) (w : ι → K) (a : ι → Fin n → K) (u v : Fin n → K) : K :=
  c ⬝ᵥ v - ∑ k, w k * ((|a k ⬝ᵥ u| / (a k ⬝ᵥ u)) * (a k ⬝ᵥ v))

omit [LinearOrder K] [IsStrictOrderedRing K] in
theorem slope_neg [LinearOrder K] (c : Fin n → K) (w : ι → K) (a : ι → Fin n → K) (u v : Fin n → K) :
    slope c w a u (-v) = -slope c w a u v := by
  simp only [slope, dotProduct_neg, mul_neg, sum_neg_distrib]
  ring

/-- If no sign changes between `u` and `v`, the gap along `v` is the slope. -/
theorem gap_same {c : Fin n → K} {w : ι → K} {a : ι → Fin n → K} {u v : Fin n → K}
    (h0 : ∀ k, a k ⬝ᵥ u = 0 → a k ⬝ᵥ v = 0) (h1 : ∀ k, a k ⬝ᵥ u ≠ 0 → 0 ≤ (a k ⬝ᵥ v) / (a k ⬝ᵥ u)) :
    gap c w a v = slope c w a u v := by
  unfold gap slope
  congr 1
  refine sum_congr rfl fun k _ => ?_
  by_cases hk : a k ⬝ᵥ u = 0
  · rw [h0 k hk]
    simp
  · rw [abs_scaled hk (h1 k hk)]

theorem slope_add (c : Fin n → K) (w : ι → K) (a : ι → Fin n → K) (u v : Fin n → K) (t : K) :
    slope c w a u (u + t • v) = gap c w a u + t * slope c w a u v := by
  have h : slope c w a u u = gap c w a u :=
    (gap_same (fun _ h => h) (fun k hk => by rw [div_self hk]; exact zero_le_one)).symm
  rw [← h]
  simp only [slope, dotProduct_add, dotProduct_smul, smul_eq_mul, mul_add, sum_add_distrib, mul_sub, mul_sum]
  have : ∀ k, w k * (|a k ⬝ᵥ u| / a k ⬝ᵥ u * (t * a k ⬝ᵥ v)) = t * (w k * (|a k ⬝ᵥ u| / a k ⬝ᵥ u * a k ⬝ᵥ v)) := fun k => by ring
  simp only [this]
  ring

/-- Moving until the first sign change. -/
theorem step_to_zero {c : Fin n → K} {w : ι → K} {a : ι → Fin n → K} {u v : Fin n → K} (hg : 0 < gap c w a u)
    (h0 : ∀ k, a k ⬝ᵥ u = 0 → a k ⬝ᵥ v = 0) (hs : 0 ≤ slope c w a u v)
    (hT : ∃ k, a k ⬝ᵥ u ≠ 0 ∧ (a k ⬝ᵥ v) / (a k ⬝ᵥ u) < 0) :
    ∃ u', 0 < gap c w a u' ∧ (∀ k, a k ⬝ᵥ u = 0 → a k ⬝ᵥ u' = 0) ∧ ∃ k, a k ⬝ᵥ u ≠ 0 ∧ a k ⬝ᵥ u' = 0 := by
  classical
  let T := univ.filter fun k => a k ⬝ᵥ u ≠ 0 ∧ (a k ⬝ᵥ v) / (a k ⬝ᵥ u) < 0
  have hTne : T.Nonempty := by
    obtain ⟨k, hk⟩ := hT
    exact ⟨k, by simp only [T, mem_filter, mem_univ, true_and]; exact hk⟩
  obtain ⟨m, hm, hmin⟩ := exists_min_image T (fun k => -((a k ⬝ᵥ u) / (a k ⬝ᵥ v))) hTne
  simp only [T, mem_filter, mem_univ, true_and] at hm hmin
  obtain ⟨hm0, hmneg⟩ := hm
  have hmv : a m ⬝ᵥ v ≠ 0 := by
    intro h
    rw [h, zero_div] at hmneg
    exact lt_irrefl _ hmneg
  set t := -((a m ⬝ᵥ u) / (a m ⬝ᵥ v)) with ht
  have htpos : 0 < t := by
    have : (a m ⬝ᵥ u) / (a m ⬝ᵥ v) < 0 := by
      rw [← inv_div]
      exact inv_lt_zero.2 hmneg
    linarith
  have hkeep : ∀ k, a k ⬝ᵥ u = 0 → a k ⬝ᵥ (u + t • v) = 0 := by
    intro k hk
    rw [dotProduct_add, dotProduct_smul, hk, h0 k hk, smul_zero, add_zero]
  refine ⟨u + t • v, ?_, hkeep, m, hm0, ?_⟩
  · rw [gap_same hkeep, slope_add]
    · have := mul_nonneg htpos.le hs
      linarith
    · intro k hk
      rw [dotProduct_add, dotProduct_smul, smul_eq_mul, add_div, div_self hk, mul_div_assoc]
      rcases lt_or_ge ((a k ⬝ᵥ v) / (a k ⬝ᵥ u)) 0 with hr | hr
      · have h1 := hmin k ⟨hk, hr⟩
        have h2 : -((a k ⬝ᵥ u) / (a k ⬝ᵥ v)) * ((a k ⬝ᵥ v) / (a k ⬝ᵥ u)) = -1 := by
          have hkv : a k ⬝ᵥ v ≠ 0 := by
            intro h
            rw [h, zero_div] at hr
            exact lt_irrefl _ hr
          field_simp
        have h3 := mul_le_mul_of_nonpos_right h1 hr.le
        linarith
      · have := mul_nonneg htpos.le hr
        linarith
  · rw [dotProduct_add, dotProduct_smul, smul_eq_mul, ht]
    field_simp
    ring

/-- A direction with a gap can be chosen extreme. -/
theorem exists_extreme {c : Fin n → K} {w : ι → K} {a : ι → Fin n → K} (hspan : ∀ u, (∀ k, a k ⬝ᵥ u = 0) → u = 0)
    (h : ∃ u, 0 < gap c w a u) : ∃ u, 0 < gap c w a u ∧ u ≠ 0 ∧ Extreme a u := by
  classical
  obtain ⟨u, hu⟩ := h
  -- by the number of segments that are not orthogonal
  generalize hN : (univ.filter fun k => a k ⬝ᵥ u ≠ 0).card = N
  induction N using Nat.strong_induction_on generalizing u with
  | _ N ih =>
  have hu0 : u ≠ 0 := by
    rintro rfl
    simp [gap] at hu
  have more : ∀ u', 0 < gap c w a u' → (∀ k, a k ⬝ᵥ u = 0 → a k ⬝ᵥ u' = 0) → (∃ k, a k ⬝ᵥ u ≠ 0 ∧ a k ⬝ᵥ u' = 0) →
      ∃ u, 0 < gap c w a u ∧ u ≠ 0 ∧ Extreme a u := by
    intro u' hg hz ⟨k, hk, hk'⟩
    refine ih _ ?_ u' hg rfl
    rw [← hN]
    apply card_lt_card
    rw [ssubset_iff_of_subset]
    · exact ⟨k, by simp [hk], by simp [hk']⟩
    · intro l
      simp only [mem_filter, mem_univ, true_and]
      exact fun h1 h2 => h1 (hz l h2)
  by_cases hex : Extreme a u
  · exact ⟨u, hu, hu0, hex⟩
  simp only [Extreme, not_forall, not_exists] at hex
  obtain ⟨v, hv, hne⟩ := hex
  obtain ⟨k₀, hk₀⟩ : ∃ k, a k ⬝ᵥ u ≠ 0 := by
    by_contra hc
    push Not at hc
    exact hu0 (hspan u hc)
  -- a direction that keeps the zeros and adds one
  set d := v - ((a k₀ ⬝ᵥ v) / (a k₀ ⬝ᵥ u)) • u with hd
  have hd0 : d ≠ 0 := fun h => hne _ (sub_eq_zero.1 h)
  have hdz : ∀ k, a k ⬝ᵥ u = 0 → a k ⬝ᵥ d = 0 := by
    intro k hk
    rw [hd, dotProduct_sub, dotProduct_smul, hk, hv k hk, smul_zero, sub_zero]
  have hdk : a k₀ ⬝ᵥ d = 0 := by
    rw [hd, dotProduct_sub, dotProduct_smul, smul_eq_mul, div_mul_cancel₀ _ hk₀, sub_self]
  have hdir : ∀ e : Fin n → K, e ≠ 0 → (∀ k, a k ⬝ᵥ u = 0 → a k ⬝ᵥ e = 0) → a k₀ ⬝ᵥ e = 0 → 0 ≤ slope c w a u e →
      ∃ u, 0 < gap c w a u ∧ u ≠ 0 ∧ Extreme a u := by
    intro e he hez hek hs
    by_cases hT : ∃ k, a k ⬝ᵥ u ≠ 0 ∧ (a k ⬝ᵥ e) / (a k ⬝ᵥ u) < 0
    · obtain ⟨u', h1, h2, h3⟩ := step_to_zero hu hez hs hT
      exact more u' h1 h2 h3
    · push Not at hT
      rcases hs.eq_or_lt with hs0 | hpos
      · -- a flat direction: go the other way
        have hT' : ∃ k, a k ⬝ᵥ u ≠ 0 ∧ (a k ⬝ᵥ (-e)) / (a k ⬝ᵥ u) < 0 := by
          by_contra hc
          push Not at hc
          apply he
          apply hspan
          intro k
          by_cases hk : a k ⬝ᵥ u = 0
          · exact hez k hk
          · have h1 := hT k hk
            have h2 := hc k hk
            rw [dotProduct_neg, neg_div] at h2
            have h3 : (a k ⬝ᵥ e) / (a k ⬝ᵥ u) = 0 := le_antisymm (by linarith) h1
            rcases div_eq_zero_iff.1 h3 with h | h
            · exact h
            · exact absurd h hk
        obtain ⟨u', h1, h2, h3⟩ := step_to_zero (v := -e) hu (fun k hk => by rw [dotProduct_neg, hez k hk, neg_zero])
          (by rw [slope_neg, ← hs0, neg_zero]) hT'
        exact more u' h1 h2 h3
      · refine more e ?_ hez ⟨k₀, hk₀, hek⟩
        rw [gap_same hez hT]
        exact hpos
  rcases le_total 0 (slope c w a u d) with hs | hs
  · exact hdir d hd0 hdz hdk hs
  · exact hdir (-d) (neg_ne_zero.2 hd0) (fun k hk => by rw [dotProduct_neg, hdz k hk, neg_zero])
      (by rw [dotProduct_neg, hdk, neg_zero]) (by rw [slope_neg]; linarith)

end Geomc.Shape
