import Verif.Shape.WrapModel
import Verif.Shape.Basic
import Mathlib.Data.Real.Basic
import Mathlib.Data.Real.Sqrt

/-!
# C77: the queries a shape inherits from its base classes
-/

namespace Geomc.Shape

open Geomc.Vec Geomc.Rect

variable {K : Type} {n : ℕ} [Field K] [LinearOrder K] [IsStrictOrderedRing K] {sqrt : K → K}

/-- **C77**: bounds made from a right support function are the smallest box. -/
theorem C77_bounds (S : Set (Fin n → K)) (support : (Fin n → K) → Fin n → K) (h : ∀ d, d ≠ 0 → IsSupport S d (support d)) :
    IsHull S (defaultBounds support) := by
  have h1 : ∀ i, IsSupport S (Pi.single i 1) (support (Pi.single i 1)) := fun i => h _ (by simp)
  have h2 : ∀ i, IsSupport S (Pi.single i (-1)) (support (Pi.single i (-1))) := fun i => h _ (by simp)
  constructor
  · intro p hp
    rw [mem_pts]
    intro i
    have a := (h1 i).2 p hp
    have b := (h2 i).2 p hp
    rw [dot_eq, dot_eq, dotProduct_single, dotProduct_single] at a b
    simp only [defaultBounds]
    constructor <;> linarith
  · intro c hc p hp
    rw [mem_pts] at hp ⊢
    intro i
    have a := mem_pts.1 (hc (h1 i).1) i
    have b := mem_pts.1 (hc (h2 i).1) i
    have e := hp i
    simp only [defaultBounds] at e
    exact ⟨b.1.trans e.1, e.2.trans a.2⟩

/-- **C77**: containment made from a right signed distance is containment. -/
theorem C77_contains (hs : IsSqrt sqrt) (S : Set (Fin n → K)) (sdf : (Fin n → K) → K) (p : Fin n → K)
    (h : IsSDist sqrt S p (sdf p)) : defaultContains sdf p = true ↔ p ∈ S := by
  rw [defaultContains, decide_eq_true_eq]
  constructor
  · intro hle
    by_contra hp
    obtain ⟨⟨q, hq, e⟩, _⟩ := h.1 hp
    have : len sqrt (p - q) = 0 := le_antisymm (e ▸ hle) (len_nonneg hs _)
    exact hp (sub_eq_zero.1 ((len_eq_zero hs).1 this) ▸ hq)
  · exact fun hp => (h.2 hp).1

theorem defaultSdf_eq (sqrt : K → K) (contains : (Fin n → K) → Bool) (project : (Fin n → K) → Fin n → K) (p : Fin n → K) :
    defaultSdf sqrt contains project p = (if contains p = true then -1 else 1) * len sqrt (project p - p) := rfl

/-! ### Distances from projections

A shape is closed, and the coordinates are the reals: a segment from inside to outside crosses the surface. -/

/-- Closed sets of points. -/
def Closed (S : Set (Fin n → ℝ)) : Prop := ∀ x, (∀ ε, 0 < ε → ∃ y ∈ S, len Real.sqrt (x - y) < ε) → x ∈ S

theorem crossing (S : Set (Fin n → ℝ)) (hS : Closed S) (p r : Fin n → ℝ) (hp : p ∈ S) (hr : r ∉ S) :
    ∃ t : ℝ, 0 ≤ t ∧ t ≤ 1 ∧ p + t • (r - p) ∈ surface Real.sqrt S := by
  set T : Set ℝ := {t | 0 ≤ t ∧ t ≤ 1 ∧ ∀ s, 0 ≤ s → s ≤ t → p + s • (r - p) ∈ S} with hT
  have hne : T.Nonempty := ⟨0, le_refl _, zero_le_one, fun s h0 h1 => by rw [le_antisymm h1 h0, zero_smul, add_zero]; exact hp⟩
  have hbd : BddAbove T := ⟨1, fun t ht => ht.2.1⟩
  set τ := sSup T with hτ
  have hL : 0 < len Real.sqrt (r - p) := len_pos isSqrt_real (sub_ne_zero.2 fun h => hr (h ▸ hp))
  have h0 : 0 ≤ τ := le_csSup hbd ⟨le_refl _, zero_le_one, fun s h0 h1 => by
    rw [le_antisymm h1 h0, zero_smul, add_zero]; exact hp⟩
  have h1 : τ ≤ 1 := csSup_le hne fun t ht => ht.2.1
  have hdist : ∀ a b : ℝ, len Real.sqrt (p + a • (r - p) - (p + b • (r - p))) = |a - b| * len Real.sqrt (r - p) := by
    intro a b
    rw [add_sub_add_left_eq_sub, ← sub_smul, len_smul isSqrt_real]
  have hlt : ∀ s, 0 ≤ s → s < τ → p + s • (r - p) ∈ S := by
    intro s hs0 hs1
    obtain ⟨t, ht, hst⟩ := exists_lt_of_lt_csSup hne hs1
    exact ht.2.2 s hs0 hst.le
  have hin : p + τ • (r - p) ∈ S := by
    rcases h0.eq_or_lt with h | h
    · rw [← h, zero_smul, add_zero]
      exact hp
    · refine hS _ fun ε hε => ?_
      have hδ : 0 < min τ (ε / 2 / len Real.sqrt (r - p)) := lt_min h (div_pos (by linarith) hL)
      refine ⟨p + (τ - min τ (ε / 2 / len Real.sqrt (r - p))) • (r - p), hlt _ ?_ ?_, ?_⟩
      · have := min_le_left τ (ε / 2 / len Real.sqrt (r - p))
        linarith
      · linarith
      · rw [hdist, sub_sub_cancel, abs_of_pos hδ]
        have := mul_le_mul_of_nonneg_right (min_le_right τ (ε / 2 / len Real.sqrt (r - p))) hL.le
        rw [div_mul_cancel₀ _ hL.ne'] at this
        linarith
  refine ⟨τ, h0, h1, hin, fun ε hε => ?_⟩
  by_contra hcon
  push Not at hcon
  have hτ1 : τ < 1 := by
    refine lt_of_le_of_ne h1 fun h => hr ?_
    rw [h, one_smul, add_sub_cancel] at hin
    exact hin
  have hstep : 0 < ε / 2 / len Real.sqrt (r - p) := div_pos (by linarith) hL
  have hmem : min 1 (τ + ε / 2 / len Real.sqrt (r - p)) ∈ T := by
    refine ⟨le_min zero_le_one (by linarith), min_le_left _ _, fun s hs0 hs1 => ?_⟩
    rcases lt_or_ge s τ with h | h
    · exact hlt s hs0 h
    · by_contra hns
      have h2 := hcon _ hns
      rw [hdist, abs_sub_comm, abs_of_nonneg (by linarith)] at h2
      have h3 : s - τ ≤ ε / 2 / len Real.sqrt (r - p) := by
        have := hs1.trans (min_le_right _ _)
        linarith
      have h4 := mul_le_mul_of_nonneg_right h3 hL.le
      rw [div_mul_cancel₀ _ hL.ne'] at h4
      linarith
  have := le_csSup hbd hmem
  rw [← hτ] at this
  have h5 : τ < min 1 (τ + ε / 2 / len Real.sqrt (r - p)) := lt_min hτ1 (by linarith)
  linarith

theorem crossing_dist (S : Set (Fin n → ℝ)) (hS : Closed S) (p r : Fin n → ℝ) (hp : p ∈ S) (hr : r ∉ S) :
    ∃ x ∈ surface Real.sqrt S, len Real.sqrt (p - x) ≤ len Real.sqrt (p - r) ∧ len Real.sqrt (r - x) ≤ len Real.sqrt (r - p) := by
  obtain ⟨t, h0, h1, hx⟩ := crossing S hS p r hp hr
  refine ⟨_, hx, ?_, ?_⟩
  · have e : p - (p + t • (r - p)) = t • (p - r) := by
      rw [smul_sub, smul_sub]
      abel
    rw [e, len_smul isSqrt_real, abs_of_nonneg h0]
    exact mul_le_of_le_one_left (len_nonneg isSqrt_real _) h1
  · have e : r - (p + t • (r - p)) = (1 - t) • (r - p) := by
      rw [sub_smul, one_smul]
      abel
    rw [e, len_smul isSqrt_real, abs_of_nonneg (by linarith)]
    exact mul_le_of_le_one_left (len_nonneg isSqrt_real _) (by linarith)

/-- From outside, the nearest surface point is the nearest point. -/
theorem nearest_outside (S : Set (Fin n → ℝ)) (hS : Closed S) (p q : Fin n → ℝ) (hp : p ∉ S) (hq : IsNearest Real.sqrt S p q)
    (x : Fin n → ℝ) (hx : x ∈ S) : len Real.sqrt (p - q) ≤ len Real.sqrt (p - x) := by
  obtain ⟨y, hy, _, h⟩ := crossing_dist S hS x p hx hp
  exact (hq.2 y hy).trans h

/-- From inside, everything nearer than the surface is inside. -/
theorem nearest_inside (S : Set (Fin n → ℝ)) (hS : Closed S) (p q : Fin n → ℝ) (hp : p ∈ S) (hq : IsNearest Real.sqrt S p q)
    (x : Fin n → ℝ) (hx : len Real.sqrt (p - x) < len Real.sqrt (p - q)) : x ∈ S := by
  by_contra hcon
  obtain ⟨y, hy, h, _⟩ := crossing_dist S hS p x hp hcon
  exact absurd (hq.2 y hy) (not_le.2 (lt_of_le_of_lt h hx))

/-- **C77**: the signed distance made from right containment and projection is right. -/
theorem C77_sdf (S : Set (Fin n → ℝ)) (hS : Closed S) (contains : (Fin n → ℝ) → Bool) (project : (Fin n → ℝ) → Fin n → ℝ)
    (p : Fin n → ℝ) (hc : contains p = true ↔ p ∈ S) (hq : IsNearest Real.sqrt S p (project p)) :
    IsSDist Real.sqrt S p (defaultSdf Real.sqrt contains project p) := by
  constructor
  · intro hp
    rw [defaultSdf_eq, if_neg fun h => hp (hc.1 h), one_mul, len_sub_comm isSqrt_real]
    refine ⟨⟨_, hq.1.1, rfl⟩, ?_⟩
    rintro _ ⟨x, hx, rfl⟩
    exact nearest_outside S hS p _ hp hq x hx
  · intro hp
    rw [defaultSdf_eq, if_pos (hc.2 hp), len_sub_comm isSqrt_real, neg_one_mul, neg_neg]
    refine ⟨neg_nonpos.2 (len_nonneg isSqrt_real _), fun x hx => nearest_inside S hS p _ hp hq x hx, fun ρ hρ => ?_⟩
    obtain ⟨r, hr, h⟩ := hq.1.2 (ρ - len Real.sqrt (p - project p)) (by linarith)
    refine ⟨r, ?_, hr⟩
    have := len_tri isSqrt_real p (project p) r
    linarith

/-- **C77**: `clip` leaves points of the shape alone and moves others to the nearest point of the shape. -/
theorem C77_clip (S : Set (Fin n → ℝ)) (hS : Closed S) (contains : (Fin n → ℝ) → Bool) (project : (Fin n → ℝ) → Fin n → ℝ)
    (p : Fin n → ℝ) (hc : contains p = true ↔ p ∈ S) (hq : IsNearest Real.sqrt S p (project p)) :
    defaultClip contains project p ∈ S ∧
    (p ∈ S → defaultClip contains project p = p) ∧
    ∀ x ∈ S, len Real.sqrt (p - defaultClip contains project p) ≤ len Real.sqrt (p - x) := by
  by_cases hp : p ∈ S
  · rw [defaultClip, if_pos (hc.2 hp)]
    refine ⟨hp, fun _ => rfl, fun x _ => ?_⟩
    rw [sub_self, (len_eq_zero isSqrt_real).2 rfl]
    exact len_nonneg isSqrt_real _
  · rw [defaultClip, if_neg fun h => hp (hc.1 h)]
    exact ⟨hq.1.1, fun h => absurd h hp, nearest_outside S hS p _ hp hq⟩

/-- **C77**: `normal` is the unit vector along which the point lies from its projection at its signed distance; it is undefined
exactly for points that are their own projection. -/
theorem C77_normal (hs : IsSqrt sqrt) (contains : (Fin n → K) → Bool) (project : (Fin n → K) → Fin n → K) (p : Fin n → K) :
    (defaultNormal sqrt contains project p = none ↔ project p = p) ∧
    ∀ u, defaultNormal sqrt contains project p = some u →
      len sqrt u = 1 ∧ p = project p + defaultSdf sqrt contains project p • u := by
  refine ⟨?_, fun u hu => ?_⟩
  · rw [defaultNormal, Option.map_eq_none_iff, unit_none hs, sub_eq_zero, eq_comm]
  · by_cases h0 : p - project p = 0
    · rw [defaultNormal, (unit_none hs _).2 h0] at hu
      cases hu
    obtain ⟨e1, e2⟩ := unit_eq hs h0
    rw [defaultNormal, e1, Option.map_some, Option.some.injEq] at hu
    subst hu
    have e : (fun i => (if contains p = true then (-1 : K) else 1) * ((len sqrt (p - project p))⁻¹ • (p - project p)) i) =
        (if contains p = true then (-1 : K) else 1) • ((len sqrt (p - project p))⁻¹ • (p - project p)) := rfl
    have hsq : (if contains p = true then (-1 : K) else 1) * (if contains p = true then (-1 : K) else 1) = 1 := by
      split_ifs <;> ring
    rw [e]
    constructor
    · rw [len_smul hs, e2, mul_one]
      split_ifs <;> simp
    · rw [defaultSdf_eq, smul_smul, smul_smul, len_sub_comm hs (project p),
        show (if contains p = true then (-1 : K) else 1) * len sqrt (p - project p) * (if contains p = true then (-1 : K) else 1) *
          (len sqrt (p - project p))⁻¹ = ((if contains p = true then (-1 : K) else 1) * (if contains p = true then (-1 : K) else 1)) *
          (len sqrt (p - project p) * (len sqrt (p - project p))⁻¹) by ring,
        hsq, mul_inv_cancel₀ (len_pos hs h0).ne', one_mul, one_smul, add_sub_cancel]

example : defaultBounds (fun d => (⟨![0, 1], ![2, 5]⟩ : Box ℚ 2).support d) = ⟨![0, 1], ![2, 5]⟩ := by decide +kernel

end Geomc.Shape
