import Verif.Float.CylSupportModel
import Verif.Float.Support
import Verif.Shape.Cylinder

/-! # Property C143: support points of cylinders in floating point -/

namespace Geomc.Flt

open Geomc.Vec (IsSqrt)
open Geomc.Shape (len Tube)

variable {K : Type} [Field K] [LinearOrder K] [IsStrictOrderedRing K] [FloorRing K] {N p : ℕ} {rnd sqrt : K → K}

/-- **C143.** The point of a cylinder farthest along a direction is found up to rounding, where the direction is not near the axis: `κ` bounds the length of the
direction by that of its part across the axis, and enters squared.  The difference of the ends is taken to be exact. -/
theorem C143_support (hp : 1 ≤ p) (h : IsRound p rnd) (hs : IsSqrt sqrt) (hN : (1 + eps K p) ^ (N + 2) < 2) (c : Tube K N) {m κ : K} (hc : c.p0 ≠ c.p1)
    (fa : ∀ i, IsFloat p (c.p1 i - c.p0 i)) (h0 : ∀ i, |c.p0 i| ≤ m) (h1 : ∀ i, |c.p1 i| ≤ m) (hr : 0 ≤ c.radius) (d : Fin N → K) (d0 : d ≠ 0)
    (hκ : len sqrt d ≤ κ * len sqrt (c.across d)) (hX : gsErr K p N * (κ ^ 2 + κ) ≤ 1) :
    ∃ s, cylinderSupport rnd sqrt c d = some s ∧ ∀ x ∈ c.cylPts sqrt, x ⬝ᵥ d ≤ s ⬝ᵥ d +
      (2 * ((1 + eps K p) ^ (N + 1) - 1) * m + ((1 + eps K p) ^ 3 * (1 / (2 - (1 + eps K p) ^ (N + 2))) - 1) * (m + c.radius) +
        c.radius * (gsErr K p N * (κ ^ 2 + κ))) * ∑ i, |d i| := by
  have e0 := eps_pos (K := K) p
  have hN' : (1 + eps K p) ^ N < 2 := (pow_le_pow_right₀ (by linarith) (by omega)).trans_lt hN
  have g0 := gsErr_nonneg (K := K) (p := p) hN'
  have ea : sub rnd c.p1 c.p0 = c.axis := by
    funext i
    exact h.fix (fa i)
  have a0 : c.axis ≠ 0 := fun hh => hc (sub_eq_zero.1 hh).symm
  obtain ⟨v, hv⟩ : ∃ v, v = c.across d := ⟨_, rfl⟩
  obtain ⟨w, hw⟩ : ∃ w, w = sub rnd d (projectOn rnd d c.axis) := ⟨_, rfl⟩
  obtain ⟨g, eg⟩ : ∃ g, g = gsErr K p N := ⟨_, rfl⟩
  have hwv : len sqrt (w - v) ≤ g * len sqrt d := by
    rw [hw, hv, eg, Tube.across, ← Shape.projectOn_axis c hc]
    exact step_near hp h hs hN' d c.axis
  rw [← hv] at hκ
  rw [← eg] at hX g0 ⊢
  have D0 := Shape.len_pos hs d0
  have V0 := Shape.len_nonneg hs v
  have vpos : 0 < len sqrt v := by
    rcases V0.eq_or_lt with hz | hz
    · rw [← hz, mul_zero] at hκ
      exact absurd D0 (not_lt.2 hκ)
    · exact hz
  have κ0 : 0 < κ := by
    by_contra hk
    have := mul_nonneg (neg_nonneg.2 (not_lt.1 hk)) V0
    linarith
  have hg : g * κ < 1 := by
    by_contra hn
    have := mul_le_mul_of_nonneg_right (not_lt.1 hn) (show 0 ≤ κ + 1 by linarith)
    linarith [show g * κ * (κ + 1) = g * (κ ^ 2 + κ) by ring]
  have hwl : len sqrt w ≤ len sqrt v + g * len sqrt d := by
    have := Shape.len_add_le hs (w - v) v
    rw [sub_add_cancel] at this
    linarith
  have w0 : w ≠ 0 := by
    rintro hz
    rw [hz, zero_sub, Shape.len_neg hs] at hwv
    have b1 := mul_le_mul_of_nonneg_left hκ g0
    have b2 := mul_lt_mul_of_pos_right hg vpos
    linarith
  have W0 := Shape.len_pos hs w0
  obtain ⟨P, hP⟩ : ∃ P : Fin N → K, P = if dot rnd d c.axis > 0 then c.p1 else c.p0 := ⟨_, rfl⟩
  have hPm : ∀ i, |P i| ≤ m := fun i => by
    rw [hP]
    split_ifs
    exacts [h1 i, h0 i]
  obtain ⟨s, es, hb⟩ := (C138_at_distance hp h hs hN P w c.radius).2 w0
  have es' : cylinderSupport rnd sqrt c d = some s := by
    rw [← es, hw, hP, ← ea]
    rfl
  refine ⟨s, es', fun x hx => ?_⟩
  obtain ⟨L, hL⟩ : ∃ L, L = ∑ i, |d i| := ⟨_, rfl⟩
  -- the end taken
  have hgap := gap_near hp h (x := c.p1) (y := c.p0) (d := d) h1 h0
  rw [dot_swap, ea, ← hL] at hgap
  obtain ⟨E, hE⟩ : ∃ E, E = 2 * ((1 + eps K p) ^ (N + 1) - 1) * m * L := ⟨_, rfl⟩
  rw [← hE] at hgap
  have E0 : 0 ≤ E := (abs_nonneg _).trans hgap
  have hend : c.p0 ⬝ᵥ d ≤ P ⬝ᵥ d + E ∧ c.p1 ⬝ᵥ d ≤ P ⬝ᵥ d + E := by
    have hg := abs_le.1 hgap
    rw [sub_dotProduct] at hg
    rw [hP]
    split_ifs with hc
    · exact ⟨by linarith [hg.1, hg.2], by linarith⟩
    · exact ⟨by linarith, by linarith [hg.1, hg.2, not_lt.1 hc]⟩
  -- the computed point
  have hq := one_le_mul_of_one_le_of_one_le (one_le_pow₀ (n := 3) (show 1 ≤ 1 + eps K p by linarith)) (q_ge (K := K) (p := p) hN)
  obtain ⟨Q, hQ⟩ : ∃ Q, Q = (1 + eps K p) ^ 3 * (1 / (2 - (1 + eps K p) ^ (N + 2))) := ⟨_, rfl⟩
  rw [← hQ] at hb hq ⊢
  have hb' : ∀ i, |s i - (P i + w i / len sqrt w * c.radius)| ≤ (Q - 1) * (m + c.radius) := fun i =>
    (hb i).trans (mul_le_mul_of_nonneg_left (add_le_add (hPm i) ((reach hs w0 hr).1 i)) (sub_nonneg.2 hq))
  have a3 := along_near (d := d) hb'
  have e3 : (fun i => P i + w i / len sqrt w * c.radius) = P + c.radius • ((len sqrt w)⁻¹ • w) := by
    funext i
    simp only [Pi.add_apply, Pi.smul_apply, smul_eq_mul]
    ring
  rw [e3, add_dotProduct, smul_dotProduct, smul_dotProduct, smul_eq_mul, smul_eq_mul, ← hL] at a3
  -- how far the computed direction across reaches
  have perp := Shape.across_perp c hc d
  have vd : v ⬝ᵥ d = len sqrt v * len sqrt v := by
    rw [Shape.len_mul_self hs, hv]
    exact Shape.dot_across c d _ perp
  have k1 : len sqrt v * len sqrt v - g * len sqrt d * len sqrt d ≤ w ⬝ᵥ d := by
    have b1 := Shape.dot_le_len hs (v - w) d
    rw [sub_dotProduct, vd, Shape.len_sub_comm hs] at b1
    have b2 := mul_le_mul_of_nonneg_right hwv D0.le
    linarith
  have k2 : len sqrt v - g * (κ ^ 2 + κ) * len sqrt v ≤ (len sqrt w)⁻¹ * (w ⬝ᵥ d) := by
    rw [← div_eq_inv_mul, le_div_iff₀ W0]
    refine le_trans ?_ k1
    have c1 : g * len sqrt d ≤ g * κ * len sqrt v := by
      rw [mul_assoc]
      exact mul_le_mul_of_nonneg_left hκ g0
    have c2 : g * len sqrt d * len sqrt d ≤ g * κ ^ 2 * (len sqrt v * len sqrt v) := by
      have := mul_le_mul c1 hκ D0.le (mul_nonneg (mul_nonneg g0 κ0.le) V0)
      linarith [show g * κ * len sqrt v * (κ * len sqrt v) = g * κ ^ 2 * (len sqrt v * len sqrt v) by ring]
    have hwl' : len sqrt w ≤ (1 + g * κ) * len sqrt v := by linarith
    have hpos : 0 ≤ 1 - g * (κ ^ 2 + κ) := sub_nonneg.2 hX
    have c3 := mul_le_mul_of_nonneg_left hwl' (mul_nonneg hpos V0)
    have c4 : 0 ≤ g * κ * (g * (κ ^ 2 + κ)) * (len sqrt v * len sqrt v) := by positivity
    linarith [show (1 - g * (κ ^ 2 + κ)) * len sqrt v * ((1 + g * κ) * len sqrt v) =
      len sqrt v * len sqrt v - g * κ ^ 2 * (len sqrt v * len sqrt v) - g * κ * (g * (κ ^ 2 + κ)) * (len sqrt v * len sqrt v) by ring]
  have hvL : len sqrt v ≤ L := by
    have b1 : len sqrt v ≤ len sqrt d := by
      have := Shape.dot_le_len hs v d
      rw [vd] at this
      exact le_of_mul_le_mul_left this vpos
    have b2 : len sqrt d ≤ L := by
      have b3 : len sqrt d * len sqrt d ≤ len sqrt d * L := by
        rw [Shape.len_mul_self hs, hL, dotProduct, Finset.mul_sum]
        refine Finset.sum_le_sum fun i _ => ?_
        rw [← abs_mul_abs_self]
        exact mul_le_mul_of_nonneg_right (coord_le_len hs d i) (abs_nonneg _)
      exact le_of_mul_le_mul_left b3 D0
    exact b1.trans b2
  have k3 := mul_le_mul_of_nonneg_left k2 hr
  have k4 : c.radius * (g * (κ ^ 2 + κ) * len sqrt v) ≤ c.radius * (g * (κ ^ 2 + κ) * L) := by
    have : 0 ≤ g * (κ ^ 2 + κ) := by positivity
    exact mul_le_mul_of_nonneg_left (mul_le_mul_of_nonneg_left hvL this) hr
  -- the points of the cylinder
  obtain ⟨t, u, t0, t1, hu, hul, rfl⟩ := hx
  have j1 : u ⬝ᵥ d ≤ c.radius * len sqrt v := by
    rw [Shape.dot_across c d u hu, ← hv]
    exact (Shape.dot_le_len hs u v).trans (mul_le_mul_of_nonneg_right hul V0)
  rw [add_dotProduct, add_dotProduct, smul_dotProduct, sub_dotProduct, smul_eq_mul, ← hL]
  have c0 := mul_le_mul_of_nonneg_left hend.1 (sub_nonneg.2 t1)
  have c1 := mul_le_mul_of_nonneg_left hend.2 t0
  rw [hE] at c0 c1
  linarith

omit [IsStrictOrderedRing K] [FloorRing K] in
/-- **C143.** Without rounding the support points are those of C52. -/
theorem C143_exact (c : Tube K N) (d : Fin N → K) : cylinderSupport (fun x => x) sqrt c d = c.cylSupport sqrt d := rfl

/-- **C143, refuted.** Along the axis the point is wrong by the radius: there are cylinders on the first axis, of any radius, and directions along it for which
the point is moved away from the centre of the end along the axis, to beyond the end or back into the cylinder, by the radius up to rounding. -/
theorem C143_axis_refuted (hp : 6 ≤ p) (h : IsRound p rnd) (hs : IsSqrt sqrt) (n : ℕ) (hN : (1 + eps K p) ^ (n + 1 + 2) < 2) (r : K) :
    ∃ a b : K, IsFloat p a ∧ IsFloat p b ∧ 0 < a ∧ b ≠ 0 ∧ ∃ (s : Fin (n + 1) → K) (e σ : K), (e = 0 ∨ e = a) ∧ (σ = 1 ∨ σ = -1) ∧
      cylinderSupport rnd sqrt (⟨0, Pi.single 0 a, r⟩ : Tube K (n + 1)) (Pi.single 0 b) = some s ∧ (∀ i, i ≠ 0 → s i = 0) ∧
      |s 0 - (e + σ * r)| ≤ ((1 + eps K p) ^ 3 * (1 / (2 - (1 + eps K p) ^ (n + 1 + 2))) - 1) * (e + |r|) := by
  have hp1 : 1 ≤ p := by omega
  obtain ⟨a, b, fa, fb, a0, hr⟩ := gs_nums (K := K) hp h
  obtain ⟨ρ, hρ⟩ : ∃ ρ, ρ = rnd (b - rnd (rnd (a * rnd (b * a)) / rnd (a * a))) := ⟨_, rfl⟩
  rw [← hρ] at hr
  have z : rnd 0 = 0 := h.fix (float_zero p)
  have b0 : b ≠ 0 := by
    rintro rfl
    apply hr
    rw [hρ]
    simp [z]
  have ea : sub rnd (Pi.single 0 a : Fin (n + 1) → K) 0 = Pi.single 0 a := by
    funext i
    rw [sub, Pi.zero_apply, sub_zero, Pi.single_apply]
    split_ifs
    · exact h.fix fa
    · exact z
  have m0 : rnd (a * a) ≠ 0 := by
    rw [Ne, h.zero_iff hp1]
    positivity
  have hpr : projectOn rnd (Pi.single 0 b : Fin (n + 1) → K) (Pi.single 0 a) = Pi.single 0 (rnd (rnd (a * rnd (b * a)) / rnd (a * a))) := by
    funext i
    have e1 : mag2 rnd (Pi.single 0 a : Fin (n + 1) → K) = rnd (a * a) := by
      have := dot_first h (Pi.single 0 a : Fin (n + 1) → K) a
      rwa [Pi.single_eq_same] at this
    have e2 : dot rnd (Pi.single 0 b : Fin (n + 1) → K) (Pi.single 0 a) = rnd (b * a) := by
      rw [dot_first h, Pi.single_eq_same]
    rw [projectOn, if_pos (by rw [e1]; exact m0), e1, e2]
    rw [Pi.single_apply, Pi.single_apply]
    split_ifs
    · rfl
    · rw [zero_mul, z, zero_div, z]
  have hout : sub rnd (Pi.single 0 b : Fin (n + 1) → K) (projectOn rnd (Pi.single 0 b) (Pi.single 0 a)) = Pi.single 0 ρ := by
    rw [hpr, hρ]
    funext i
    rw [sub, Pi.single_apply, Pi.single_apply, Pi.single_apply]
    split_ifs
    · rfl
    · rw [sub_zero, z]
  obtain ⟨P, hP⟩ : ∃ P : Fin (n + 1) → K, P = if dot rnd (Pi.single 0 b : Fin (n + 1) → K) (Pi.single 0 a) > 0 then Pi.single 0 a else 0 := ⟨_, rfl⟩
  have w0 : (Pi.single 0 ρ : Fin (n + 1) → K) ≠ 0 := fun hh => hr (by
    have := congrFun hh 0
    rwa [Pi.single_eq_same] at this)
  have lw : len sqrt (Pi.single 0 ρ : Fin (n + 1) → K) = |ρ| := by
    have a1 := Shape.len_mul_self hs (Pi.single 0 ρ : Fin (n + 1) → K)
    rw [single_dotProduct, Pi.single_eq_same, ← abs_mul_abs_self ρ] at a1
    exact (mul_self_inj (Shape.len_nonneg hs _) (abs_nonneg _)).1 a1
  obtain ⟨s, es, hb⟩ := (C138_at_distance hp1 h hs hN P (Pi.single 0 ρ) r).2 w0
  rw [lw] at hb
  have hP0 : (P 0 = 0 ∨ P 0 = a) ∧ ∀ i, i ≠ 0 → P i = 0 := by
    rw [hP]
    split_ifs
    · exact ⟨Or.inr (Pi.single_eq_same _ _), fun i hi => Pi.single_eq_of_ne hi _⟩
    · exact ⟨Or.inl rfl, fun i _ => rfl⟩
  refine ⟨a, b, fa, fb, a0, b0, s, P 0, ρ / |ρ|, hP0.1, ?_, ?_, fun i hi => ?_, ?_⟩
  · rcases lt_or_gt_of_ne hr with hlt | hgt
    · rw [abs_of_neg hlt, div_neg, div_self hr]
      exact Or.inr rfl
    · rw [abs_of_pos hgt, div_self hr]
      exact Or.inl rfl
  · rw [← es, hP, ← hout]
    rw [cylinderSupport]
    simp only [ea]
    rfl
  · have := hb i
    rw [hP0.2 i hi, Pi.single_eq_of_ne hi] at this
    simpa using this
  · have := hb 0
    rw [Pi.single_eq_same] at this
    have a1 : |ρ / |ρ| * r| = |r| := by
      rw [abs_mul, abs_div, abs_abs, div_self (abs_ne_zero.2 hr), one_mul]
    rw [a1] at this
    have a2 : |P 0| = P 0 := abs_of_nonneg (by
      rcases hP0.1 with e | e <;> rw [e]
      exact a0.le)
    rwa [a2] at this

/-- In `double`: a cylinder of radius 5, with the end beyond which the point is found, and one within which it is. -/
example : (cylinderSupport (nearest 53) root (⟨![0, 0], ![nearest 53 (397 / 7), 0], 5⟩ : Tube ℚ 2) ![nearest 53 (397 / 7), 0]).map (fun s => decide (s 0 > 61)) =
      some true ∧
    (cylinderSupport (nearest 53) root (⟨![0, 0], ![nearest 53 (386 / 7), 0], 5⟩ : Tube ℚ 2) ![nearest 53 (386 / 7), 0]).map (fun s => decide (s 0 < 51)) =
      some true ∧
    cylinderSupport (nearest 53) root (⟨![0, 0], ![4, 0], 5⟩ : Tube ℚ 2) ![1, 3] = some ![4, 5] ∧
    cylinderSupport (nearest 53) root (⟨![0, 0], ![4, 0], 5⟩ : Tube ℚ 2) ![-1, 3] = some ![0, 5] ∧
    cylinderSupport (nearest 53) root (⟨![0, 0], ![4, 0], 5⟩ : Tube ℚ 2) ![1, 0] = none := by
  decide +kernel

end Geomc.Flt
