import Mathlib.MeasureTheory.Measure.Lebesgue.EqHaar
import Mathlib.MeasureTheory.Measure.Haar.NormedSpace
import Mathlib.MeasureTheory.Integral.Average
import Mathlib.Analysis.SpecialFunctions.Integrals.Basic
import Mathlib.LinearAlgebra.UnitaryGroup
import Verif.Random.SamplerProps

/-!
# C83: uniform samples

The values of the generator are independent and uniform in `[0, 1]`, so the probability that the next `n` values are in a set is the
volume of the part of the set in the cube `[0, 1]^n`.
-/

namespace Geomc.Sampler

open Geomc.Vec MeasureTheory
open scoped Pointwise

variable {n : ℕ}

/-- The values for which a sampler of `n` values returns something in `A`. -/
def Draws {B : Type} (f : Smp B) (n : ℕ) (A : Set B) : Set (Fin n → ℝ) :=
  {w | (∀ i, 0 ≤ w i ∧ w i ≤ 1) ∧ ∃ x ∈ A, ∃ t, f (List.ofFn w) = some (x, t)}

theorem box_ofFn (lo hi : Fin n → ℝ) (w : Fin n → ℝ) (t : List ℝ) :
    box lo hi (List.ofFn w ++ t) = some (fun i => (hi i - lo i) * w i + lo i, t) := by
  unfold box
  rw [if_pos (by simp), Option.some.injEq, Prod.mk.injEq]
  constructor
  · ext i
    rw [List.getD_eq_getElem?_getD, List.getElem?_append_left (by simp), List.getElem?_ofFn, dif_pos i.2]
    rfl
  · rw [List.drop_append_of_le_length (by simp), List.drop_of_length_le (by simp), List.nil_append]

/-- The volume of a stretched and moved set. -/
theorem volume_stretch (d lo : Fin n → ℝ) (W : Set (Fin n → ℝ)) :
    volume ((fun (w : Fin n → ℝ) (i : Fin n) => d i * w i + lo i) '' W) = ENNReal.ofReal |∏ i, d i| * volume W := by
  have h1 : (fun (w : Fin n → ℝ) (i : Fin n) => d i * w i + lo i) '' W =
      (fun x => x + lo) '' (Matrix.toLin' (Matrix.diagonal d) '' W) := by
    rw [Set.image_image]
    refine Set.image_congr fun w _ => ?_
    ext i
    simp [Matrix.mulVec_diagonal]
  rw [h1, Set.image_add_right, measure_preimage_add_right, Measure.addHaar_image_linearMap, LinearMap.det_toLin',
    Matrix.det_diagonal]

/-- **C83**: `box` is uniform: the probability of a part of the box is its share of the volume. -/
theorem C83_box (lo hi : Fin n → ℝ) (h : ∀ i, lo i < hi i) (A : Set (Fin n → ℝ)) (hA : A ⊆ Set.Icc lo hi) :
    volume (Draws (box lo hi) n A) * volume (Set.Icc lo hi) = volume A := by
  have hd : ∀ i, 0 < hi i - lo i := fun i => sub_pos.2 (h i)
  have h1 : A = (fun (w : Fin n → ℝ) (i : Fin n) => (hi i - lo i) * w i + lo i) '' Draws (box lo hi) n A := by
    ext x
    constructor
    · intro hx
      have hb := hA hx
      have e : (fun i => (hi i - lo i) * ((x i - lo i) / (hi i - lo i)) + lo i) = x := by
        ext i
        rw [mul_div_cancel₀ _ (hd i).ne']
        ring
      refine ⟨fun i => (x i - lo i) / (hi i - lo i), ⟨fun i => ⟨div_nonneg (sub_nonneg.2 (hb.1 i)) (hd i).le,
        (div_le_one (hd i)).2 (sub_le_sub_right (hb.2 i) _)⟩, x, hx, [], ?_⟩, e⟩
      have := box_ofFn lo hi (fun i => (x i - lo i) / (hi i - lo i)) []
      rw [List.append_nil] at this
      rw [this, e]
    · rintro ⟨w, ⟨-, y, hy, t, e⟩, rfl⟩
      have := box_ofFn lo hi w []
      rw [List.append_nil, e, Option.some.injEq, Prod.mk.injEq] at this
      show (fun i => (hi i - lo i) * w i + lo i) ∈ A
      exact this.1 ▸ hy
  conv_rhs => rw [h1]
  rw [volume_stretch (fun i => hi i - lo i), Real.volume_Icc_pi, mul_comm, abs_of_pos (Finset.prod_pos fun i _ => hd i),
    ENNReal.ofReal_prod_of_nonneg fun i _ => (hd i).le]

/-! ## The loop -/

theorem ballLoop_fuel (f : ℕ) (s : List ℝ) (h : s.length < f) : ballLoop n f s = solidball n s := by
  have key : ∀ f g s, s.length < f → s.length < g → ballLoop n f s = ballLoop n g s := by
    intro f
    induction f with
    | zero => intro g s h; omega
    | succ f ih =>
      intro g s hf hg
      rcases g with _ | g
      · omega
      rw [ballLoop, ballLoop]
      rcases e : box (fun _ : Fin n => -1) (fun _ => 1) s with _ | ⟨v, s'⟩
      · rfl
      · simp only [Option.bind_eq_bind, Option.bind_some]
        by_cases hm : mag2 v > 1
        · rw [if_pos hm, if_pos hm]
          have hn : 0 < n := by
            rcases Nat.eq_zero_or_pos n with h0 | h0
            · subst h0
              rw [mag2_eq] at hm
              simp at hm
              linarith
            · exact h0
          have hl : s'.length + n = s.length := by
            unfold box at e
            split_ifs at e with hsn
            simp only [Option.some.injEq, Prod.mk.injEq] at e
            rw [← e.2, List.length_drop]
            omega
          exact ih g s' (by omega) (by omega)
        · rw [if_neg hm, if_neg hm]
  exact key f (s.length + 1) s h (Nat.lt_succ_self _)

/-- The first draw of `solidball`: returned, or else the loop starts anew. -/
theorem solidball_first (w : Fin n → ℝ) (t : List ℝ) : solidball n (List.ofFn w ++ t) =
    if mag2 (fun i => 2 * w i + -1) > 1 then solidball n t else some (fun i => 2 * w i + -1, t) := by
  rw [solidball, ballLoop, box_ofFn]
  simp only [Option.bind_eq_bind, Option.bind_some, show (1 : ℝ) - -1 = 2 by norm_num]
  by_cases hm : mag2 (fun i => 2 * w i + -1) > 1
  · rw [if_pos hm, if_pos hm]
    refine ballLoop_fuel _ _ ?_
    have hn : 0 < n := by
      rcases Nat.eq_zero_or_pos n with h0 | h0
      · subst h0
        rw [mag2_eq] at hm
        simp at hm
        linarith
      · exact h0
    simp
    omega
  · rw [if_neg hm, if_neg hm]

theorem solidball_nil (hn : 0 < n) : solidball n [] = none := by
  rw [solidball, ballLoop, box, if_neg (by simp; omega)]
  rfl

/-- The probability that a draw of `solidball` is rejected. -/
noncomputable def reject (n : ℕ) : ENNReal := volume {w : Fin n → ℝ | (∀ i, 0 ≤ w i ∧ w i ≤ 1) ∧ mag2 (fun i => 2 * w i + -1) > 1}

/-- One draw. -/
theorem draws_one (A : Set (Fin n → ℝ)) (hA : ∀ x ∈ A, mag2 x ≤ 1) (hn : 0 < n) :
    2 ^ n * volume (Draws (solidball n) n A) = volume A := by
  have h1 : A = (fun (w : Fin n → ℝ) (i : Fin n) => 2 * w i + -1) '' Draws (solidball n) n A := by
    ext x
    constructor
    · intro hx
      have e : (fun i => 2 * ((x i + 1) / 2) + -1) = x := by
        ext i
        ring
      have hb : ∀ i, -1 ≤ x i ∧ x i ≤ 1 := by
        intro i
        have : x i * x i ≤ 1 := by
          refine le_trans ?_ (hA x hx)
          rw [mag2_eq]
          exact Finset.single_le_sum (f := fun i => x i * x i) (fun j _ => mul_self_nonneg _) (Finset.mem_univ i)
        exact abs_le.1 (abs_le_one_iff_mul_self_le_one.2 this)
      refine ⟨fun i => (x i + 1) / 2, ⟨fun i => ⟨by linarith [hb i], by linarith [hb i]⟩, x, hx, [], ?_⟩, e⟩
      have := solidball_first (fun i => (x i + 1) / 2) []
      rw [List.append_nil, e, if_neg (not_lt.2 (hA x hx))] at this
      exact this
    · rintro ⟨w, ⟨-, y, hy, t, e⟩, rfl⟩
      have := solidball_first w []
      rw [List.append_nil, e, solidball_nil hn] at this
      split_ifs at this
      rw [Option.some.injEq, Prod.mk.injEq] at this
      show (fun i => 2 * w i + -1) ∈ A
      exact this.1 ▸ hy
  conv_rhs => rw [h1]
  rw [volume_stretch (fun _ => 2) (fun _ => -1)]
  congr 1
  rw [Finset.prod_const, Finset.card_univ, Fintype.card_fin, abs_of_pos (by positivity), ENNReal.ofReal_pow (by norm_num)]
  norm_num

/-- The blocks of values, `k` of them, for which a sampler returns something in `A`. -/
def Blocks {B : Type} (f : Smp B) (n k : ℕ) (A : Set B) : Set (Fin k → Fin n → ℝ) :=
  {W | (∀ j i, 0 ≤ W j i ∧ W j i ≤ 1) ∧ ∃ x ∈ A, ∃ t, f ((List.ofFn fun j => List.ofFn (W j)).flatten) = some (x, t)}

theorem mem_draws (hn : 0 < n) (A : Set (Fin n → ℝ)) (hA : ∀ x ∈ A, mag2 x ≤ 1) (w : Fin n → ℝ) :
    w ∈ Draws (solidball n) n A ↔ (∀ i, 0 ≤ w i ∧ w i ≤ 1) ∧ (fun i => 2 * w i + -1) ∈ A := by
  have h := solidball_first w []
  rw [List.append_nil, solidball_nil hn] at h
  constructor
  · rintro ⟨hw, x, hx, t, e⟩
    refine ⟨hw, ?_⟩
    rw [e] at h
    split_ifs at h
    rw [Option.some.injEq, Prod.mk.injEq] at h
    exact h.1 ▸ hx
  · rintro ⟨hw, hx⟩
    refine ⟨hw, _, hx, [], ?_⟩
    rw [h, if_neg (not_lt.2 (hA _ hx))]

theorem cube_volume (k n : ℕ) : volume {W : Fin k → Fin n → ℝ | ∀ j i, 0 ≤ W j i ∧ W j i ≤ 1} = 1 := by
  have h : {W : Fin k → Fin n → ℝ | ∀ j i, 0 ≤ W j i ∧ W j i ≤ 1} =
      Set.univ.pi fun _ => Set.univ.pi fun _ => Set.Icc (0 : ℝ) 1 := by
    ext W
    simp only [Set.mem_pi, Set.mem_univ, true_implies, Set.mem_Icc, Set.mem_setOf_eq]
  rw [h, volume_pi_pi]
  simp only [volume_pi_pi, Real.volume_Icc]
  simp

/-- **C83**: `solidball` is uniform: with values for `k` draws, the probability of a part of the ball is its volume by a number that
is the same for all parts. -/
theorem C83_ball (hn : 0 < n) (A : Set (Fin n → ℝ)) (hA : ∀ x ∈ A, mag2 x ≤ 1) (hm : MeasurableSet A) (k : ℕ) :
    2 ^ n * volume (Blocks (solidball n) n k A) = volume A * ∑ j ∈ Finset.range k, reject n ^ j := by
  induction k with
  | zero =>
    have : Blocks (solidball n) n 0 A = ∅ := by
      ext W
      simp only [Blocks, Set.mem_setOf_eq, Set.mem_empty_iff_false, iff_false]
      rintro ⟨-, x, -, t, e⟩
      rw [List.ofFn_zero, List.flatten_nil, solidball_nil hn] at e
      cases e
    rw [this]
    simp
  | succ k ih =>
    let R : Set (Fin n → ℝ) := {w | (∀ i, 0 ≤ w i ∧ w i ≤ 1) ∧ mag2 (fun i => 2 * w i + -1) > 1}
    let C : Set (Fin k → Fin n → ℝ) := {W | ∀ j i, 0 ≤ W j i ∧ W j i ≤ 1}
    have h1 : Blocks (solidball n) n (k + 1) A = MeasurableEquiv.piFinSuccAbove (fun _ => Fin n → ℝ) 0 ⁻¹'
        (Draws (solidball n) n A ×ˢ C ∪ R ×ˢ Blocks (solidball n) n k A) := by
      ext W
      have e : (List.ofFn fun j => List.ofFn (W j)).flatten =
          List.ofFn (W 0) ++ (List.ofFn fun j : Fin k => List.ofFn (W j.succ)).flatten := by
        rw [List.ofFn_succ, List.flatten_cons]
      have hc : (∀ j i, 0 ≤ W j i ∧ W j i ≤ 1) ↔ (∀ i, 0 ≤ W 0 i ∧ W 0 i ≤ 1) ∧ ∀ (j : Fin k) i, 0 ≤ W j.succ i ∧ W j.succ i ≤ 1 :=
        Fin.forall_fin_succ
      have hp : MeasurableEquiv.piFinSuccAbove (fun _ => Fin n → ℝ) 0 W = (W 0, fun j => W j.succ) := by
        rfl
      rw [Set.mem_preimage, hp, Set.mem_union, Set.mem_prod, Set.mem_prod]
      show ((∀ j i, 0 ≤ W j i ∧ W j i ≤ 1) ∧ _) ↔ _
      rw [mem_draws hn A hA, e, solidball_first, hc]
      by_cases hr : mag2 (fun i => 2 * W 0 i + -1) > 1
      · rw [if_pos hr]
        have hA' : (fun i => 2 * W 0 i + -1) ∉ A := fun h => absurd (hA _ h) (not_le.2 hr)
        simp only [hA', and_false, false_and, false_or]
        exact ⟨fun h => ⟨⟨h.1.1, hr⟩, h.1.2, h.2⟩, fun h => ⟨⟨h.1.1, h.2.1⟩, h.2.2⟩⟩
      · rw [if_neg hr]
        constructor
        · rintro ⟨⟨hw, hW⟩, x, hx, t, e⟩
          rw [Option.some.injEq, Prod.mk.injEq] at e
          exact .inl ⟨⟨hw, e.1 ▸ hx⟩, hW⟩
        · rintro (⟨⟨hw, hx⟩, hW⟩ | ⟨⟨-, h⟩, -⟩)
          · exact ⟨⟨hw, hW⟩, _, hx, _, rfl⟩
          · exact absurd h hr
    have hmf : Measurable fun (w : Fin n → ℝ) (i : Fin n) => 2 * w i + -1 :=
      measurable_pi_lambda _ fun i => ((measurable_pi_apply i).const_mul 2).add_const _
    have hmD : MeasurableSet (Draws (solidball n) n A) := by
      have : Draws (solidball n) n A = (Set.univ.pi fun _ => Set.Icc (0 : ℝ) 1) ∩ (fun w i => 2 * w i + -1) ⁻¹' A := by
        ext w
        rw [mem_draws hn A hA]
        simp only [Set.mem_pi, Set.mem_univ, true_implies, Set.mem_Icc, Set.mem_inter_iff, Set.mem_preimage]
      rw [this]
      exact (MeasurableSet.univ_pi fun _ => measurableSet_Icc).inter (hmf hm)
    have hmC : MeasurableSet C := by
      have : C = Set.univ.pi fun _ => Set.univ.pi fun _ => Set.Icc (0 : ℝ) 1 := by
        ext W
        simp only [C, Set.mem_pi, Set.mem_univ, true_implies, Set.mem_Icc, Set.mem_setOf_eq]
      rw [this]
      exact MeasurableSet.univ_pi fun _ => MeasurableSet.univ_pi fun _ => measurableSet_Icc
    have hdis : Disjoint (R ×ˢ Blocks (solidball n) n k A) (Draws (solidball n) n A ×ˢ C) := by
      rw [Set.disjoint_left]
      rintro ⟨w, W⟩ ⟨⟨-, hr⟩, -⟩ ⟨hw, -⟩
      rw [mem_draws hn A hA] at hw
      exact absurd (hA _ hw.2) (not_le.2 hr)
    rw [h1, (volume_preserving_piFinSuccAbove (fun _ => Fin n → ℝ) 0).measure_preimage_equiv, Set.union_comm,
      measure_union hdis (hmD.prod hmC), Measure.volume_eq_prod, Measure.prod_prod, Measure.prod_prod, cube_volume, mul_one,
      Finset.sum_range_succ', pow_zero, mul_add, mul_add, draws_one A hA hn, mul_one, mul_left_comm, ih,
      show volume R = reject n from rfl, mul_left_comm, Finset.mul_sum]
    simp only [pow_succ']

/-- The points of the ball with directions in a set. -/
def Cone (A : Set (Fin n → ℝ)) : Set (Fin n → ℝ) :=
  {x | (mag2 x ≤ 1 ∧ x ≠ 0) ∧ (fun i => x i / Real.sqrt (mag2 x)) ∈ A}

theorem blocks_unit (A : Set (Fin n → ℝ)) (k : ℕ) : Blocks (unitVec n) n k A = Blocks (solidball n) n k (Cone A) := by
  ext W
  refine and_congr_right fun hW => ?_
  have hg : Good (List.ofFn fun j => List.ofFn (W j)).flatten := by
    intro u hu
    rw [List.mem_flatten] at hu
    obtain ⟨l, hl, hu⟩ := hu
    rw [List.mem_ofFn] at hl
    obtain ⟨j, rfl⟩ := hl
    rw [List.mem_ofFn] at hu
    obtain ⟨i, rfl⟩ := hu
    exact hW j i
  have hz : ∀ v : Fin n → ℝ, Real.sqrt (mag2 v) = 0 ↔ v = 0 := by
    intro v
    rw [Real.sqrt_eq_zero (mag2_nonneg' v), mag2_eq, self_dot_eq_zero]
  constructor
  · rintro ⟨x, hx, t, e⟩
    simp only [unitVec] at e
    rcases e1 : solidball n (List.ofFn fun j => List.ofFn (W j)).flatten with _ | ⟨v, s'⟩
    · rw [e1] at e
      cases e
    · rw [e1] at e
      simp only [Option.bind_eq_bind, Option.bind_some, unit] at e
      by_cases h0 : Real.sqrt (mag2 v) = 0
      · rw [if_pos h0] at e
        cases e
      · rw [if_neg h0] at e
        simp only [Option.bind_some, Option.some.injEq, Prod.mk.injEq] at e
        exact ⟨v, ⟨⟨(solidball_good _ _ v hg e1).1, fun h => h0 ((hz v).2 h)⟩, e.1 ▸ hx⟩, s', rfl⟩
  · rintro ⟨v, ⟨⟨-, h0⟩, hx⟩, t, e⟩
    refine ⟨_, hx, t, ?_⟩
    simp only [unitVec, Option.bind_eq_bind, e, Option.bind_some, unit]
    rw [if_neg (fun h => h0 ((hz v).1 h))]
    rfl

theorem measurable_mag2 : Measurable fun x : Fin n → ℝ => mag2 x := by
  simp only [mag2_eq, dotProduct]
  exact Finset.measurable_sum _ fun i _ => (measurable_pi_apply i).mul (measurable_pi_apply i)

theorem measurable_cone (A : Set (Fin n → ℝ)) (hm : MeasurableSet A) : MeasurableSet (Cone A) := by
  refine ((measurableSet_le measurable_mag2 measurable_const).inter (MeasurableSet.singleton (0 : Fin n → ℝ)).compl).inter ?_
  exact (measurable_pi_lambda _ fun i => (measurable_pi_apply i).div (measurable_mag2.sqrt)) hm

/-- Turning a set of directions does not alter its solid angle. -/
theorem cone_turn (A : Set (Fin n → ℝ)) (Q : Matrix (Fin n) (Fin n) ℝ) (hQ : Q.transpose * Q = 1) :
    volume (Cone {x | Q.mulVec x ∈ A}) = volume (Cone A) := by
  have hd : |Q.det| = 1 := by
    have h := congrArg Matrix.det hQ
    rw [Matrix.det_mul, Matrix.det_transpose, Matrix.det_one] at h
    rcases mul_self_eq_one_iff.1 h with h | h <;> rw [h] <;> simp
  have hQd : Q.det ≠ 0 := fun h => by
    rw [h] at hd
    simp at hd
  have hmag : ∀ x : Fin n → ℝ, mag2 (Q.mulVec x) = mag2 x := by
    intro x
    rw [mag2_eq, mag2_eq, Matrix.dotProduct_mulVec, ← Matrix.mulVec_transpose, Matrix.mulVec_mulVec, hQ, Matrix.one_mulVec]
  have hc : Cone {x | Q.mulVec x ∈ A} = Matrix.toLin' Q ⁻¹' Cone A := by
    ext x
    show (_ ∧ _) ∧ _ ↔ (_ ∧ _) ∧ _
    rw [Matrix.toLin'_apply, hmag]
    refine and_congr (and_congr_right fun _ => not_congr ⟨fun h => by rw [h, Matrix.mulVec_zero], fun h => ?_⟩) ?_
    · apply (self_dot_eq_zero x).1
      rw [← mag2_eq, ← hmag, h, mag2_eq, zero_dotProduct]
    · have : (fun i => Q.mulVec x i / Real.sqrt (mag2 x)) = Q.mulVec fun i => x i / Real.sqrt (mag2 x) := by
        rw [show (fun i => x i / Real.sqrt (mag2 x)) = (Real.sqrt (mag2 x))⁻¹ • x by
          ext i
          simp [div_eq_inv_mul], Matrix.mulVec_smul]
        ext i
        simp [div_eq_inv_mul]
      rw [this]
      rfl
  rw [hc, Measure.addHaar_preimage_linearMap _ (by rwa [LinearMap.det_toLin']), LinearMap.det_toLin', abs_inv, hd]
  simp

/-- **C83**: so are the directions of `unit`: turning or mirroring a set of directions does not alter its probability. -/
theorem C83_unit (hn : 0 < n) (A : Set (Fin n → ℝ)) (hm : MeasurableSet A) (Q : Matrix (Fin n) (Fin n) ℝ) (hQ : Q.transpose * Q = 1)
    (k : ℕ) : volume (Blocks (unitVec n) n k {x | Q.mulVec x ∈ A}) = volume (Blocks (unitVec n) n k A) := by
  have hmQ : MeasurableSet {x : Fin n → ℝ | Q.mulVec x ∈ A} :=
    ((Matrix.toLin' Q).continuous_of_finiteDimensional.measurable hm :)
  have hv := cone_turn A Q hQ
  rw [blocks_unit, blocks_unit]
  have h1 := C83_ball hn (Cone {x | Q.mulVec x ∈ A}) (fun x hx => hx.1.1) (measurable_cone _ hmQ) k
  have h2 := C83_ball hn (Cone A) (fun x hx => hx.1.1) (measurable_cone _ hm) k
  rw [hv, ← h2] at h1
  exact (ENNReal.mul_right_inj (by positivity) (by finiteness)).1 h1

/-! ## The ball with a radius -/

theorem ball_measurable (r : ℝ) : MeasurableSet {x : Fin n → ℝ | mag2 x ≤ r ^ 2} :=
  measurableSet_le measurable_mag2 measurable_const

theorem ball_sub (r : ℝ) (hr : 0 ≤ r) : {x : Fin n → ℝ | mag2 x ≤ r ^ 2} ⊆ Set.Icc (fun _ => -r) (fun _ => r) := by
  intro x hx
  have hb : ∀ i, |x i| ≤ r := by
    intro i
    refine abs_le_of_sq_le_sq ?_ hr
    refine le_trans ?_ hx
    rw [mag2_eq, sq]
    exact Finset.single_le_sum (f := fun i => x i * x i) (fun j _ => mul_self_nonneg _) (Finset.mem_univ i)
  exact ⟨fun i => (abs_le.1 (hb i)).1, fun i => (abs_le.1 (hb i)).2⟩

theorem ball_finite (r : ℝ) (hr : 0 ≤ r) : volume {x : Fin n → ℝ | mag2 x ≤ r ^ 2} ≠ ⊤ :=
  ((measure_mono (ball_sub r hr)).trans_lt (by rw [Real.volume_Icc_pi]; exact ENNReal.prod_lt_top fun i _ => by simp)).ne

theorem continuous_mag2 : Continuous fun x : Fin n → ℝ => mag2 x := by
  simp only [mag2_eq, dotProduct]
  exact continuous_finset_sum _ fun i _ => (continuous_apply i).mul (continuous_apply i)

theorem ball_pos (r : ℝ) (hr : 0 < r) : 0 < volume {x : Fin n → ℝ | mag2 x ≤ r ^ 2} := by
  refine lt_of_lt_of_le ?_ (measure_mono (show {x : Fin n → ℝ | mag2 x < r ^ 2} ⊆ _ from fun x (hx : mag2 x < r ^ 2) => hx.le))
  refine (isOpen_lt continuous_mag2 continuous_const).measure_pos volume ⟨0, ?_⟩
  show mag2 (0 : Fin n → ℝ) < _
  rw [mag2_eq, zero_dotProduct]
  positivity

/-- The mean of the squared lengths in a ball. -/
theorem mean_pos (hn : 0 < n) (r : ℝ) (hr : 0 < r) : 0 < ⨍ x in {x : Fin n → ℝ | mag2 x ≤ r ^ 2}, mag2 x := by
  rw [setAverage_eq, smul_eq_mul]
  refine mul_pos (inv_pos.2 (ENNReal.toReal_pos (ball_pos r hr).ne' (ball_finite r hr.le))) ?_
  have hi : IntegrableOn (fun x : Fin n → ℝ => mag2 x) {x | mag2 x ≤ r ^ 2} :=
    (continuous_mag2.integrableOn_Icc).mono_set (ball_sub r hr.le)
  rw [setIntegral_pos_iff_support_of_nonneg_ae (ae_of_all _ fun x => mag2_nonneg' x) hi]
  have hs : Function.support (fun x : Fin n → ℝ => mag2 x) ∩ {x | mag2 x ≤ r ^ 2} = {x | mag2 x ≤ r ^ 2} \ {0} := by
    ext x
    simp only [Function.mem_support, Set.mem_inter_iff, Set.mem_setOf_eq, Set.mem_diff, Set.mem_singleton_iff, ne_eq]
    rw [and_comm, mag2_eq, self_dot_eq_zero]
  have : NeZero n := ⟨hn.ne'⟩
  rw [hs, measure_diff_null (measure_singleton 0)]
  exact ball_pos r hr

/-- The means of the balls are as the squares of their radii. -/
theorem mean_scale (r : ℝ) (hr : 0 < r) :
    ⨍ x in {x : Fin n → ℝ | mag2 x ≤ r ^ 2}, mag2 x = r ^ 2 * ⨍ x in {x : Fin n → ℝ | mag2 x ≤ 1 ^ 2}, mag2 x := by
  have hs : r • {x : Fin n → ℝ | mag2 x ≤ 1 ^ 2} = {x | mag2 x ≤ r ^ 2} := by
    ext x
    rw [Set.mem_smul_set]
    have := ball_scale r x
    rw [Set.mem_setOf_eq, ← this]
    constructor
    · rintro ⟨v, hv, rfl⟩
      exact ⟨v, by simpa using hv, by ext i; simp [mul_comm]⟩
    · rintro ⟨v, hv, rfl⟩
      exact ⟨v, by simpa using hv, by ext i; simp [mul_comm]⟩
  have hv : volume {x : Fin n → ℝ | mag2 x ≤ r ^ 2} = ENNReal.ofReal (r ^ n) * volume {x : Fin n → ℝ | mag2 x ≤ 1 ^ 2} := by
    rw [← hs, Measure.addHaar_smul, abs_of_pos (by positivity)]
    simp
  have hI := Measure.setIntegral_comp_smul_of_pos volume (fun x : Fin n → ℝ => mag2 x) {x | mag2 x ≤ 1 ^ 2} hr
  rw [hs] at hI
  have hm : ∀ x : Fin n → ℝ, mag2 (r • x) = r ^ 2 * mag2 x := by
    intro x
    rw [← mag2_mul]
    congr 1
    ext i
    simp [mul_comm]
  simp only [hm] at hI
  rw [integral_const_mul, smul_eq_mul] at hI
  rw [setAverage_eq, setAverage_eq, smul_eq_mul, smul_eq_mul, measureReal_def, measureReal_def, hv, ENNReal.toReal_mul,
    ENNReal.toReal_ofReal (by positivity), mul_inv]
  have hr' : r ^ n ≠ 0 := by positivity
  rw [Module.finrank_fin_fun] at hI
  rw [mul_left_comm, hI]
  ring

/-- The mean of the squares of the factor. -/
theorem factor_mean (hn : 0 < n) : ∫ u in (0 : ℝ)..1, (u ^ (1 / (n : ℝ))) ^ 2 = n / (n + 2) := by
  have hn' : (0 : ℝ) < n := Nat.cast_pos.2 hn
  have h1 : ∫ u in (0 : ℝ)..1, (u ^ (1 / (n : ℝ))) ^ 2 = ∫ u in (0 : ℝ)..1, u ^ (2 / (n : ℝ)) := by
    refine intervalIntegral.integral_congr fun u hu => ?_
    rw [Set.uIcc_of_le zero_le_one] at hu
    show (u ^ (1 / (n : ℝ))) ^ 2 = u ^ (2 / (n : ℝ))
    rw [← Real.rpow_natCast, ← Real.rpow_mul hu.1]
    congr 1
    push_cast
    ring
  rw [h1, integral_rpow (.inl (by have : 0 < 2 / (n : ℝ) := by positivity
                                  linarith)), Real.one_rpow, Real.zero_rpow (by positivity), sub_zero]
  field_simp
  ring

/-- **C83** is refuted for `solidball(radius)`: the mean of the squared lengths of what it returns is `n / (n + 2)` of the mean in
the ball. -/
theorem C83_ball_radius_refuted (hn : 0 < n) (r : ℝ) (hr : 0 < r) :
    (∀ u s v t, solidball n s = some (v, t) → solidballR n r (u :: s) = some (fun i => v i * u ^ (1 / (n : ℝ)) * r, t)) ∧
    (⨍ v in {x : Fin n → ℝ | mag2 x ≤ 1 ^ 2}, ∫ u in (0 : ℝ)..1, mag2 fun i => v i * u ^ (1 / (n : ℝ)) * r) =
      n / (n + 2) * ⨍ x in {x : Fin n → ℝ | mag2 x ≤ r ^ 2}, mag2 x ∧
    (⨍ v in {x : Fin n → ℝ | mag2 x ≤ 1 ^ 2}, ∫ u in (0 : ℝ)..1, mag2 fun i => v i * u ^ (1 / (n : ℝ)) * r) <
      ⨍ x in {x : Fin n → ℝ | mag2 x ≤ r ^ 2}, mag2 x := by
  have h2 : (⨍ v in {x : Fin n → ℝ | mag2 x ≤ 1 ^ 2}, ∫ u in (0 : ℝ)..1, mag2 fun i => v i * u ^ (1 / (n : ℝ)) * r) =
      n / (n + 2) * ⨍ x in {x : Fin n → ℝ | mag2 x ≤ r ^ 2}, mag2 x := by
    have : ∀ v : Fin n → ℝ, (∫ u in (0 : ℝ)..1, mag2 fun i => v i * u ^ (1 / (n : ℝ)) * r) = n / (n + 2) * r ^ 2 * mag2 v := by
      intro v
      simp only [mag2_mul]
      rw [intervalIntegral.integral_const_mul, intervalIntegral.integral_mul_const, factor_mean hn]
      ring
    simp only [this]
    rw [mean_scale r hr, setAverage_eq, setAverage_eq, integral_const_mul]
    simp only [smul_eq_mul]
    ring
  refine ⟨fun u s v t e => ?_, h2, ?_⟩
  · simp only [solidballR, rand, Option.bind_eq_bind, Option.bind_some, e]
  · rw [h2]
    have := mean_pos hn r hr
    have h3 : (n : ℝ) / (n + 2) < 1 := (div_lt_one (by positivity)).2 (by linarith)
    nlinarith

/-! ## Examples -/

/-- A quarter of the samples of the interval `[-1, 1]` are in `[0, 1/2]`. -/
example : 2 * volume (Blocks (solidball 1) 1 1 (Set.Icc (fun _ => 0) (fun _ => 1 / 2))) = ENNReal.ofReal (1 / 2) := by
  have h := C83_ball (n := 1) one_pos (Set.Icc (fun _ => 0) (fun _ => 1 / 2)) ?_ measurableSet_Icc 1
  · rw [pow_one, Real.volume_Icc_pi] at h
    rw [h]
    simp
  · intro x hx
    have h0 := hx.1 0
    have h1 := hx.2 0
    rw [mag2_eq, dotProduct, Fin.sum_univ_one]
    simp only at h0 h1
    nlinarith

end Geomc.Sampler
