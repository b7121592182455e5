import Verif.Float.SatModel
import Verif.Float.Dist
import Verif.Float.Gjk
import Verif.Shape.Sat

/-! # Property C131: the separating axis test in floating point -/

namespace Geomc.Flt

open Geomc.Rect (Box mem_pts not_empty_iff)
open Geomc.Affine (XF Wf)
open Geomc.Shape (satRange xfAxis xfNormal placed satRange_spec corner_mem corner_support corner_support' interval_apart Fits exists_fits satAxes2
  satAxes3 satAxis3 sat_of_extreme exists_separating extreme2 extreme3 edgeDirs Extreme satIntersect satWorld satAxis)
open Finset (sum_le_sum sum_nonneg)

section Axes

variable {K : Type} [Field K] [LinearOrder K] [IsStrictOrderedRing K] [FloorRing K] {n p : ℕ} {rnd : K → K}

/-- The axes are found without error. -/
theorem xfNormal_exact (h : IsRound p rnd) {x : XF K n} (hi : ∀ r c, IsFloat p (x.inv r c)) (j : Fin n) : xfNormalF rnd x j = xfNormal x j := by
  funext r
  rw [xfNormalF, applyNormal, mulVec, single_run h (List.mem_finRange j) (fun i hne => by rw [Pi.single_eq_of_ne hne, mul_zero]) (List.nodup_finRange n),
    Pi.single_eq_same, mul_one, h.fix (hi _ _), xfNormal, (Affine.vector_eq _).2.2.1]
  simp [Affine.lin, Matrix.mulVec_single]

theorem diff_right (h : IsRound p rnd) {b c d : K} (hb : IsFloat p b) : diffOfProducts rnd 1 b 0 d = b ∧ diffOfProducts rnd 0 c 1 b = -b ∧ diffOfProducts rnd 0 c 0 d = 0 := by
  have z : rnd 0 = 0 := h.fix (float_zero p)
  have hn : rnd (-b) = -b := h.fix (float_neg hb)
  refine ⟨?_, ?_, ?_⟩ <;> simp [diffOfProducts, z, h.fix hb, hn]

theorem cross_exact (h : IsRound p rnd) {v : Fin 3 → K} (hv : ∀ i, IsFloat p (v i)) (j : Fin 3) :
    cross rnd (Pi.single j 1) v = Vec.cross (Pi.single j 1) v := by
  have z : rnd 0 = 0 := h.fix (float_zero p)
  have f : ∀ i, rnd (v i) = v i := fun i => h.fix (hv i)
  have g : ∀ i, rnd (-v i) = -v i := fun i => h.fix (float_neg (hv i))
  funext i
  fin_cases j <;> fin_cases i <;> simp [cross, Vec.cross, diffOfProducts, Duals.diffOfProducts, z, f, g]

theorem axes2_exact (h : IsRound p rnd) {x : XF K 2} (hi : ∀ r c, IsFloat p (x.inv r c)) : satAxes2F rnd x = satAxes2 x :=
  List.map_congr_left fun j _ => xfNormal_exact h hi j

theorem axes3_exact (h : IsRound p rnd) {x : XF K 3} (hm : ∀ r c, IsFloat p (x.mat r c)) (hi : ∀ r c, IsFloat p (x.inv r c)) :
    satAxes3F rnd x = satAxes3 x := by
  refine List.map_congr_left fun i _ => ?_
  rw [satAxis3F, satAxis3]
  by_cases hc : (i : ℕ) < 3
  · rw [dif_pos hc, dif_pos hc, xfNormal_exact h hi]
  · rw [dif_neg hc, dif_neg hc, cross_exact h (v := xfAxis x _) fun k => hm _ _]

end Axes

section Bounds

variable {K : Type} [Field K] [LinearOrder K] [IsStrictOrderedRing K] [FloorRing K] {n p : ℕ} {rnd : K → K}

/-- The error of a computed product of an axis and a corner that has an error itself. -/
theorem axis_near (hp : 1 ≤ p) (h : IsRound p rnd) {u P Y : Fin n → K} {α M : K} (hM : ∀ i, |P i| ≤ M) (hα : ∀ i, |P i - Y i| ≤ α) :
    |dot rnd u P - u ⬝ᵥ Y| ≤ (((1 + eps K p) ^ n - 1) * M + α) * ∑ i, |u i| := by
  have e0 := eps_pos (K := K) p
  have h1 : |dot rnd u P - u ⬝ᵥ P| ≤ ((1 + eps K p) ^ n - 1) * (M * ∑ i, |u i|) := by
    refine (C104_dot hp h u P).trans (mul_le_mul_of_nonneg_left ?_ (sub_nonneg.2 (one_le_pow₀ (show 1 ≤ 1 + eps K p by linarith))))
    have := sum_abs_mul_le (d := u) hM
    simpa only [mul_comm] using this
  have h2 : |u ⬝ᵥ P - u ⬝ᵥ Y| ≤ α * ∑ i, |u i| := by
    rw [← dotProduct_sub]
    refine (Finset.abs_sum_le_sum_abs _ _).trans ?_
    have := sum_abs_mul_le (u := P - Y) (d := u) hα
    simpa only [mul_comm] using this
  have := abs_sub_le (dot rnd u P) (u ⬝ᵥ P) (u ⬝ᵥ Y)
  linarith

/-- What is nearly true of the corners is nearly true of the boxes. -/
theorem corners_near {b0 b1 : Box K n} (h0 : b0.isEmpty = false) (h1 : b1.isEmpty = false) (y : XF K n) (u : Fin n → K) (s : K)
    (h : ∀ c < 2 ^ n, ∀ c' < 2 ^ n, u ⬝ᵥ y.apply (Shape.corner b0 c) ≤ u ⬝ᵥ Shape.corner b1 c' + s) :
    ∀ a ∈ placed y b0.pts, ∀ q ∈ b1.pts, u ⬝ᵥ a ≤ u ⬝ᵥ q + s := by
  intro a ha q hq
  obtain ⟨c, hc, hs⟩ := corner_support b0 h0 y u
  obtain ⟨c', hc', hs'⟩ := corner_support' b1 h1 (-u)
  have e1 := hs.2 a ha
  have e2 := hs'.2 q hq
  rw [Vec.dot_eq, Vec.dot_eq, dotProduct_comm, dotProduct_comm _ u] at e1
  rw [Vec.dot_eq, Vec.dot_eq, dotProduct_neg, dotProduct_neg, neg_le_neg_iff, dotProduct_comm, dotProduct_comm _ u] at e2
  have := h c hc c' hc'
  linarith

/-- A report that the boxes are apart. -/
theorem apart_core (hp : 1 ≤ p) (h : IsRound p rnd) (mx lw : K) (axes : List (Fin n → K)) {b0 b1 : Box K n} (h0 : b0.isEmpty = false)
    (h1 : b1.isEmpty = false) {x y : XF K n} {α M : K} (hα : ∀ c < 2 ^ n, ∀ i, |apply rnd x.mat (Shape.corner b0 c) i - y.apply (Shape.corner b0 c) i| ≤ α)
    (hM : ∀ c < 2 ^ n, ∀ i, |apply rnd x.mat (Shape.corner b0 c) i| ≤ M) (hM' : ∀ c < 2 ^ n, ∀ i, |Shape.corner b1 c i| ≤ M)
    (hr : satIntersectF rnd mx lw axes b0 x b1 = false) :
    ∃ u : Fin n → K, u ≠ 0 ∧ ∀ a ∈ placed y b0.pts, ∀ q ∈ b1.pts, u ⬝ᵥ a ≤ u ⬝ᵥ q + (2 * ((1 + eps K p) ^ n - 1) * M + α) * ∑ i, |u i| := by
  have e0 := eps_pos (K := K) p
  have e1 : 0 ≤ (1 + eps K p) ^ n - 1 := sub_nonneg.2 (one_le_pow₀ (by linarith))
  have two : (0 : ℕ) < 2 ^ n := Nat.two_pow_pos n
  unfold satIntersectF at hr
  split_ifs at hr with hw ha
  · obtain ⟨i, -, hi⟩ := List.any_eq_true.1 hw
    obtain ⟨hs, -⟩ := satRange_spec (n := n) mx lw fun c => apply rnd x.mat (Shape.corner b0 c) i
    unfold satWorldF at hi
    simp only [Bool.or_eq_true, decide_eq_true_iff] at hi
    have M0 : 0 ≤ M := (abs_nonneg _).trans (hM 0 two i)
    have key : ∀ t : K, |t| = 1 → ∑ k, |(Pi.single i t : Fin n → K) k| = 1 := fun t ht => by
      rw [Finset.sum_eq_single i (fun k _ hk => by rw [Pi.single_eq_of_ne hk, abs_zero]) (by simp), Pi.single_eq_same, ht]
    have s0 : 0 ≤ 2 * ((1 + eps K p) ^ n - 1) * M := mul_nonneg (mul_nonneg (by norm_num) e1) M0
    rcases hi with hi | hi
    · refine ⟨Pi.single i (-1), by simp, corners_near h0 h1 y _ _ fun c hc c' hc' => ?_⟩
      rw [key (-1) (by simp), single_dotProduct, single_dotProduct]
      have a1 := (hs c hc).1
      have a2 := (mem_pts.1 (corner_mem b1 h1 c') i).2
      have a3 := (abs_le.1 (hα c hc i)).2
      linarith
    · refine ⟨Pi.single i 1, by simp, corners_near h0 h1 y _ _ fun c hc c' hc' => ?_⟩
      rw [key 1 (by simp), single_dotProduct, single_dotProduct]
      have a1 := (hs c hc).2
      have a2 := (mem_pts.1 (corner_mem b1 h1 c') i).1
      have a3 := (abs_le.1 (hα c hc i)).1
      linarith
  · obtain ⟨u, -, hu⟩ := List.any_eq_true.1 ha
    unfold satAxisF at hu
    split_ifs at hu with hu0
    obtain ⟨hs, -⟩ := satRange_spec (n := n) mx lw fun c => dot rnd u (apply rnd x.mat (Shape.corner b0 c))
    obtain ⟨hs', -⟩ := satRange_spec (n := n) mx lw fun c => dot rnd u (Shape.corner b1 c)
    simp only [Bool.not_eq_true', interval_apart] at hu
    have near0 := fun c hc => abs_le.1 (axis_near hp h (u := u) (hM c hc) (hα c hc))
    have near1 := fun c hc => abs_le.1 (axis_near hp h (u := u) (Y := Shape.corner b1 c) (α := 0) (hM' c hc) (fun i => by rw [sub_self, abs_zero]))
    rcases hu with hu | hu
    · refine ⟨u, hu0, corners_near h0 h1 y u _ fun c hc c' hc' => ?_⟩
      have a1 := (hs c hc).2
      have a2 := (hs' c' hc').1
      have a3 := (near0 c hc).1
      have a4 := (near1 c' hc').2
      linarith
    · refine ⟨-u, neg_ne_zero.2 hu0, corners_near h0 h1 y (-u) _ fun c hc c' hc' => ?_⟩
      have a1 := (hs c hc).1
      have a2 := (hs' c' hc').2
      have a3 := (near0 c hc).2
      have a4 := (near1 c' hc').1
      simp only [neg_dotProduct, Pi.neg_apply, abs_neg]
      linarith

/-- No value that is compared exceeds the range of the type. -/
structure FitsF (rnd : K → K) (mx lw : K) (axes : List (Fin n → K)) (b0 : Box K n) (x : XF K n) (b1 : Box K n) : Prop where
  world : ∀ c < 2 ^ n, ∀ i, lw ≤ apply rnd x.mat (Shape.corner b0 c) i ∧ apply rnd x.mat (Shape.corner b0 c) i ≤ mx
  first : ∀ u ∈ axes, ∀ c < 2 ^ n, lw ≤ dot rnd u (apply rnd x.mat (Shape.corner b0 c)) ∧ dot rnd u (apply rnd x.mat (Shape.corner b0 c)) ≤ mx
  second : ∀ u ∈ axes, ∀ c < 2 ^ n, lw ≤ dot rnd u (Shape.corner b1 c) ∧ dot rnd u (Shape.corner b1 c) ≤ mx

omit [IsStrictOrderedRing K] [FloorRing K] [Field K] in
theorem range_le {mx lw : K} {f g : ℕ → K} (hf : ∀ c < 2 ^ n, lw ≤ f c ∧ f c ≤ mx) (hg : ∀ c < 2 ^ n, lw ≤ g c ∧ g c ≤ mx)
    (h : ∀ c < 2 ^ n, ∀ c' < 2 ^ n, f c ≤ g c') : (satRange mx lw n f).2 ≤ (satRange mx lw n g).1 := by
  have two : (0 : ℕ) < 2 ^ n := Nat.two_pow_pos n
  refine (satRange_spec (n := n) mx lw f).2.2.1 _ ?_ fun c hc => ?_
  · exact (satRange_spec (n := n) mx lw g).2.1 _ ((hf 0 two).1.trans (hf 0 two).2) fun c hc => (hg c hc).1
  · exact (satRange_spec (n := n) mx lw g).2.1 _ (hf c hc).2 fun c' hc' => h c hc c' hc'

/-- A box widened on every side. -/
def widen (b : Box K n) (η : K) : Box K n := ⟨fun i => b.lo i - η, fun i => b.hi i + η⟩

omit [FloorRing K] in
/-- A direction that separates a widened box separates the box by some distance. -/
theorem widen_apart {b0 b1 : Box K n} (h1 : b1.isEmpty = false) {η : K} (η0 : 0 ≤ η) {y : XF K n} {u : Fin n → K}
    (h : ∀ a ∈ placed y b0.pts, ∀ q ∈ (widen b1 η).pts, u ⬝ᵥ a ≤ u ⬝ᵥ q) :
    ∀ a ∈ placed y b0.pts, ∀ q ∈ b1.pts, u ⬝ᵥ a + η * ∑ i, |u i| ≤ u ⬝ᵥ q := by
  intro a ha q hq
  rw [mem_pts] at hq
  have := h a ha (fun i => q i - if 0 ≤ u i then η else -η) (mem_pts.2 fun i => by
    simp only [widen]
    have := hq i
    split_ifs <;> constructor <;> linarith)
  have e : u ⬝ᵥ (fun i => q i - if 0 ≤ u i then η else -η) = u ⬝ᵥ q - η * ∑ i, |u i| := by
    rw [Finset.mul_sum, dotProduct, dotProduct, ← Finset.sum_sub_distrib]
    refine Finset.sum_congr rfl fun i _ => ?_
    split_ifs with hi
    · rw [abs_of_nonneg hi]
      ring
    · rw [abs_of_neg (not_le.1 hi)]
      ring
  linarith

end Bounds

section Real

variable {n p : ℕ} {rnd : ℝ → ℝ}

/-- A report that the boxes overlap. -/
theorem meet_core (hp : 1 ≤ p) (h : IsRound p rnd) {mx lw : ℝ} {axes : List (Fin n → ℝ)} {b0 b1 : Box ℝ n} (h0 : b0.isEmpty = false)
    (h1 : b1.isEmpty = false) {x y : XF ℝ n} {α M : ℝ} (hα : ∀ c < 2 ^ n, ∀ i, |apply rnd x.mat (Shape.corner b0 c) i - y.apply (Shape.corner b0 c) i| ≤ α)
    (α0 : 0 ≤ α) (M0 : 0 ≤ M)
    (hM : ∀ c < 2 ^ n, ∀ i, |apply rnd x.mat (Shape.corner b0 c) i| ≤ M) (hM' : ∀ c < 2 ^ n, ∀ i, |Shape.corner b1 c i| ≤ M)
    (hf : FitsF rnd mx lw axes b0 x b1)
    (hax : ∀ u ≠ 0, Extreme (edgeDirs y) u → ∃ t : ℝ, ∃ v, u = t • v ∧ (v ∈ axes ∨ ∃ i, v = Pi.single i 1))
    (hr : satIntersectF rnd mx lw axes b0 x b1 = true) :
    ∃ a ∈ placed y b0.pts, a ∈ (widen b1 (2 * ((1 + eps ℝ p) ^ n - 1) * M + α)).pts := by
  have e0 := eps_pos (K := ℝ) p
  have e1 : 0 ≤ (1 + eps ℝ p) ^ n - 1 := sub_nonneg.2 (one_le_pow₀ (by linarith))
  have s0 : 0 ≤ 2 * ((1 + eps ℝ p) ^ n - 1) * M := mul_nonneg (mul_nonneg (by norm_num) e1) M0
  set η := 2 * ((1 + eps ℝ p) ^ n - 1) * M + α with hη
  have η0 : 0 ≤ η := by linarith
  have two : (0 : ℕ) < 2 ^ n := Nat.two_pow_pos n
  have h1' : (widen b1 η).isEmpty = false := by
    rw [not_empty_iff] at h1 ⊢
    intro i
    have := h1 i
    simp only [widen]
    linarith
  by_contra hc
  push Not at hc
  obtain ⟨B, hB⟩ := exists_fits axes b0 y (widen b1 η)
  have hs := sat_of_extreme h0 h1' hB hax (exists_separating b0 (widen b1 η) y hc)
  have hin : ∀ c, y.apply (Shape.corner b0 c) ∈ placed y b0.pts := fun c => ⟨_, corner_mem b0 h0 c, rfl⟩
  have hw : ∀ i, satWorldF rnd mx lw b0 x b1 i = false := fun i => by
    by_contra hi
    rw [satIntersectF, if_pos (List.any_eq_true.2 ⟨i, List.mem_finRange i, by simpa using hi⟩)] at hr
    cases hr
  have ha : ∀ u ∈ axes, satAxisF rnd mx lw b0 x b1 u = false := fun u hu => by
    by_contra hi
    rw [satIntersectF] at hr
    split_ifs at hr with c1 c2
    exact c2 (List.any_eq_true.2 ⟨u, hu, by simpa using hi⟩)
  unfold satIntersect at hs
  split_ifs at hs with sw sa
  · obtain ⟨i, -, hi⟩ := List.any_eq_true.1 sw
    obtain ⟨hs, -⟩ := satRange_spec (n := n) B (-B) fun c => y.apply (Shape.corner b0 c) i
    have hn := hw i
    unfold satWorld at hi
    unfold satWorldF at hn
    simp only [Bool.or_eq_true, decide_eq_true_iff, widen] at hi
    simp only [Bool.or_eq_false_iff, decide_eq_false_iff_not, not_lt] at hn
    rcases hi with hi | hi
    · replace hi := of_decide_eq_true hi
      have hlt : ∀ c < 2 ^ n, b1.hi i < apply rnd x.mat (Shape.corner b0 c) i := fun c hc => by
        have a1 := (hs c hc).1
        have a3 := (abs_le.1 (hα c hc i)).1
        linarith
      exact absurd hn.1 (not_le.2 ((satRange_spec (n := n) mx lw _).2.2.2.1 _ ((hlt 0 two).trans_le (hf.world 0 two i).2) hlt))
    · replace hi := of_decide_eq_true hi
      have hlt : ∀ c < 2 ^ n, apply rnd x.mat (Shape.corner b0 c) i < b1.lo i := fun c hc => by
        have a1 := (hs c hc).2
        have a3 := (abs_le.1 (hα c hc i)).2
        linarith
      exact absurd hn.2 (not_le.2 ((satRange_spec (n := n) mx lw _).2.2.2.2 _ ((hf.world 0 two i).1.trans_lt (hlt 0 two)) hlt))
  · obtain ⟨u, hua, hu⟩ := List.any_eq_true.1 sa
    have hn := ha u hua
    unfold satAxis at hu
    split_ifs at hu with hu0
    rw [satAxisF, if_neg hu0] at hn
    obtain ⟨hs, -⟩ := satRange_spec (n := n) B (-B) fun c => Vec.dot u (y.apply (Shape.corner b0 c))
    obtain ⟨hs', -⟩ := satRange_spec (n := n) B (-B) fun c => Vec.dot u (Shape.corner (widen b1 η) c)
    simp only [Bool.not_eq_true', interval_apart] at hu
    simp only [Bool.not_eq_false', ← Bool.not_eq_false, interval_apart, not_or, not_le] at hn
    simp only [Vec.dot_eq] at hs hs' hu
    have near0 := fun c hc => abs_le.1 (axis_near hp h (u := u) (hM c hc) (hα c hc))
    have near1 := fun c hc => abs_le.1 (axis_near hp h (u := u) (Y := Shape.corner b1 c) (α := 0) (hM' c hc) (fun i => by rw [sub_self, abs_zero]))
    have split : η * ∑ i, |u i| = (((1 + eps ℝ p) ^ n - 1) * M + α) * ∑ i, |u i| + (((1 + eps ℝ p) ^ n - 1) * M + 0) * ∑ i, |u i| := by
      rw [hη]
      ring
    rcases hu with hu | hu
    · have := widen_apart h1 η0 (Shape.corners_le h0 h1' y u fun c hc c' hc' => ((hs c hc).2.trans hu).trans (hs' c' hc').1)
      refine absurd hn.1 (not_lt.2 (range_le (hf.first u hua) (hf.second u hua) fun c hc c' hc' => ?_))
      have a1 := this _ (hin c) _ (corner_mem b1 h1 c')
      have a3 := (near0 c hc).2
      have a4 := (near1 c' hc').1
      linarith
    · have := widen_apart (u := -u) h1 η0 (Shape.corners_le h0 h1' y (-u) fun c hc c' hc' => by
        rw [neg_dotProduct, neg_dotProduct, neg_le_neg_iff]
        exact ((hs' c' hc').2.trans hu).trans (hs c hc).1)
      refine absurd hn.2 (not_lt.2 (range_le (hf.second u hua) (hf.first u hua) fun c' hc' c hc => ?_))
      have a1 := this _ (hin c) _ (corner_mem b1 h1 c')
      simp only [neg_dotProduct, Pi.neg_apply, abs_neg] at a1
      have a3 := (near0 c hc).1
      have a4 := (near1 c' hc').2
      linarith

end Real

section Main

variable {K : Type} [Field K] [LinearOrder K] [IsStrictOrderedRing K] [FloorRing K] {n p : ℕ} {rnd : K → K}

/-- Everything that is computed from the corners is at most `m` in size, before rounding. -/
structure Small (b0 : Box K n) (x : XF K n) (b1 : Box K n) (m : K) : Prop where
  first : ∀ a ∈ b0.pts, ∀ i : Fin n, ∑ j : Fin n, |x.mat i.castSucc j.castSucc * a j| + |x.mat i.castSucc (Fin.last n)| ≤ m
  second : ∀ a ∈ b1.pts, ∀ i, |a i| ≤ m

theorem corner_near (hp : 1 ≤ p) (h : IsRound p rnd) {b0 b1 : Box K n} (h0 : b0.isEmpty = false) {x : XF K n} {m : K} (hm : Small b0 x b1 m) (c : ℕ) (i : Fin n) :
    |apply rnd x.mat (Shape.corner b0 c) i - x.apply (Shape.corner b0 c) i| ≤ ((1 + eps K p) ^ (n + 2) - 1) * m ∧
    |apply rnd x.mat (Shape.corner b0 c) i| ≤ (1 + eps K p) ^ (n + 2) * m := by
  have e0 := eps_pos (K := K) p
  have h1 := (C111_apply hp h x.mat (Shape.corner b0 c) i).1
  have h2 := hm.first _ (corner_mem b0 h0 c) i
  have e : x.apply (Shape.corner b0 c) i = ∑ j : Fin n, x.mat i.castSucc j.castSucc * Shape.corner b0 c j + x.mat i.castSucc (Fin.last n) := by
    rw [XF.apply, Affine.applyMat_eq]
  have h3 : |apply rnd x.mat (Shape.corner b0 c) i - x.apply (Shape.corner b0 c) i| ≤ ((1 + eps K p) ^ (n + 2) - 1) * m := by
    rw [e]
    exact h1.trans (mul_le_mul_of_nonneg_left h2 (sub_nonneg.2 (one_le_pow₀ (show 1 ≤ 1 + eps K p by linarith))))
  refine ⟨h3, ?_⟩
  have h4 : |x.apply (Shape.corner b0 c) i| ≤ m := by
    rw [e]
    exact ((abs_add_le _ _).trans (add_le_add (Finset.abs_sum_le_sum_abs _ _) le_rfl)).trans h2
  have := abs_sub_abs_le_abs_sub (apply rnd x.mat (Shape.corner b0 c) i) (x.apply (Shape.corner b0 c) i)
  linarith

theorem eta_le (p n : ℕ) {m : K} (m0 : 0 ≤ m) :
    2 * ((1 + eps K p) ^ n - 1) * ((1 + eps K p) ^ (n + 2) * m) + ((1 + eps K p) ^ (n + 2) - 1) * m ≤ 2 * ((1 + eps K p) ^ (2 * n + 2) - 1) * m := by
  have e0 := eps_pos (K := K) p
  have h1 : 1 ≤ (1 + eps K p) ^ (n + 2) := one_le_pow₀ (by linarith)
  have h2 : (1 + eps K p) ^ (2 * n + 2) = (1 + eps K p) ^ n * (1 + eps K p) ^ (n + 2) := by
    rw [← pow_add]
    congr 1
    omega
  rw [h2]
  have := mul_le_mul_of_nonneg_right h1 m0
  linarith

theorem Small.nonneg {b0 b1 : Box K n} {x : XF K n} {m : K} (hm : Small b0 x b1 m) (h1 : b1.isEmpty = false) (i : Fin n) : 0 ≤ m :=
  (abs_nonneg _).trans (hm.second _ (corner_mem b1 h1 0) i)

/-- **C131.** Boxes reported to be apart overlap by no more than rounding along some direction; in every dimension, whatever axes are tried. -/
theorem C131_apart (hp : 1 ≤ p) (h : IsRound p rnd) (mx lw : K) (axes : List (Fin n → K)) {b0 b1 : Box K n} (h0 : b0.isEmpty = false)
    (h1 : b1.isEmpty = false) (x : XF K n) {m : K} (hm : Small b0 x b1 m) (hr : satIntersectF rnd mx lw axes b0 x b1 = false) :
    ∃ u : Fin n → K, u ≠ 0 ∧ ∀ a ∈ placed x b0.pts, ∀ q ∈ b1.pts, u ⬝ᵥ a ≤ u ⬝ᵥ q + 2 * ((1 + eps K p) ^ (2 * n + 2) - 1) * m * ∑ i, |u i| := by
  have e0 := eps_pos (K := K) p
  have hM' : ∀ c < 2 ^ n, ∀ i, |Shape.corner b1 c i| ≤ (1 + eps K p) ^ (n + 2) * m := fun c _ i =>
    (hm.second _ (corner_mem b1 h1 c) i).trans (le_mul_of_one_le_left (hm.nonneg h1 i) (one_le_pow₀ (by linarith)))
  obtain ⟨u, u0, hu⟩ := apart_core hp h mx lw axes h0 h1 (y := x) (fun c _ i => (corner_near hp h h0 hm c i).1)
    (fun c _ i => (corner_near hp h h0 hm c i).2) hM' hr
  refine ⟨u, u0, fun a ha q hq => (hu a ha q hq).trans (add_le_add le_rfl ?_)⟩
  obtain ⟨i, -⟩ := Function.ne_iff.1 u0
  exact mul_le_mul_of_nonneg_right (eta_le p n (hm.nonneg h1 i)) (sum_nonneg fun i _ => abs_nonneg _)

/-- **C131.** So boxes are reported to overlap if a point of one is in the other, away from its sides by more than rounding. -/
theorem C131_overlap (hp : 1 ≤ p) (h : IsRound p rnd) (mx lw : K) (axes : List (Fin n → K)) {b0 b1 : Box K n} (x : XF K n) {m ρ : K} (hm : Small b0 x b1 m)
    (hρ : 2 * ((1 + eps K p) ^ (2 * n + 2) - 1) * m < ρ) {a : Fin n → K} (ha : a ∈ b0.pts) (hin : ∀ i, b1.lo i + ρ ≤ x.apply a i ∧ x.apply a i ≤ b1.hi i - ρ)
    (ρ0 : 0 ≤ ρ) : satIntersectF rnd mx lw axes b0 x b1 = true := by
  by_contra hc
  rw [Bool.not_eq_true] at hc
  have h0 : b0.isEmpty = false := (not_empty_iff b0).2 fun i => (mem_pts.1 ha i).1.trans (mem_pts.1 ha i).2
  have h1 : b1.isEmpty = false := (not_empty_iff b1).2 fun i => by linarith [(hin i).1, (hin i).2]
  obtain ⟨u, u0, hu⟩ := C131_apart hp h mx lw axes h0 h1 x hm hc
  have hq := hu _ ⟨a, ha, rfl⟩ (fun i => x.apply a i - if 0 ≤ u i then ρ else -ρ) (mem_pts.2 fun i => by
    have := hin i
    split_ifs <;> constructor <;> linarith)
  have e : u ⬝ᵥ (fun i => x.apply a i - if 0 ≤ u i then ρ else -ρ) = u ⬝ᵥ x.apply a - ρ * ∑ i, |u i| := by
    rw [Finset.mul_sum, dotProduct, dotProduct, ← Finset.sum_sub_distrib]
    refine Finset.sum_congr rfl fun i _ => ?_
    split_ifs with hi
    · rw [abs_of_nonneg hi]
      ring
    · rw [abs_of_neg (not_le.1 hi)]
      ring
  have h3 : 0 < ∑ i, |u i| := by
    obtain ⟨i, hi⟩ := Function.ne_iff.1 u0
    exact Finset.sum_pos' (fun i _ => abs_nonneg _) ⟨i, Finset.mem_univ i, abs_pos.2 hi⟩
  rw [e] at hq
  have := mul_lt_mul_of_pos_right hρ h3
  linarith

end Main

section Meet

variable {p : ℕ} {rnd : ℝ → ℝ}

/-- **C131.** Boxes in three dimensions that are reported to overlap do so once one of them is widened by as much as rounding, if the transform holds its
inverse. -/
theorem C131_meet3 (hp : 1 ≤ p) (h : IsRound p rnd) {mx lw : ℝ} {b0 b1 : Box ℝ 3} (h0 : b0.isEmpty = false) (h1 : b1.isEmpty = false) {x : XF ℝ 3} (hx : Wf x)
    (fm : ∀ r c, IsFloat p (x.mat r c)) (fi : ∀ r c, IsFloat p (x.inv r c)) {m : ℝ} (hm : Small b0 x b1 m) (hf : FitsF rnd mx lw (satAxes3F rnd x) b0 x b1)
    (hr : oriIntersects3F rnd mx lw b0 x b1 = true) :
    ∃ a ∈ b0.pts, ∀ i, b1.lo i - 2 * ((1 + eps ℝ p) ^ 8 - 1) * m ≤ x.apply a i ∧ x.apply a i ≤ b1.hi i + 2 * ((1 + eps ℝ p) ^ 8 - 1) * m := by
  have e0 := eps_pos (K := ℝ) p
  have m0 := hm.nonneg h1 0
  have hM' : ∀ c < 2 ^ 3, ∀ i, |Shape.corner b1 c i| ≤ (1 + eps ℝ p) ^ 5 * m := fun c _ i =>
    (hm.second _ (corner_mem b1 h1 c) i).trans (le_mul_of_one_le_left m0 (one_le_pow₀ (by linarith)))
  have hq : 1 ≤ (1 + eps ℝ p) ^ 5 := one_le_pow₀ (by linarith)
  have hax := axes3_exact h fm fi
  obtain ⟨_, ⟨a, ha, rfl⟩, hin⟩ := meet_core hp h h0 h1 (fun c _ i => (corner_near hp h h0 hm c i).1) (mul_nonneg (sub_nonneg.2 hq) m0)
    (mul_nonneg (zero_le_one.trans hq) m0) (fun c _ i => (corner_near hp h h0 hm c i).2) hM' hf (by rw [hax]; exact extreme3 hx) hr
  refine ⟨a, ha, fun i => ?_⟩
  have := mem_pts.1 hin i
  have hle := eta_le (K := ℝ) p 3 m0
  simp only [show 3 + 2 = 5 from rfl, show 2 * 3 + 2 = 8 from rfl] at this hle
  simp only [widen] at this
  constructor <;> linarith [this.1, this.2]

/-- **C131.** In two dimensions the inverse held by the transform may be off: if `y` is the transform it is the inverse of, and moves no point of the box by
more than `θ` from where it should be, boxes reported to overlap do so once one of them is widened by as much as rounding and twice `θ`. -/
theorem C131_meet2 (hp : 1 ≤ p) (h : IsRound p rnd) {mx lw : ℝ} {b0 b1 : Box ℝ 2} (h0 : b0.isEmpty = false) (h1 : b1.isEmpty = false) {x y : XF ℝ 2} (hy : Wf y)
    (hxy : y.inv = x.inv) (fi : ∀ r c, IsFloat p (x.inv r c)) {m θ : ℝ} (hm : Small b0 x b1 m) (hθ : ∀ a ∈ b0.pts, ∀ i, |x.apply a i - y.apply a i| ≤ θ)
    (hf : FitsF rnd mx lw (satAxes2F rnd x) b0 x b1) (hr : oriIntersects2F rnd mx lw b0 x b1 = true) :
    ∃ a ∈ b0.pts, ∀ i, b1.lo i - (2 * ((1 + eps ℝ p) ^ 6 - 1) * m + 2 * θ) ≤ x.apply a i ∧ x.apply a i ≤ b1.hi i + (2 * ((1 + eps ℝ p) ^ 6 - 1) * m + 2 * θ) := by
  have e0 := eps_pos (K := ℝ) p
  have m0 := hm.nonneg h1 0
  have θ0 : 0 ≤ θ := (abs_nonneg _).trans (hθ _ (corner_mem b0 h0 0) 0)
  have hM' : ∀ c < 2 ^ 2, ∀ i, |Shape.corner b1 c i| ≤ (1 + eps ℝ p) ^ 4 * m := fun c _ i =>
    (hm.second _ (corner_mem b1 h1 c) i).trans (le_mul_of_one_le_left m0 (one_le_pow₀ (by linarith)))
  have hq : 1 ≤ (1 + eps ℝ p) ^ 4 := one_le_pow₀ (by linarith)
  have hax : satAxes2F rnd x = satAxes2 y := by
    rw [axes2_exact h fi]
    refine List.map_congr_left fun j _ => ?_
    rw [xfNormal, xfNormal, XF.applyNormal, XF.applyNormal, hxy]
  obtain ⟨_, ⟨a, ha, rfl⟩, hin⟩ := meet_core hp h h0 h1 (y := y) (α := ((1 + eps ℝ p) ^ 4 - 1) * m + θ)
    (fun c _ i => (abs_sub_le _ (x.apply (Shape.corner b0 c) i) _).trans (add_le_add (corner_near hp h h0 hm c i).1 (hθ _ (corner_mem b0 h0 c) i)))
    (add_nonneg (mul_nonneg (sub_nonneg.2 hq) m0) θ0)
    (mul_nonneg (zero_le_one.trans hq) m0) (fun c _ i => (corner_near hp h h0 hm c i).2) hM' hf (by rw [hax]; exact extreme2 hy) hr
  refine ⟨a, ha, fun i => ?_⟩
  have := mem_pts.1 hin i
  have hle := eta_le (K := ℝ) p 2 m0
  simp only [show 2 + 2 = 4 from rfl, show 2 * 2 + 2 = 6 from rfl] at this hle
  have ht := abs_le.1 (hθ a ha i)
  simp only [widen] at this
  constructor <;> linarith [this.1, this.2, ht.1, ht.2]

end Meet

/-! ## Without rounding -/

/-- **C131.** If nothing were rounded the test would be that of C58. -/
theorem C131_exact {K : Type} [Field K] [LinearOrder K] (mx lw : K) (b0 b1 : Box K 2) (x : XF K 2) (c0 c1 : Box K 3) (y : XF K 3) :
    oriIntersects2F (fun x => x) mx lw b0 x b1 = Shape.oriIntersects2 mx lw b0 x b1 ∧
    oriIntersects3F (fun x => x) mx lw c0 y c1 = Shape.oriIntersects3 mx lw c0 y c1 := by
  refine ⟨rfl, ?_⟩
  have e : satAxes3F (fun x => x) y = satAxes3 y := by
    refine List.map_congr_left fun i _ => ?_
    rw [satAxis3F, satAxis3]
    simp only [cross_id]
    rfl
  rw [oriIntersects3F, Shape.oriIntersects3, e]
  rfl

/-! ## Wrong answers -/

/-- A square of `float`s or `double`s moved far away, and another one. -/
def farXF (t : ℚ) : XF ℚ 2 := ⟨!![1, 0, t; 0, 1, 0; 0, 0, 1], !![1, 0, -t; 0, 1, 0; 0, 0, 1]⟩

/-- **C131, refuted.** Squares that have many points in common, also inside both, are reported to be apart, in `float` and in `double`. -/
theorem C131_miss_refuted :
    (oriIntersects2F (nearest 24) (2 ^ 127) (-2 ^ 127) ⟨![-3 / 4, -3 / 4], ![3 / 4, 3 / 4]⟩ (farXF (2 ^ 24 + 2)) ⟨![0, -1], ![2 ^ 24 + 2, 1]⟩ = false ∧
      ∀ i : Fin 2, (![0, -1] : Fin 2 → ℚ) i < (farXF (2 ^ 24 + 2)).apply ![-1 / 4, 0] i ∧ (farXF (2 ^ 24 + 2)).apply ![-1 / 4, 0] i < (![2 ^ 24 + 2, 1] : Fin 2 → ℚ) i) ∧
    (oriIntersects2F (nearest 53) (2 ^ 127) (-2 ^ 127) ⟨![-3 / 4, -3 / 4], ![3 / 4, 3 / 4]⟩ (farXF (2 ^ 53 + 2)) ⟨![0, -1], ![2 ^ 53 + 2, 1]⟩ = false ∧
      ∀ i : Fin 2, (![0, -1] : Fin 2 → ℚ) i < (farXF (2 ^ 53 + 2)).apply ![-1 / 4, 0] i ∧ (farXF (2 ^ 53 + 2)).apply ![-1 / 4, 0] i < (![2 ^ 53 + 2, 1] : Fin 2 → ℚ) i) := by
  decide +kernel

/-- A transform that scales by a little more than one and moves back. -/
def nearXF (s r : ℚ) : XF ℚ 2 := ⟨!![s, 0, -1; 0, 1, 0; 0, 0, 1], !![r, 0, r; 0, 1, 0; 0, 0, 1]⟩

/-- **C131, refuted.** Boxes with a gap between them are reported to overlap, in `float` and in `double`. -/
theorem C131_hit_refuted :
    (let s : ℚ := 1 + 3 / 2 ^ 23
     oriIntersects2F (nearest 24) (2 ^ 127) (-2 ^ 127) ⟨![s, 0], ![2, 1]⟩ (nearXF s (nearest 24 (1 / s))) ⟨![-1, 0], ![6 / 2 ^ 23 + 8 / 2 ^ 46, 1]⟩ = true ∧
     (6 / 2 ^ 23 + 8 / 2 ^ 46 : ℚ) < (nearXF s (nearest 24 (1 / s))).apply ![s, 0] 0) ∧
    (let s : ℚ := 1 + 3 / 2 ^ 52
     oriIntersects2F (nearest 53) (2 ^ 127) (-2 ^ 127) ⟨![s, 0], ![2, 1]⟩ (nearXF s (nearest 53 (1 / s))) ⟨![-1, 0], ![6 / 2 ^ 52 + 8 / 2 ^ 104, 1]⟩ = true ∧
     (6 / 2 ^ 52 + 8 / 2 ^ 104 : ℚ) < (nearXF s (nearest 53 (1 / s))).apply ![s, 0] 0) := by
  decide +kernel

/-- Boxes away from one another, and boxes that overlap. -/
example : oriIntersects2F (nearest 53) (2 ^ 127) (-2 ^ 127) ⟨![-1, -1], ![1, 1]⟩ (farXF 3) ⟨![-1, -1], ![1, 1]⟩ = false ∧
    oriIntersects2F (nearest 53) (2 ^ 127) (-2 ^ 127) ⟨![-1, -1], ![1, 1]⟩ (farXF (3 / 2)) ⟨![-1, -1], ![1, 1]⟩ = true := by
  decide +kernel

/-- The hypotheses of the theorems hold of these boxes. -/
example : FitsF (nearest 53) (2 ^ 127) (-2 ^ 127) (satAxes2F (nearest 53) (farXF (3 / 2))) (⟨![-1, -1], ![1, 1]⟩ : Box ℚ 2) (farXF (3 / 2)) ⟨![-1, -1], ![1, 1]⟩ :=
  ⟨by decide +kernel, by decide +kernel, by decide +kernel⟩

example : Small (⟨![-1, -1], ![1, 1]⟩ : Box ℚ 2) (farXF (3 / 2)) ⟨![-1, -1], ![1, 1]⟩ (5 / 2) := by
  have key : ∀ a ∈ (⟨![-1, -1], ![1, 1]⟩ : Box ℚ 2).pts, |a 0| ≤ 1 ∧ |a 1| ≤ 1 := fun a ha => by
    have h := mem_pts.1 ha
    exact ⟨abs_le.2 (by simpa using h 0), abs_le.2 (by simpa using h 1)⟩
  refine ⟨fun a ha i => ?_, fun a ha i => ?_⟩
  · obtain ⟨h0, h1⟩ := key a ha
    fin_cases i
    · rw [Fin.sum_univ_two]
      have h : |(![1, 0, 3 / 2] : Fin 3 → ℚ) (Fin.last 2)| = 3 / 2 := by decide +kernel
      norm_num [farXF, h]
      linarith
    · rw [Fin.sum_univ_two]
      have h : |(![0, 1, 0] : Fin 3 → ℚ) (Fin.last 2)| = 0 := by decide +kernel
      norm_num [farXF, h]
      linarith
  · obtain ⟨h0, h1⟩ := key a ha
    fin_cases i
    · exact h0.trans (by norm_num)
    · exact h1.trans (by norm_num)

/-- Three dimensions: a box turned by a right angle. -/
example : oriIntersects3F (nearest 53) (2 ^ 127) (-2 ^ 127) ⟨![-1, -2, -3], ![1, 2, 3]⟩ ⟨!![0, -1, 0, 5; 1, 0, 0, 0; 0, 0, 1, 0; 0, 0, 0, 1], !![0, 1, 0, 0; -1, 0, 0, 5; 0, 0, 1, 0; 0, 0, 0, 1]⟩
      (⟨![0, 0, 0], ![4, 1, 1]⟩ : Box ℚ 3) = true ∧
    oriIntersects3F (nearest 53) (2 ^ 127) (-2 ^ 127) ⟨![-1, -2, -3], ![1, 2, 3]⟩ ⟨!![0, -1, 0, 5; 1, 0, 0, 0; 0, 0, 1, 0; 0, 0, 0, 1], !![0, 1, 0, 0; -1, 0, 0, 5; 0, 0, 1, 0; 0, 0, 0, 1]⟩
      (⟨![0, 0, 0], ![2, 1, 1]⟩ : Box ℚ 3) = false := by
  decide +kernel

end Geomc.Flt
