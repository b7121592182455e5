import Mathlib.Analysis.LocallyConvex.Separation
import Mathlib.Topology.Algebra.Module.FiniteDimension
import Verif.Shape.Extreme
import Verif.Shape.Oriented
import Verif.Shape.SatModel

/-!
# C58: the separating axis test
-/

namespace Geomc.Shape

open Geomc.Vec Geomc.Rect Geomc.Affine Finset

variable {K : Type} {n : ℕ} [Field K] [LinearOrder K] [IsStrictOrderedRing K]

omit [Field K] [IsStrictOrderedRing K] in
theorem satRange_spec (mx lw : K) (f : ℕ → K) :
    (∀ c < 2 ^ n, (satRange mx lw n f).1 ≤ f c ∧ f c ≤ (satRange mx lw n f).2) ∧
    (∀ y, y ≤ mx → (∀ c < 2 ^ n, y ≤ f c) → y ≤ (satRange mx lw n f).1) ∧
    (∀ y, lw ≤ y → (∀ c < 2 ^ n, f c ≤ y) → (satRange mx lw n f).2 ≤ y) ∧
    (∀ y, y < mx → (∀ c < 2 ^ n, y < f c) → y < (satRange mx lw n f).1) ∧
    (∀ y, lw < y → (∀ c < 2 ^ n, f c < y) → (satRange mx lw n f).2 < y) := by
  have key : ∀ N, let r := (List.range N).foldl (fun (r : K × K) c => (stdMin r.1 (f c), stdMax r.2 (f c))) (mx, lw)
      (∀ c < N, r.1 ≤ f c ∧ f c ≤ r.2) ∧ (r.1 = mx ∨ ∃ c < N, r.1 = f c) ∧ (r.2 = lw ∨ ∃ c < N, r.2 = f c) := by
    intro N
    induction N with
    | zero => simp
    | succ N ih =>
      rw [List.range_succ, List.foldl_append, List.foldl_cons, List.foldl_nil]
      intro r
      obtain ⟨h1, h2, h3⟩ := ih
      set s := (List.range N).foldl (fun (r : K × K) c => (stdMin r.1 (f c), stdMax r.2 (f c))) (mx, lw) with hs
      have e1 : r.1 = min s.1 (f N) := stdMin_eq _ _
      have e2 : r.2 = max s.2 (f N) := stdMax_eq _ _
      clear_value r s
      rw [e1, e2]
      refine ⟨fun c hc => ?_, ?_, ?_⟩
      · rcases Nat.lt_succ_iff_lt_or_eq.1 hc with h | rfl
        · exact ⟨(min_le_left _ _).trans (h1 c h).1, (h1 c h).2.trans (le_max_left _ _)⟩
        · exact ⟨min_le_right _ _, le_max_right _ _⟩
      · rcases min_choice s.1 (f N) with h | h
        · rcases h2 with h2 | ⟨c, hc, h2⟩
          · exact .inl (h.trans h2)
          · exact .inr ⟨c, by omega, h.trans h2⟩
        · exact .inr ⟨N, by omega, h⟩
      · rcases max_choice s.2 (f N) with h | h
        · rcases h3 with h3 | ⟨c, hc, h3⟩
          · exact .inl (h.trans h3)
          · exact .inr ⟨c, by omega, h.trans h3⟩
        · exact .inr ⟨N, by omega, h⟩
  obtain ⟨h1, h2, h3⟩ := key (2 ^ n)
  refine ⟨h1, fun y hy h => ?_, fun y hy h => ?_, fun y hy h => ?_, fun y hy h => ?_⟩
  · rcases h2 with h2 | ⟨c, hc, h2⟩
    · exact hy.trans h2.ge
    · exact (h c hc).trans h2.ge
  · rcases h3 with h3 | ⟨c, hc, h3⟩
    · exact h3.le.trans hy
    · exact h3.le.trans (h c hc)
  · rcases h2 with h2 | ⟨c, hc, h2⟩
    · exact hy.trans_le h2.ge
    · exact (h c hc).trans_le h2.ge
  · rcases h3 with h3 | ⟨c, hc, h3⟩
    · exact h3.le.trans_lt hy
    · exact h3.le.trans_lt (h c hc)

/-- Along any direction some corner is farthest. -/
theorem corner_support (b : Box K n) (hb : b.isEmpty = false) (x : XF K n) (d : Fin n → K) :
    ∃ c < 2 ^ n, IsSupport (placed x b.pts) d (x.apply (corner b c)) := by
  obtain ⟨c, hc, e⟩ := exists_corner b (fun i => !decide (x.applyInverseNormal d i < 0))
  refine ⟨c, hc, ?_⟩
  have h := C54_rect_support b hb x d
  have e' : (fun i => if x.applyInverseNormal d i < 0 then b.lo i else b.hi i) = corner b c := by
    rw [e]
    ext i
    by_cases h : x.applyInverseNormal d i < 0 <;> simp [h]
  unfold oriRectSupport at h
  simp only at h
  rwa [e'] at h

theorem corner_support' (b : Box K n) (hb : b.isEmpty = false) (d : Fin n → K) :
    ∃ c < 2 ^ n, IsSupport b.pts d (corner b c) := by
  obtain ⟨c, hc, h⟩ := corner_support b hb XF.identity d
  have hid : ∀ p : Fin n → K, (XF.identity : XF K n).apply p = p := by
    intro p
    rw [XF.apply, XF.identity, eye_eq, applyMat_one]
  have hpl : placed (XF.identity : XF K n) b.pts = b.pts := by
    ext q
    simp [placed, hid]
  rw [hpl, hid] at h
  exact ⟨c, hc, h⟩

/-- What is true of the corners is true of the boxes. -/
theorem corners_le {b0 b1 : Box K n} (h0 : b0.isEmpty = false) (h1 : b1.isEmpty = false) (x : XF K n) (u : Fin n → K)
    (h : ∀ c < 2 ^ n, ∀ c' < 2 ^ n, u ⬝ᵥ x.apply (corner b0 c) ≤ u ⬝ᵥ corner b1 c') :
    ∀ p ∈ placed x b0.pts, ∀ q ∈ b1.pts, u ⬝ᵥ p ≤ u ⬝ᵥ q := by
  intro p hp q hq
  obtain ⟨c, hc, hs⟩ := corner_support b0 h0 x u
  obtain ⟨c', hc', hs'⟩ := corner_support' b1 h1 (-u)
  have e1 := hs.2 p hp
  have e2 := hs'.2 q hq
  rw [dot_eq, dot_eq, dotProduct_comm, dotProduct_comm _ u] at e1
  rw [dot_eq, dot_eq, dotProduct_neg, dotProduct_neg, neg_le_neg_iff, dotProduct_comm, dotProduct_comm _ u] at e2
  exact e1.trans ((h c hc c' hc').trans e2)

theorem corners_ge {b0 b1 : Box K n} (h0 : b0.isEmpty = false) (h1 : b1.isEmpty = false) (x : XF K n) (u : Fin n → K)
    (h : ∀ c < 2 ^ n, ∀ c' < 2 ^ n, u ⬝ᵥ corner b1 c' ≤ u ⬝ᵥ x.apply (corner b0 c)) :
    ∀ p ∈ placed x b0.pts, ∀ q ∈ b1.pts, u ⬝ᵥ q ≤ u ⬝ᵥ p := by
  intro p hp q hq
  have := corners_le h0 h1 x (-u) (fun c hc c' hc' => by
    rw [neg_dotProduct, neg_dotProduct, neg_le_neg_iff]
    exact h c hc c' hc') p hp q hq
  rwa [neg_dotProduct, neg_dotProduct, neg_le_neg_iff] at this

omit [Field K] [IsStrictOrderedRing K] in
theorem interval_apart (a b : K × K) :
    Box.intersects (⟨fun _ => a.1, fun _ => a.2⟩ : Box K 1) ⟨fun _ => b.1, fun _ => b.2⟩ = false ↔ a.2 ≤ b.1 ∨ b.2 ≤ a.1 := by
  simp only [Box.intersects, List.finRange_succ, List.finRange_zero, List.map_nil, List.all_cons, List.all_nil, Bool.and_true,
    Bool.not_eq_false', Bool.or_eq_true, decide_eq_true_iff]

/-- **C58**: when the test reports no overlap, some direction separates the boxes, whatever axes are tried. -/
theorem C58_separates (mx lw : K) (axes : List (Fin n → K)) {b0 b1 : Box K n} (h0 : b0.isEmpty = false)
    (h1 : b1.isEmpty = false) (x : XF K n) (h : satIntersect mx lw axes b0 x b1 = false) :
    ∃ u ≠ 0, ∀ p ∈ placed x b0.pts, ∀ q ∈ b1.pts, u ⬝ᵥ p ≤ u ⬝ᵥ q := by
  unfold satIntersect at h
  split_ifs at h with hw ha
  · obtain ⟨i, -, hi⟩ := List.any_eq_true.1 hw
    obtain ⟨hr, -⟩ := satRange_spec (n := n) mx lw fun c => x.apply (corner b0 c) i
    unfold satWorld at hi
    simp only [Bool.or_eq_true, decide_eq_true_iff] at hi
    rcases hi with hi | hi
    · refine ⟨Pi.single i (-1), by simp, corners_le h0 h1 x _ fun c hc c' hc' => ?_⟩
      rw [single_dotProduct, single_dotProduct]
      have e1 := (hr c hc).1
      have e2 := (mem_pts.1 (corner_mem b1 h1 c') i).2
      linarith
    · refine ⟨Pi.single i 1, by simp, corners_le h0 h1 x _ fun c hc c' hc' => ?_⟩
      rw [single_dotProduct, single_dotProduct]
      have e1 := (hr c hc).2
      have e2 := (mem_pts.1 (corner_mem b1 h1 c') i).1
      linarith
  · obtain ⟨u, -, hu⟩ := List.any_eq_true.1 ha
    unfold satAxis at hu
    split_ifs at hu with hu0
    obtain ⟨hr, -⟩ := satRange_spec (n := n) mx lw fun c => dot u (x.apply (corner b0 c))
    obtain ⟨hr', -⟩ := satRange_spec (n := n) mx lw fun c => dot u (corner b1 c)
    simp only [Bool.not_eq_true', interval_apart] at hu
    simp only [dot_eq] at hr hr' hu
    rcases hu with hu | hu
    · exact ⟨u, hu0, corners_le h0 h1 x u fun c hc c' hc' => ((hr c hc).2.trans hu).trans (hr' c' hc').1⟩
    · refine ⟨-u, neg_ne_zero.2 hu0, fun p hp q hq => ?_⟩
      rw [neg_dotProduct, neg_dotProduct, neg_le_neg_iff]
      exact corners_ge h0 h1 x u (fun c hc c' hc' => ((hr' c' hc').2.trans hu).trans (hr c hc).1) p hp q hq

/-- **C58**: so boxes that share a point inside one of them are reported to overlap. -/
theorem C58_sound (mx lw : K) (axes : List (Fin n → K)) {b0 b1 : Box K n} (h0 : b0.isEmpty = false) (h1 : b1.isEmpty = false)
    (x : XF K n) (p : Fin n → K) (hp : p ∈ placed x b0.pts) (hq : ∀ i, b1.lo i < p i ∧ p i < b1.hi i) :
    satIntersect mx lw axes b0 x b1 = true := by
  by_contra hc
  rw [Bool.not_eq_true] at hc
  obtain ⟨u, hu, h⟩ := C58_separates mx lw axes h0 h1 x hc
  obtain ⟨i, hi⟩ := Function.ne_iff.1 hu
  -- a step inside the box against `u`
  have hpt : ∀ y, b1.lo i ≤ y → y ≤ b1.hi i → u i * p i ≤ u i * y := by
    intro y hy1 hy2
    have hin : Function.update p i y ∈ b1.pts := by
      rw [mem_pts]
      intro j
      by_cases hj : j = i
      · subst hj
        rw [Function.update_self]
        exact ⟨hy1, hy2⟩
      · rw [Function.update_of_ne hj]
        exact ⟨(hq j).1.le, (hq j).2.le⟩
    have := h p hp _ hin
    have e : Function.update p i y = p + Pi.single i (y - p i) := by
      ext j
      by_cases hj : j = i
      · subst hj
        simp
      · simp [Function.update_of_ne hj, Pi.single_eq_of_ne hj]
    rw [e, dotProduct_add, dotProduct_single] at this
    linarith
  have hlo := hpt (b1.lo i) le_rfl ((hq i).1.trans (hq i).2).le
  have hhi := hpt (b1.hi i) ((hq i).1.trans (hq i).2).le le_rfl
  rcases lt_or_gt_of_ne hi with hneg | hpos
  · have := mul_lt_mul_of_neg_left (hq i).2 hneg
    linarith
  · have := mul_lt_mul_of_pos_left (hq i).1 hpos
    linarith

/-! ### The other direction -/

/-- Centre and half widths of a box. -/
def mid (b : Box K n) : Fin n → K := fun i => (b.lo i + b.hi i) / 2
def half (b : Box K n) : Fin n → K := fun i => (b.hi i - b.lo i) / 2

theorem half_bound {b : Box K n} {y : Fin n → K} (hy : y ∈ b.pts) (v : Fin n → K) : (y - mid b) ⬝ᵥ v ≤ ∑ k, half b k * |v k| := by
  rw [dotProduct]
  refine sum_le_sum fun k _ => ?_
  have h := mem_pts.1 hy k
  have h1 : |y k - mid b k| ≤ half b k := by
    rw [abs_le]
    unfold mid half
    constructor <;> linarith
  calc (y - mid b) k * v k ≤ |(y k - mid b k) * v k| := le_abs_self _
    _ = |y k - mid b k| * |v k| := abs_mul _ _
    _ ≤ half b k * |v k| := mul_le_mul_of_nonneg_right h1 (abs_nonneg _)

theorem half_attained {b : Box K n} (hb : b.isEmpty = false) (v : Fin n → K) :
    ∃ y ∈ b.pts, (y - mid b) ⬝ᵥ v = ∑ k, half b k * |v k| := by
  rw [not_empty_iff] at hb
  refine ⟨fun k => if 0 ≤ v k then b.hi k else b.lo k, mem_pts.2 fun k => ?_, ?_⟩
  · split_ifs
    · exact ⟨hb k, le_rfl⟩
    · exact ⟨le_rfl, hb k⟩
  · rw [dotProduct]
    refine sum_congr rfl fun k _ => ?_
    simp only [Pi.sub_apply, mid, half]
    split_ifs with h
    · rw [abs_of_nonneg h]
      ring
    · rw [abs_of_neg (not_le.1 h)]
      ring

/-- The directions of the edges: of the upright box, and of the other. -/
def edgeDirs (x : XF K n) : Fin n ⊕ Fin n → Fin n → K
  | .inl i => Pi.single i 1
  | .inr j => xfAxis x j
def edgeHalves (b0 b1 : Box K n) : Fin n ⊕ Fin n → K
  | .inl i => half b1 i
  | .inr j => half b0 j

omit [LinearOrder K] [IsStrictOrderedRing K] in
theorem inverseNormal_apply (x : XF K n) (u : Fin n → K) (k : Fin n) : x.applyInverseNormal u k = xfAxis x k ⬝ᵥ u := by
  rw [(vector_eq _).2.2.2]
  rfl

omit [LinearOrder K] [IsStrictOrderedRing K] in
theorem apply_diff_dot (x : XF K n) (y m u : Fin n → K) :
    u ⬝ᵥ x.apply y = u ⬝ᵥ x.apply m + (y - m) ⬝ᵥ x.applyInverseNormal u := by
  rw [← applyVector_dot, ← apply_sub, dotProduct_comm _ u, dotProduct_sub]
  ring

theorem gap_eq (b0 b1 : Box K n) (x : XF K n) (u : Fin n → K) :
    gap (mid b1 - x.apply (mid b0)) (edgeHalves b0 b1) (edgeDirs x) u =
      u ⬝ᵥ mid b1 - (∑ k, half b1 k * |(-u) k|) - (u ⬝ᵥ x.apply (mid b0) + ∑ k, half b0 k * |x.applyInverseNormal u k|) := by
  rw [gap, Fintype.sum_sum_type, sub_dotProduct, dotProduct_comm u, dotProduct_comm u]
  have e1 : ∑ k, edgeHalves b0 b1 (.inl k) * |edgeDirs x (.inl k) ⬝ᵥ u| = ∑ k, half b1 k * |(-u) k| :=
    sum_congr rfl fun k _ => by simp [edgeHalves, edgeDirs]
  have e2 : ∑ k, edgeHalves b0 b1 (.inr k) * |edgeDirs x (.inr k) ⬝ᵥ u| = ∑ k, half b0 k * |x.applyInverseNormal u k| :=
    sum_congr rfl fun k _ => by rw [inverseNormal_apply]; rfl
  rw [e1, e2]
  ring

/-- There is a gap along `u` iff `u` separates strictly. -/
theorem gap_pos_iff {b0 b1 : Box K n} (h0 : b0.isEmpty = false) (h1 : b1.isEmpty = false) (x : XF K n) (u : Fin n → K) :
    0 < gap (mid b1 - x.apply (mid b0)) (edgeHalves b0 b1) (edgeDirs x) u ↔
      ∀ p ∈ placed x b0.pts, ∀ q ∈ b1.pts, u ⬝ᵥ p < u ⬝ᵥ q := by
  rw [gap_eq]
  have e : ∀ q, u ⬝ᵥ q = u ⬝ᵥ mid b1 - (q - mid b1) ⬝ᵥ (-u) := by
    intro q
    rw [dotProduct_neg, sub_dotProduct, dotProduct_comm u, dotProduct_comm u]
    ring
  constructor
  · rintro h _ ⟨y, hy, rfl⟩ q hq
    have g0 := half_bound hy (x.applyInverseNormal u)
    have g1 := half_bound hq (-u)
    rw [apply_diff_dot x y (mid b0) u, e q]
    linarith
  · intro h
    obtain ⟨y, hy, g0⟩ := half_attained h0 (x.applyInverseNormal u)
    obtain ⟨q, hq, g1⟩ := half_attained h1 (-u)
    have := h _ ⟨y, hy, rfl⟩ q hq
    rw [apply_diff_dot x y (mid b0) u, e q, g0, g1] at this
    linarith

omit [LinearOrder K] [IsStrictOrderedRing K] in
theorem edges_span (x : XF K n) (u : Fin n → K) (h : ∀ k, edgeDirs x k ⬝ᵥ u = 0) : u = 0 := by
  ext i
  have := h (.inl i)
  rwa [edgeDirs, single_dotProduct, one_mul] at this

/-- No value that is compared exceeds the range of the type. -/
structure Fits (mx lw : K) (axes : List (Fin n → K)) (b0 : Box K n) (x : XF K n) (b1 : Box K n) : Prop where
  world : ∀ c < 2 ^ n, ∀ i, lw ≤ x.apply (corner b0 c) i ∧ x.apply (corner b0 c) i ≤ mx
  first : ∀ u ∈ axes, ∀ c < 2 ^ n, lw ≤ u ⬝ᵥ x.apply (corner b0 c) ∧ u ⬝ᵥ x.apply (corner b0 c) ≤ mx
  second : ∀ u ∈ axes, ∀ c < 2 ^ n, lw ≤ u ⬝ᵥ corner b1 c ∧ u ⬝ᵥ corner b1 c ≤ mx

theorem bounded_range (f : ℕ → K) (m : ℕ) : ∃ B, ∀ c < m, |f c| ≤ B := by
  obtain ⟨B, hB⟩ := ((Set.finite_lt_nat m).image fun c => |f c|).bddAbove
  exact ⟨B, fun c hc => hB ⟨c, hc, rfl⟩⟩

/-- Every pair of boxes fits a type of sufficient range. -/
theorem exists_fits (axes : List (Fin n → K)) (b0 : Box K n) (x : XF K n) (b1 : Box K n) : ∃ m, Fits m (-m) axes b0 x b1 := by
  have hf : ∃ B, ∀ u ∈ axes, ∀ c < 2 ^ n, |u ⬝ᵥ x.apply (corner b0 c)| ≤ B ∧ |u ⬝ᵥ corner b1 c| ≤ B := by
    induction axes with
    | nil => exact ⟨0, fun u hu => absurd hu List.not_mem_nil⟩
    | cons v l ih =>
      obtain ⟨B, hB⟩ := ih
      obtain ⟨C, hC⟩ := bounded_range (fun c => v ⬝ᵥ x.apply (corner b0 c)) (2 ^ n)
      obtain ⟨D, hD⟩ := bounded_range (fun c => v ⬝ᵥ corner b1 c) (2 ^ n)
      refine ⟨max B (max C D), fun u hu c hc => ?_⟩
      rcases List.mem_cons.1 hu with rfl | h
      · exact ⟨(hC c hc).trans ((le_max_left _ _).trans (le_max_right _ _)), (hD c hc).trans ((le_max_right _ _).trans (le_max_right _ _))⟩
      · exact ⟨(hB u h c hc).1.trans (le_max_left _ _), (hB u h c hc).2.trans (le_max_left _ _)⟩
  obtain ⟨B, hB⟩ := hf
  choose C hC using fun i => bounded_range (fun c => x.apply (corner b0 c) i) (2 ^ n)
  have hn : ∃ D, ∀ i, C i ≤ D := by
    obtain ⟨D, hD⟩ := (Set.finite_range C).bddAbove
    exact ⟨D, fun i => hD ⟨i, rfl⟩⟩
  obtain ⟨D, hD⟩ := hn
  refine ⟨max B D, fun c hc i => abs_le.1 (((hC i c hc).trans (hD i)).trans (le_max_right _ _)),
    fun u hu c hc => abs_le.1 ((hB u hu c hc).1.trans (le_max_left _ _)), fun u hu c hc => abs_le.1 ((hB u hu c hc).2.trans (le_max_left _ _))⟩

/-- The test finds a strictly separating multiple of one of its axes. -/
theorem sat_finds {mx lw : K} {axes : List (Fin n → K)} {b0 b1 : Box K n} {x : XF K n} (h0 : b0.isEmpty = false)
    (h1 : b1.isEmpty = false) (hf : Fits mx lw axes b0 x b1) {u : Fin n → K} {t : K} {v : Fin n → K}
    (hu : ∀ p ∈ placed x b0.pts, ∀ q ∈ b1.pts, u ⬝ᵥ p < u ⬝ᵥ q) (e : u = t • v)
    (hv : v ∈ axes ∨ ∃ i, v = Pi.single i 1) : satIntersect mx lw axes b0 x b1 = false := by
  have hp : ∀ c, x.apply (corner b0 c) ∈ placed x b0.pts := fun c => ⟨_, corner_mem b0 h0 c, rfl⟩
  have hq : ∀ c, corner b1 c ∈ b1.pts := corner_mem b1 h1
  have hpow : 0 < 2 ^ n := by positivity
  have ht : t ≠ 0 := by
    rintro rfl
    have := hu _ (hp 0) _ (hq 0)
    rw [e, zero_smul, zero_dotProduct, zero_dotProduct] at this
    exact lt_irrefl _ this
  have hv0 : v ≠ 0 := by
    rintro rfl
    have := hu _ (hp 0) _ (hq 0)
    rw [e, smul_zero, zero_dotProduct, zero_dotProduct] at this
    exact lt_irrefl _ this
  -- along the axis itself
  have hor : (∀ c c', v ⬝ᵥ x.apply (corner b0 c) < v ⬝ᵥ corner b1 c') ∨ ∀ c c', v ⬝ᵥ corner b1 c' < v ⬝ᵥ x.apply (corner b0 c) := by
    rcases lt_or_gt_of_ne ht with ht | ht
    · refine .inr fun c c' => ?_
      have := hu _ (hp c) _ (hq c')
      rw [e, smul_dotProduct, smul_dotProduct, smul_eq_mul, smul_eq_mul] at this
      exact (mul_lt_mul_left_of_neg ht).1 this
    · refine .inl fun c c' => ?_
      have := hu _ (hp c) _ (hq c')
      rw [e, smul_dotProduct, smul_dotProduct, smul_eq_mul, smul_eq_mul] at this
      exact (mul_lt_mul_iff_right₀ ht).1 this
  unfold satIntersect
  rcases hv with hv | ⟨i, rfl⟩
  · have : axes.any (satAxis mx lw b0 x b1) = true := by
      refine List.any_eq_true.2 ⟨v, hv, ?_⟩
      unfold satAxis
      rw [if_neg hv0]
      obtain ⟨-, a2, a3, -⟩ := satRange_spec (n := n) mx lw fun c => dot v (x.apply (corner b0 c))
      obtain ⟨-, c2, c3, -⟩ := satRange_spec (n := n) mx lw fun c => dot v (corner b1 c)
      simp only [Bool.not_eq_true', interval_apart]
      simp only [dot_eq] at *
      have f0 := hf.first v hv
      have f1 := hf.second v hv
      rcases hor with h | h
      · refine .inl (a3 _ (c2 _ ((f0 0 hpow).1.trans (f0 0 hpow).2) fun c hc => (f1 c hc).1) fun c hc => ?_)
        exact c2 _ (f0 c hc).2 fun c' hc' => (h c c').le
      · refine .inr (c3 _ (a2 _ ((f0 0 hpow).1.trans (f0 0 hpow).2) fun c hc => (f0 c hc).1) fun c hc => ?_)
        exact a2 _ (f1 c hc).2 fun c' hc' => (h c' c).le
    rw [this, if_pos rfl, ite_self]
  · have : (List.finRange n).any (satWorld mx lw b0 x b1) = true := by
      refine List.any_eq_true.2 ⟨i, List.mem_finRange i, ?_⟩
      unfold satWorld
      obtain ⟨-, -, -, a4, a5⟩ := satRange_spec (n := n) mx lw fun c => x.apply (corner b0 c) i
      simp only [Bool.or_eq_true, decide_eq_true_iff]
      simp only [single_dotProduct, one_mul] at hor
      obtain ⟨chi, -, ehi⟩ := exists_corner b1 (fun _ => true)
      obtain ⟨clo, -, elo⟩ := exists_corner b1 (fun _ => false)
      rcases hor with h | h
      · right
        have h' : ∀ c, x.apply (corner b0 c) i < b1.lo i := fun c => by
          have := h c clo
          rw [elo] at this
          simpa using this
        exact a5 _ ((hf.world 0 hpow i).1.trans_lt (h' 0)) fun c _ => h' c
      · left
        have h' : ∀ c, b1.hi i < x.apply (corner b0 c) i := fun c => by
          have := h c chi
          rw [ehi] at this
          simpa using this
        exact a4 _ ((h' 0).trans_le (hf.world 0 hpow i).2) fun c _ => h' c
    rw [this]
    rfl

/-- Boxes with a strictly separating direction are found apart if the extreme directions are tried. -/
theorem sat_of_extreme {mx lw : K} {axes : List (Fin n → K)} {b0 b1 : Box K n} {x : XF K n} (h0 : b0.isEmpty = false)
    (h1 : b1.isEmpty = false) (hf : Fits mx lw axes b0 x b1)
    (hax : ∀ u ≠ 0, Extreme (edgeDirs x) u → ∃ t : K, ∃ v, u = t • v ∧ (v ∈ axes ∨ ∃ i, v = Pi.single i 1))
    (hsep : ∃ u, ∀ p ∈ placed x b0.pts, ∀ q ∈ b1.pts, u ⬝ᵥ p < u ⬝ᵥ q) : satIntersect mx lw axes b0 x b1 = false := by
  obtain ⟨u, hu⟩ := hsep
  obtain ⟨u', hg, hne, hex⟩ := exists_extreme (edges_span x) ⟨u, (gap_pos_iff h0 h1 x u).2 hu⟩
  obtain ⟨t, v, e, hv⟩ := hax u' hne hex
  exact sat_finds h0 h1 hf ((gap_pos_iff h0 h1 x u').1 hg) e hv

/-! ### The extreme directions are among the axes -/

omit [LinearOrder K] [IsStrictOrderedRing K] in
/-- The normals are dual to the edges. -/
theorem dual_basis {x : XF K n} (hx : Wf x) (u : Fin n → K) : u = ∑ k, (xfAxis x k ⬝ᵥ u) • xfNormal x k := by
  have h := (wf_undo hx u).2.2.2
  rw [(vector_eq _).2.2.1] at h
  conv_lhs => rw [← h]
  have e : x.applyInverseNormal u = ∑ k, (xfAxis x k ⬝ᵥ u) • (Pi.single k (1 : K) : Fin n → K) := by
    ext i
    rw [inverseNormal_apply, Finset.sum_apply]
    simp [Pi.single_apply]
  rw [e, Matrix.mulVec_sum]
  refine sum_congr rfl fun k _ => ?_
  rw [Matrix.mulVec_smul, xfNormal, (vector_eq _).2.2.1]

omit [LinearOrder K] [IsStrictOrderedRing K] in
theorem xfAxis_ne {x : XF K n} (hx : Wf x) (j : Fin n) : xfAxis x j ≠ 0 := by
  intro h
  have e : x.applyVector (Pi.single j 1) = 0 := by
    rw [(vector_eq _).1]
    ext i
    have := congrFun h i
    simpa [Matrix.mulVec, lin, xfAxis] using this
  have := (wf_undo hx (Pi.single j 1)).2.1.1
  rw [e, (vector_eq _).2.1, Matrix.mulVec_zero] at this
  have h1 := congrFun this j
  rw [Pi.single_eq_same] at h1
  exact zero_ne_one h1

theorem extreme2 {x : XF K 2} (hx : Wf x) (u : Fin 2 → K) (hu : u ≠ 0) (he : Extreme (edgeDirs x) u) :
    ∃ t : K, ∃ v, u = t • v ∧ (v ∈ satAxes2 x ∨ ∃ i, v = Pi.single i 1) := by
  obtain ⟨k, hk⟩ : ∃ k, edgeDirs x k ⬝ᵥ u = 0 := by
    by_contra hc
    push Not at hc
    obtain ⟨t, ht⟩ := he ![-u 1, u 0] (fun k hk => absurd hk (hc k))
    have h0 := congrFun ht 0
    have h1 := congrFun ht 1
    simp at h0 h1
    have hsq : t * (u 0 * u 0 + u 1 * u 1) = 0 := by linear_combination -(u 0) * h0 - u 1 * h1
    have hpos := self_dot_pos hu
    rw [dotProduct, Fin.sum_univ_two] at hpos
    have ht0 : t = 0 := (mul_eq_zero.1 hsq).resolve_right hpos.ne'
    rw [ht0] at h0 h1
    apply hu
    ext i
    fin_cases i
    · simpa using h1
    · simpa using h0
  rcases k with i | j
  · rw [edgeDirs, single_dotProduct, one_mul] at hk
    have h2 : i = 0 ∨ i = 1 := by omega
    rcases h2 with rfl | rfl
    · refine ⟨u 1, _, ?_, .inr ⟨1, rfl⟩⟩
      ext l
      fin_cases l <;> simp [hk]
    · refine ⟨u 0, _, ?_, .inr ⟨0, rfl⟩⟩
      ext l
      fin_cases l <;> simp [hk]
  · have hd := dual_basis hx u
    rw [Fin.sum_univ_two] at hd
    have h2 : j = 0 ∨ j = 1 := by omega
    rw [edgeDirs] at hk
    rcases h2 with rfl | rfl
    · rw [hk, zero_smul, zero_add] at hd
      exact ⟨_, _, hd, .inl (List.mem_map.2 ⟨1, List.mem_finRange _, rfl⟩)⟩
    · rw [hk, zero_smul, add_zero] at hd
      exact ⟨_, _, hd, .inl (List.mem_map.2 ⟨0, List.mem_finRange _, rfl⟩)⟩

theorem edgeDirs_ne {x : XF K n} (hx : Wf x) (k : Fin n ⊕ Fin n) : edgeDirs x k ≠ 0 := by
  rcases k with i | j
  · simp [edgeDirs]
  · exact xfAxis_ne hx j

open Matrix in
theorem cross_ne {a u : Fin 3 → K} (ha : a ≠ 0) (hu : u ≠ 0) (h : a ⬝ᵥ u = 0) : a ⨯₃ u ≠ 0 := by
  intro hc
  have h1 := cross_dot_cross a u a u
  rw [hc, zero_dotProduct, h, zero_mul, sub_zero] at h1
  have := mul_pos (self_dot_pos ha) (self_dot_pos hu)
  exact this.ne h1

open Matrix in
/-- A cross product with `u` that is a multiple of `u` is zero. -/
theorem cross_multiple {a u : Fin 3 → K} (hu : u ≠ 0) {t : K} (h : a ⨯₃ u = t • u) : a ⨯₃ u = 0 := by
  have h1 : u ⬝ᵥ a ⨯₃ u = 0 := dot_cross_self a u
  rw [h, dotProduct_smul, smul_eq_mul] at h1
  have : t = 0 := (mul_eq_zero.1 h1).resolve_right (self_dot_pos hu).ne'
  rw [h, this, zero_smul]

open Matrix in
theorem extreme_pair {x : XF K 3} (hx : Wf x) (u : Fin 3 → K) (hu : u ≠ 0) (he : Extreme (edgeDirs x) u) :
    ∃ k l, edgeDirs x k ⬝ᵥ u = 0 ∧ edgeDirs x l ⬝ᵥ u = 0 ∧ edgeDirs x k ⨯₃ edgeDirs x l ≠ 0 := by
  by_contra hc
  push Not at hc
  by_cases hz : ∃ k, edgeDirs x k ⬝ᵥ u = 0
  · obtain ⟨k, hk⟩ := hz
    obtain ⟨t, ht⟩ := he (edgeDirs x k ⨯₃ u) (fun l hl => by
      rw [triple_product_permutation, triple_product_permutation, hc l k hl hk, dotProduct_zero])
    exact cross_ne (edgeDirs_ne hx k) hu hk (cross_multiple hu ht)
  · push Not at hz
    obtain ⟨t, ht⟩ := he (edgeDirs x (.inl 0) ⨯₃ u) (fun l hl => absurd hl (hz l))
    have h0 := cross_multiple hu ht
    have := congrFun h0 2
    rw [cross_apply] at this
    have h1 := hz (.inl 1)
    rw [edgeDirs, single_dotProduct, one_mul] at h1
    apply h1
    simpa [edgeDirs] using this

open Matrix in
/-- What is orthogonal to two vectors is along their cross product. -/
theorem along_cross {a b u : Fin 3 → K} (hw : a ⨯₃ b ≠ 0) (ha : a ⬝ᵥ u = 0) (hb : b ⬝ᵥ u = 0) : ∃ t : K, u = t • (a ⨯₃ b) := by
  have hpos := self_dot_pos hw
  refine ⟨((a ⨯₃ b) ⬝ᵥ u) / ((a ⨯₃ b) ⬝ᵥ (a ⨯₃ b)), ?_⟩
  generalize hwd : a ⨯₃ b = w at *
  have hx : u ⨯₃ w = 0 := by
    rw [← hwd, cross_cross_eq_smul_sub_smul']
    rw [dotProduct_comm u b, hb, ha, zero_smul, zero_smul, sub_zero]
  have e0 := congrFun hx 0
  have e1 := congrFun hx 1
  have e2 := congrFun hx 2
  rw [cross_apply] at e0 e1 e2
  simp at e0 e1 e2
  have key : (w ⬝ᵥ w) • u = (w ⬝ᵥ u) • w := by
    simp only [dotProduct, Fin.sum_univ_three]
    ext i
    fin_cases i
    · simp
      linear_combination w 1 * e2 - w 2 * e1
    · simp
      linear_combination w 2 * e0 - w 0 * e2
    · simp
      linear_combination w 0 * e1 - w 1 * e0
  have := congrArg (fun v => (w ⬝ᵥ w)⁻¹ • v) key
  simp only [smul_smul, inv_mul_cancel₀ hpos.ne', one_smul] at this
  rw [div_eq_inv_mul]
  exact this

theorem mem_axes3_normal (x : XF K 3) (j : Fin 3) : xfNormal x j ∈ satAxes3 x := by
  refine List.mem_map.2 ⟨⟨j, by omega⟩, List.mem_finRange _, ?_⟩
  rw [satAxis3, dif_pos (by simp)]

theorem mem_axes3_cross (x : XF K 3) (i j : Fin 3) : cross (Pi.single i 1) (xfAxis x j) ∈ satAxes3 x := by
  refine List.mem_map.2 ⟨⟨3 * (i + 1) + j, by omega⟩, List.mem_finRange _, ?_⟩
  rw [satAxis3, dif_neg (by simp; omega)]
  have e1 : (⟨(3 * ((i : ℕ) + 1) + j) / 3 - 1, by omega⟩ : Fin 3) = i := Fin.ext (by simp only; omega)
  have e2 : (⟨(3 * ((i : ℕ) + 1) + j) % 3, by omega⟩ : Fin 3) = j := Fin.ext (by simp only; omega)
  rw [e1, e2]

theorem extreme3 {x : XF K 3} (hx : Wf x) (u : Fin 3 → K) (hu : u ≠ 0) (he : Extreme (edgeDirs x) u) :
    ∃ t : K, ∃ v, u = t • v ∧ (v ∈ satAxes3 x ∨ ∃ i, v = Pi.single i 1) := by
  obtain ⟨k, l, hk, hl, hkl⟩ := extreme_pair hx u hu he
  rcases k with i | i <;> rcases l with j | j
  · -- two world axes
    have hij : i ≠ j := by
      rintro rfl
      exact hkl (cross_self _)
    simp only [edgeDirs, single_dotProduct, one_mul] at hk hl
    obtain ⟨m, hm⟩ : ∃ m : Fin 3, ∀ l, l ≠ m → l = i ∨ l = j := by
      revert hij
      clear * -
      revert i j
      decide
    refine ⟨u m, _, ?_, .inr ⟨m, rfl⟩⟩
    ext l
    by_cases h : l = m
    · subst h
      simp
    · rcases hm l h with rfl | rfl <;> simp [h, hk, hl]
  · obtain ⟨t, ht⟩ := along_cross hkl hk hl
    exact ⟨t, _, ht, .inl (by rw [← cross_eq]; exact mem_axes3_cross x i j)⟩
  · rw [← cross_anticomm, neg_ne_zero] at hkl
    obtain ⟨t, ht⟩ := along_cross hkl hl hk
    exact ⟨t, _, ht, .inl (by rw [← cross_eq]; exact mem_axes3_cross x j i)⟩
  · have hij : i ≠ j := by
      rintro rfl
      exact hkl (cross_self _)
    have hd := dual_basis hx u
    rw [edgeDirs] at hk hl
    obtain ⟨m, hm⟩ : ∃ m : Fin 3, ∀ l, l ≠ m → l = i ∨ l = j := by
      revert hij
      clear * -
      revert i j
      decide
    rw [Finset.sum_eq_single m (fun l _ h => by rcases hm l h with rfl | rfl <;> simp [hk, hl]) (by simp)] at hd
    exact ⟨_, _, hd, .inl (mem_axes3_normal x m)⟩

/-! ### Over the reals -/

theorem apply_continuous (x : XF ℝ n) : Continuous x.apply := by
  refine continuous_pi fun i => ?_
  have : (fun p => x.apply p i) = fun p : Fin n → ℝ => (∑ j, x.mat i.castSucc j.castSucc * p j) + x.mat i.castSucc (Fin.last n) := by
    funext p
    rw [XF.apply, applyMat_eq]
  rw [this]
  fun_prop

theorem apply_convex (x : XF ℝ n) {S : Set (Fin n → ℝ)} (hS : Convex ℝ S) : Convex ℝ (placed x S) := by
  rintro _ ⟨p, hp, rfl⟩ _ ⟨q, hq, rfl⟩ a b ha hb hab
  refine ⟨a • p + b • q, hS hp hq ha hb hab, ?_⟩
  have e : a • p + b • q = p + b • (q - p) := by
    rw [smul_sub, show a = 1 - b by linarith, sub_smul, one_smul]
    abel
  rw [e, apply_ray, ← apply_sub, smul_sub, show a = 1 - b by linarith, sub_smul, one_smul]
  abel

/-- Disjoint boxes have a strictly separating direction. -/
theorem exists_separating (b0 b1 : Box ℝ n) (x : XF ℝ n) (h : ∀ p ∈ placed x b0.pts, p ∉ b1.pts) :
    ∃ u : Fin n → ℝ, ∀ p ∈ placed x b0.pts, ∀ q ∈ b1.pts, u ⬝ᵥ p < u ⬝ᵥ q := by
  have himg : placed x b0.pts = x.apply '' b0.pts := by
    ext q
    exact ⟨fun ⟨p, hp, e⟩ => ⟨p, hp, e.symm⟩, fun ⟨p, hp, e⟩ => ⟨p, hp, e.symm⟩⟩
  obtain ⟨f, s, t, h1, h2, h3⟩ := geometric_hahn_banach_compact_closed (s := placed x b0.pts) (t := b1.pts)
    (apply_convex x (convex_Icc _ _)) (by rw [himg]; exact isCompact_Icc.image (apply_continuous x)) (convex_Icc _ _) isClosed_Icc
    (Set.disjoint_left.2 h)
  refine ⟨fun i => f (fun j => if i = j then 1 else 0), fun p hp q hq => ?_⟩
  have e : ∀ p, (fun i => f (fun j => if i = j then 1 else 0)) ⬝ᵥ p = f p := by
    intro p
    rw [← f.coe_coe, LinearMap.pi_apply_eq_sum_univ f.toLinearMap p, dotProduct]
    exact sum_congr rfl fun i _ => by rw [smul_eq_mul, mul_comm]
  rw [e, e]
  linarith [h1 p hp, h3 q hq]

/-- **C58**: boxes that the test in two dimensions reports to overlap share a point. -/
theorem C58_complete2 {mx lw : ℝ} {b0 b1 : Box ℝ 2} {x : XF ℝ 2} (hx : Wf x) (h0 : b0.isEmpty = false) (h1 : b1.isEmpty = false)
    (hf : Fits mx lw (satAxes2 x) b0 x b1) (h : oriIntersects2 mx lw b0 x b1 = true) : ∃ p ∈ placed x b0.pts, p ∈ b1.pts := by
  by_contra hc
  push Not at hc
  have := sat_of_extreme h0 h1 hf (extreme2 hx) (exists_separating b0 b1 x hc)
  rw [oriIntersects2, this] at h
  cases h

/-- **C58**: boxes that the test in three dimensions reports to overlap share a point. -/
theorem C58_complete3 {mx lw : ℝ} {b0 b1 : Box ℝ 3} {x : XF ℝ 3} (hx : Wf x) (h0 : b0.isEmpty = false) (h1 : b1.isEmpty = false)
    (hf : Fits mx lw (satAxes3 x) b0 x b1) (h : oriIntersects3 mx lw b0 x b1 = true) : ∃ p ∈ placed x b0.pts, p ∈ b1.pts := by
  by_contra hc
  push Not at hc
  have := sat_of_extreme h0 h1 hf (extreme3 hx) (exists_separating b0 b1 x hc)
  rw [oriIntersects3, this] at h
  cases h

theorem oriented_meet {b0 b1 : Oriented (Box ℝ n) ℝ n} (hx0 : Wf b0.xf) (hx1 : Wf b1.xf)
    (h : ∃ p ∈ placed (b1.xf.div b0.xf) b1.shape.pts, p ∈ b0.shape.pts) :
    ∃ p ∈ b0.pts Box.pts, p ∈ b1.pts Box.pts := by
  obtain ⟨p, hp, hq⟩ := h
  refine ⟨b0.xf.apply p, ⟨p, hq, rfl⟩, ?_⟩
  have := (C54_div Box.pts b1 hx1 hx0 b1.shape).2.1
  have hp' : p ∈ (b1.div b0.xf).pts Box.pts := hp
  rw [this] at hp'
  exact hp'

/-- **C58**: two placed boxes that are reported to overlap share a point. -/
theorem C58_oriented {mx lw : ℝ} (a b : Oriented (Box ℝ 2) ℝ 2) (c d : Oriented (Box ℝ 3) ℝ 3) (ha : Wf a.xf) (hb : Wf b.xf)
    (hc : Wf c.xf) (hd : Wf d.xf) (ha' : a.shape.isEmpty = false) (hb' : b.shape.isEmpty = false) (hc' : c.shape.isEmpty = false)
    (hd' : d.shape.isEmpty = false) (hab : Fits mx lw (satAxes2 (b.xf.div a.xf)) b.shape (b.xf.div a.xf) a.shape)
    (hcd : Fits mx lw (satAxes3 (d.xf.div c.xf)) d.shape (d.xf.div c.xf) c.shape) :
    (oriOri2 mx lw a b = true → ∃ p ∈ a.pts Box.pts, p ∈ b.pts Box.pts) ∧
    (oriOri3 mx lw c d = true → ∃ p ∈ c.pts Box.pts, p ∈ d.pts Box.pts) :=
  ⟨fun h => oriented_meet ha hb (C58_complete2 (div_wf hb ha) hb' ha' hab h),
   fun h => oriented_meet hc hd (C58_complete3 (div_wf hd hc) hd' hc' hcd h)⟩

/-- **C58**: two placed boxes that share a point inside the first are reported to overlap. -/
theorem C58_oriented_sound (mx lw : K) (a b : Oriented (Box K 2) K 2) (c d : Oriented (Box K 3) K 3) (ha : Wf a.xf) (hb : Wf b.xf)
    (hc : Wf c.xf) (hd : Wf d.xf) (hb' : b.shape.isEmpty = false) (hd' : d.shape.isEmpty = false) (p : Fin 2 → K) (q : Fin 3 → K) :
    ((∀ i, a.shape.lo i < p i ∧ p i < a.shape.hi i) → a.xf.apply p ∈ b.pts Box.pts → oriOri2 mx lw a b = true) ∧
    ((∀ i, c.shape.lo i < q i ∧ q i < c.shape.hi i) → c.xf.apply q ∈ d.pts Box.pts → oriOri3 mx lw c d = true) := by
  have hne : ∀ {m : ℕ} (b : Box K m) (p : Fin m → K), (∀ i, b.lo i < p i ∧ p i < b.hi i) → b.isEmpty = false := by
    intro m b p h
    rw [not_empty_iff]
    exact fun i => ((h i).1.trans (h i).2).le
  constructor
  · intro hp hin
    refine C58_sound mx lw _ hb' (hne _ p hp) _ p ?_ hp
    have := (C54_div Box.pts b hb ha b.shape).2.1
    change p ∈ (b.div a.xf).pts Box.pts
    rw [this]
    exact hin
  · intro hp hin
    refine C58_sound mx lw _ hd' (hne _ q hp) _ q ?_ hp
    have := (C54_div Box.pts d hd hc d.shape).2.1
    change q ∈ (d.div c.xf).pts Box.pts
    rw [this]
    exact hin

/-! ### Boxes that touch -/

/-- A square with corners on the axes. -/
def diamond : XF ℚ 2 := ⟨!![1, -1, 2; 1, 1, 0; 0, 0, 1], !![1/2, 1/2, -1; -1/2, 1/2, 1; 0, 0, 1]⟩
def unitBox : Box ℚ 2 := ⟨![-1, -1], ![1, 1]⟩
def halfBox : Box ℚ 2 := ⟨![-1/2, -1/2], ![1/2, 1/2]⟩

theorem diamond_wf : Wf diamond := by
  refine Wf.of_apply (isAffine2 rfl rfl rfl) (isAffine2 rfl rfl rfl) fun p => ?_
  rw [XF.apply, XF.applyInverse, applyMat2, applyMat2]
  ext i
  fin_cases i <;> simp [diamond] <;> ring

/-- **C58** refuted for boxes that only touch: a diamond that touches the side of a square with its corner is reported to
overlap it, a square that touches it with its whole side is not. -/
theorem C58_touching_refuted :
    oriIntersects2 1000 (-1000) halfBox diamond unitBox = true ∧ ![1, 0] ∈ placed diamond halfBox.pts ∧ ![1, 0] ∈ unitBox.pts ∧
    (∀ p ∈ placed diamond halfBox.pts, p ∈ unitBox.pts → p = ![1, 0]) ∧
    oriIntersects2 1000 (-1000) unitBox (translation ![2, 0]) unitBox = false ∧
    ![1, 0] ∈ placed (translation ![2, 0]) unitBox.pts := by
  refine ⟨by decide +kernel, ⟨![-1/2, 1/2], ?_, ?_⟩, ?_, ?_, by decide +kernel, ⟨![-1, 0], ?_, ?_⟩⟩
  · rw [mem_pts]
    decide +kernel
  · rw [XF.apply, applyMat2]
    decide +kernel
  · rw [mem_pts]
    decide +kernel
  · rintro _ ⟨p, hp, rfl⟩ hq
    rw [mem_pts] at hp hq
    rw [XF.apply, applyMat2] at hq ⊢
    have h0 := hp 0
    have h1 := hp 1
    have h2 := hq 0
    simp [diamond, halfBox, unitBox] at h0 h1 h2
    have e0 : p 0 = -1/2 := by linarith
    have e1 : p 1 = 1/2 := by linarith
    ext i
    fin_cases i <;> simp [diamond, e0, e1] <;> norm_num
  · rw [mem_pts]
    decide +kernel
  · rw [(translation_apply _ _).1]
    decide +kernel

/-! ### Examples -/

/-- A diamond and a square that overlap, and the same diamond moved away: no world axis separates the last pair. -/
example : oriIntersects2 1000 (-1000) ⟨![-1, -1], ![1, 1]⟩ diamond unitBox = true ∧
    oriIntersects2 1000 (-1000) halfBox ⟨!![1, -1, 7/4; 1, 1, 7/4; 0, 0, 1], !![1/2, 1/2, -7/4; -1/2, 1/2, 0; 0, 0, 1]⟩ unitBox = false ∧
    (List.finRange 2).any (satWorld 1000 (-1000) halfBox ⟨!![1, -1, 7/4; 1, 1, 7/4; 0, 0, 1], !![1/2, 1/2, -7/4; -1/2, 1/2, 0; 0, 0, 1]⟩ unitBox) = false := by
  decide +kernel

/-- The hypotheses of `C58_oriented_sound` hold for the diamond and the square. -/
example : oriOri2 1000 (-1000) ⟨unitBox, XF.identity⟩ ⟨⟨![-1, -1], ![1, 1]⟩, diamond⟩ = true :=
  (C58_oriented_sound 1000 (-1000) ⟨unitBox, XF.identity⟩ ⟨⟨![-1, -1], ![1, 1]⟩, diamond⟩ ⟨⟨0, 1⟩, XF.identity⟩ ⟨⟨0, 1⟩, XF.identity⟩
    identity_wf diamond_wf identity_wf identity_wf (by decide +kernel) (by decide +kernel) ![1/2, 0] 0).1 (by decide +kernel)
    ⟨![-3/4, 3/4], by rw [mem_pts]; decide +kernel, by rw [XF.apply, applyMat2, XF.apply, applyMat2]; decide +kernel⟩

end Geomc.Shape
