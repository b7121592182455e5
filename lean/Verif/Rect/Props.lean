import Mathlib.Algebra.Group.Pointwise.Set.Basic
import Mathlib.Algebra.Order.Interval.Set.Group
import Mathlib.Order.Interval.Finset.Fin
import Mathlib.Tactic.Linarith
import Mathlib.Tactic.FieldSimp
import Mathlib.Tactic.LinearCombination
import Verif.Rect.Model
import Verif.Vec.Lemmas

/-!
# C45: the set algebra of boxes; C46: the intersection test

The points of a box are `Set.Icc lo hi` in the product order.
-/

namespace Geomc.Rect

open Geomc.Vec

variable {K : Type} {n : ℕ}

/-- The points of a box. -/
def Box.pts [LinearOrder K] (b : Box K n) : Set (Fin n → K) := Set.Icc b.lo b.hi

section Order
variable [LinearOrder K]

theorem mem_pts {b : Box K n} {p : Fin n → K} : p ∈ b.pts ↔ ∀ i, b.lo i ≤ p i ∧ p i ≤ b.hi i := by
  rw [Box.pts, Set.mem_Icc, Pi.le_def, Pi.le_def, forall_and]

@[simp] theorem vmin_apply (u v : Fin n → K) (i : Fin n) : vmin u v i = min (u i) (v i) := stdMin_eq _ _
@[simp] theorem vmax_apply (u v : Fin n → K) (i : Fin n) : vmax u v i = max (u i) (v i) := stdMax_eq _ _

theorem pts_nonempty {b : Box K n} : b.pts.Nonempty ↔ ∀ i, b.lo i ≤ b.hi i := by
  rw [Box.pts, Set.nonempty_Icc, Pi.le_def]

/-- **C45**: `contains` is membership in the product of the intervals, `is_empty` says there are no points, and a point
box holds just the point. -/
theorem C45_contains (b : Box K n) (p : Fin n → K) :
    (b.contains p = true ↔ ∀ i, p i ∈ Set.Icc (b.lo i) (b.hi i)) ∧
    (b.contains p = true ↔ p ∈ b.pts) ∧ (b.isEmpty = true ↔ b.pts = ∅) ∧ (Box.point p).pts = {p} := by
  have h1 : b.contains p = true ↔ ∀ i, b.lo i ≤ p i ∧ p i ≤ b.hi i := by
    simp [Box.contains]
  refine ⟨h1, by rw [h1, mem_pts], ?_, ?_⟩
  · rw [← Set.not_nonempty_iff_eq_empty, pts_nonempty]
    simp [Box.isEmpty]
  · simp [Box.pts, Box.point]

theorem not_empty_iff (b : Box K n) : b.isEmpty = false ↔ ∀ i, b.lo i ≤ b.hi i := by
  rw [← Bool.not_eq_true, (C45_contains b b.lo).2.2.1, ← Set.not_nonempty_iff_eq_empty, not_not, pts_nonempty]

/-- **C45**: the union is the smallest box containing both. -/
theorem C45_union (a b : Box K n) :
    a.pts ∪ b.pts ⊆ (a.union b).pts ∧ a.unionAssign b = a.union b ∧
    (a.isEmpty = false → b.isEmpty = false → ∀ c : Box K n, a.pts ∪ b.pts ⊆ c.pts → (a.union b).pts ⊆ c.pts) := by
  refine ⟨?_, ?_, fun ha hb c hc => ?_⟩
  · rintro p (hp | hp) <;> rw [mem_pts] at hp ⊢ <;> intro i <;> have := hp i <;>
      simp only [Box.union, vmin_apply, vmax_apply] <;> simp [this.1, this.2]
  · simp only [Box.unionAssign, Box.union, Box.mk.injEq]
    constructor <;> ext i <;> simp [min_comm, max_comm]
  · rw [not_empty_iff] at ha hb
    have h1 : a.lo ∈ c.pts := hc (Or.inl (mem_pts.2 fun i => ⟨le_refl _, ha i⟩))
    have h2 : a.hi ∈ c.pts := hc (Or.inl (mem_pts.2 fun i => ⟨ha i, le_refl _⟩))
    have h3 : b.lo ∈ c.pts := hc (Or.inr (mem_pts.2 fun i => ⟨le_refl _, hb i⟩))
    have h4 : b.hi ∈ c.pts := hc (Or.inr (mem_pts.2 fun i => ⟨hb i, le_refl _⟩))
    rw [mem_pts] at h1 h2 h3 h4
    intro p hp
    rw [mem_pts] at hp ⊢
    intro i
    have := hp i
    simp only [Box.union, vmin_apply, vmax_apply] at this
    exact ⟨le_trans (le_min (h1 i).1 (h3 i).1) this.1, le_trans this.2 (max_le (h2 i).2 (h4 i).2)⟩

/-- **C45**: the intersection holds exactly the common points. -/
theorem C45_inter (a b : Box K n) : (a.inter b).pts = a.pts ∩ b.pts := by
  ext p
  rw [Set.mem_inter_iff, mem_pts, mem_pts, mem_pts, ← forall_and]
  apply forall_congr'
  intro i
  simp only [Box.inter, vmin_apply, vmax_apply, max_le_iff, le_min_iff]
  tauto

/-- **C45**: the default box is the unit of the union, and has no points. -/
theorem C45_unit {mx lw : K} (h : lw < mx) (hn : 0 < n) (b : Box K n) (hl : ∀ i, b.lo i ≤ mx) (hh : ∀ i, lw ≤ b.hi i) :
    (Box.default mx lw).union b = b ∧ b.union (Box.default mx lw) = b ∧ (Box.default mx lw : Box K n).isEmpty = true := by
  refine ⟨?_, ?_, ?_⟩
  · cases b
    simp only [Box.union, Box.default, Box.mk.injEq]
    constructor <;> ext i <;> simp_all
  · cases b
    simp only [Box.union, Box.default, Box.mk.injEq]
    constructor <;> ext i <;> simp_all
  · simp only [Box.isEmpty, Box.default, List.any_eq_true, List.mem_finRange, true_and, decide_eq_true_eq]
    exact ⟨⟨0, hn⟩, decide_eq_true h⟩

/-- **C45** refuted for other empty boxes: [5, 0] united with [7, 8] is [5, 8]. -/
theorem C45_unit_refuted :
    ∃ a b : Box ℚ 1, a.isEmpty = true ∧ (a.union b).contains ![6] = true ∧ b.contains ![6] = false :=
  ⟨⟨![5], ![0]⟩, ⟨![7], ![8]⟩, by decide +kernel⟩

/-- **C45**: the box of a sequence of points is the smallest box containing them all. -/
theorem C45_points {mx lw : K} (ps : List (Fin n → K)) (hps : ∀ p ∈ ps, ∀ i, lw ≤ p i ∧ p i ≤ mx) :
    (∀ p ∈ ps, p ∈ (fromPoints mx lw ps).pts) ∧
    (ps ≠ [] → ∀ c : Box K n, (∀ p ∈ ps, p ∈ c.pts) → (fromPoints mx lw ps).pts ⊆ c.pts) := by
  have mono : ∀ (qs : List (Fin n → K)) (s : Box K n) (p : Fin n → K), (p ∈ qs ∨ p ∈ s.pts) →
      p ∈ (qs.foldl Box.unionPoint s).pts := by
    intro qs
    induction qs with
    | nil => exact fun s p h => h.resolve_left (by simp)
    | cons q qs ih =>
      intro s p h
      rw [List.foldl_cons]
      apply ih
      rw [List.mem_cons, or_assoc, or_comm, or_assoc] at h
      rcases h with h | h
      · exact Or.inl h
      right
      rw [mem_pts]
      intro i
      simp only [Box.unionPoint, vmin_apply, vmax_apply]
      rcases h with h | rfl
      · rw [mem_pts] at h
        exact ⟨min_le_of_left_le (h i).1, le_max_of_le_left (h i).2⟩
      · simp
  have low : ∀ (qs : List (Fin n → K)) (s : Box K n) (l u : Fin n → K), (∀ i, l i ≤ s.lo i) → (∀ i, s.hi i ≤ u i) →
      (∀ q ∈ qs, ∀ i, l i ≤ q i ∧ q i ≤ u i) → ∀ i, l i ≤ (qs.foldl Box.unionPoint s).lo i ∧
      (qs.foldl Box.unionPoint s).hi i ≤ u i := by
    intro qs
    induction qs with
    | nil => exact fun s l u h1 h2 _ i => ⟨h1 i, h2 i⟩
    | cons q qs ih =>
      intro s l u h1 h2 h3
      rw [List.foldl_cons]
      have hq := h3 q (by simp)
      refine ih _ l u (fun i => ?_) (fun i => ?_) (fun q' h => h3 q' (by simp [h]))
      · simp only [Box.unionPoint, vmin_apply]
        exact le_min (h1 i) (hq i).1
      · simp only [Box.unionPoint, vmax_apply]
        exact max_le (h2 i) (hq i).2
  refine ⟨fun p hp => mono ps _ p (Or.inl hp), fun hne c hc => ?_⟩
  obtain ⟨p₀, hp₀⟩ := List.exists_mem_of_ne_nil ps hne
  have h₀ := mem_pts.1 (hc p₀ hp₀)
  have key := low ps (Box.default mx lw) c.lo c.hi (fun i => (h₀ i).1.trans (hps p₀ hp₀ i).2)
    (fun i => (hps p₀ hp₀ i).1.trans (h₀ i).2) (fun q hq => mem_pts.1 (hc q hq))
  intro x hx
  rw [mem_pts] at hx ⊢
  exact fun i => ⟨(key i).1.trans (hx i).1, (hx i).2.trans (key i).2⟩

/-- **C45**: the subset test never errs when it says yes, and is exact when the inner box has points. -/
theorem C45_subset (a b : Box K n) :
    (a.containsBox b = true → b.pts ⊆ a.pts) ∧ (b.isEmpty = false → (a.containsBox b = true ↔ b.pts ⊆ a.pts)) := by
  have h1 : a.containsBox b = true ↔ ∀ i, a.lo i ≤ b.lo i ∧ b.hi i ≤ a.hi i := by
    simp [Box.containsBox]
  have h2 : a.containsBox b = true → b.pts ⊆ a.pts := by
    rw [h1]
    intro h p hp
    rw [mem_pts] at hp ⊢
    exact fun i => ⟨(h i).1.trans (hp i).1, (hp i).2.trans (h i).2⟩
  refine ⟨h2, fun hb => ⟨h2, fun hs => ?_⟩⟩
  rw [not_empty_iff] at hb
  rw [h1]
  have h3 : b.lo ∈ a.pts := hs (mem_pts.2 fun i => ⟨le_refl _, hb i⟩)
  have h4 : b.hi ∈ a.pts := hs (mem_pts.2 fun i => ⟨hb i, le_refl _⟩)
  exact fun i => ⟨(mem_pts.1 h3 i).1, (mem_pts.1 h4 i).2⟩

/-- **C45** refuted for an empty inner box: it may be reported as not contained. -/
theorem C45_subset_refuted : ∃ a b : Box ℚ 1, b.isEmpty = true ∧ a.containsBox b = false :=
  ⟨⟨![0], ![1]⟩, ⟨![7], ![6]⟩, by decide +kernel⟩

/-- **C45**: the product of boxes is the product of their points. -/
theorem C45_prod {m : ℕ} (a : Box K n) (b : Box K m) (p : Fin n → K) (q : Fin m → K) :
    Fin.append p q ∈ (a.prod b).pts ↔ p ∈ a.pts ∧ q ∈ b.pts := by
  rw [mem_pts, mem_pts, mem_pts, Fin.forall_fin_add]
  simp [Box.prod]

/-- What spanning corners hold. -/
theorem C45_spanning (c₁ c₂ : Fin n → K) :
    c₁ ∈ (spanningCorners c₁ c₂).pts ∧ c₂ ∈ (spanningCorners c₁ c₂).pts ∧ (spanningCorners c₁ c₂).isEmpty = false ∧
    ∀ b : Box K n, c₁ ∈ b.pts → c₂ ∈ b.pts → (spanningCorners c₁ c₂).pts ⊆ b.pts := by
  refine ⟨mem_pts.2 fun i => by simp [spanningCorners], mem_pts.2 fun i => by simp [spanningCorners], ?_, ?_⟩
  · rw [not_empty_iff]
    intro i
    simp [spanningCorners]
  · intro b h1 h2 p hp
    rw [mem_pts] at *
    intro i
    have := hp i
    simp only [spanningCorners, vmin_apply, vmax_apply] at this
    exact ⟨(le_min (h1 i).1 (h2 i).1).trans this.1, this.2.trans (max_le (h1 i).2 (h2 i).2)⟩

/-! ### C46 -/

theorem intersects_iff (a b : Box K n) : a.intersects b = true ↔ ∀ i, b.lo i < a.hi i ∧ a.lo i < b.hi i := by
  simp [Box.intersects]

/-- **C46**, the sound part: for boxes with points, a reported intersection is real, and a shared point is reported
except when the boxes merely touch on some axis (which includes flat boxes that coincide there). -/
theorem C46_intersects_partial (a b : Box K n) (ha : a.isEmpty = false) (hb : b.isEmpty = false) :
    (a.intersects b = true → (a.pts ∩ b.pts).Nonempty) ∧
    ((a.pts ∩ b.pts).Nonempty → (a.intersects b = false ↔ ∃ i, a.hi i = b.lo i ∨ b.hi i = a.lo i)) ∧
    a.intersects b = b.intersects a := by
  rw [not_empty_iff] at ha hb
  have hne : (a.pts ∩ b.pts).Nonempty ↔ ∀ i, b.lo i ≤ a.hi i ∧ a.lo i ≤ b.hi i := by
    rw [← C45_inter, pts_nonempty]
    apply forall_congr'
    intro i
    simp only [Box.inter, vmin_apply, vmax_apply, max_le_iff, le_min_iff]
    have := ha i
    have := hb i
    tauto
  refine ⟨fun h => ?_, fun h => ?_, ?_⟩
  · rw [hne]
    rw [intersects_iff] at h
    exact fun i => ⟨(h i).1.le, (h i).2.le⟩
  · rw [hne] at h
    rw [← Bool.not_eq_true, intersects_iff]
    push Not
    constructor
    · rintro ⟨i, hi⟩
      refine ⟨i, ?_⟩
      by_cases h1 : b.lo i < a.hi i
      · exact Or.inr (le_antisymm (hi h1) (h i).2)
      · exact Or.inl (le_antisymm (not_lt.1 h1) (h i).1)
    · rintro ⟨i, hi | hi⟩
      · exact ⟨i, fun h1 => absurd h1 (by rw [hi]; exact lt_irrefl _)⟩
      · exact ⟨i, fun _ => hi.le⟩
  · rw [Bool.eq_iff_iff, intersects_iff, intersects_iff]
    apply forall_congr'
    intro i
    tauto

/-- **C46** refuted: touching boxes share a point, a box sharing cells with another along a face is missed for integers,
a single-point box does not intersect itself, and an empty box can be reported to intersect. -/
theorem C46_intersects_refuted :
    (∃ a b : Box ℚ 1, a.contains ![1] = true ∧ b.contains ![1] = true ∧ a.intersects b = false) ∧
    (∃ a b : Box ℤ 2, a.contains ![3, 0] = true ∧ b.contains ![3, 0] = true ∧ a.intersects b = false) ∧
    (∀ p : Fin 1 → ℚ, (Box.point p).intersects (Box.point p) = false) ∧
    (∃ a b : Box ℚ 1, a.isEmpty = true ∧ a.intersects b = true) := by
  refine ⟨⟨⟨![0], ![1]⟩, ⟨![1], ![2]⟩, by decide +kernel⟩, ⟨⟨![0, 0], ![3, 3]⟩, ⟨![3, 0], ![5, 3]⟩, by decide +kernel⟩,
    fun p => ?_, ⟨⟨![3], ![2]⟩, ⟨![0], ![10]⟩, by decide +kernel⟩⟩
  simp [Box.intersects, Box.point, List.finRange_succ]

end Order

section Ring
variable [LinearOrder K] [CommRing K] [IsStrictOrderedRing K]

/-- **C45**: translation moves the points. -/
theorem C45_translate (b : Box K n) (d : Fin n → K) :
    (b.translate d).pts = (fun p => p + d) '' b.pts ∧ (b.untranslate d).pts = (fun p => p - d) '' b.pts := by
  constructor
  · ext p
    simp only [Set.mem_image, mem_pts, Box.translate, Pi.add_apply]
    constructor
    · intro h
      refine ⟨p - d, fun i => ?_, sub_add_cancel p d⟩
      have := h i
      simp only [Pi.sub_apply]
      constructor <;> linarith
    · rintro ⟨q, hq, rfl⟩ i
      have := hq i
      simp only [Pi.add_apply]
      constructor <;> linarith
  · ext p
    simp only [Set.mem_image, mem_pts, Box.untranslate, Pi.sub_apply]
    constructor
    · intro h
      refine ⟨p + d, fun i => ?_, add_sub_cancel_right p d⟩
      have := h i
      simp only [Pi.add_apply]
      constructor <;> linarith
    · rintro ⟨q, hq, rfl⟩ i
      have := hq i
      simp only [Pi.sub_apply]
      constructor <;> linarith

/-- **C45**: the Minkowski sum of boxes with points is the set of sums. -/
theorem C45_minkowski (a b : Box K n) (ha : a.isEmpty = false) (hb : b.isEmpty = false) (p : Fin n → K) :
    p ∈ (a.minkowski b).pts ↔ ∃ x ∈ a.pts, ∃ y ∈ b.pts, p = x + y := by
  rw [not_empty_iff] at ha hb
  constructor
  · intro h
    rw [mem_pts] at h
    refine ⟨fun i => max (a.lo i) (p i - b.hi i), mem_pts.2 fun i => ?_, fun i => p i - max (a.lo i) (p i - b.hi i),
      mem_pts.2 fun i => ?_, by ext i; simp⟩
    · have := h i
      simp only [Box.minkowski, Pi.add_apply] at this
      exact ⟨le_max_left _ _, max_le (ha i) (by linarith)⟩
    · have := h i
      simp only [Box.minkowski, Pi.add_apply] at this
      have h1 := hb i
      constructor
      · have : max (a.lo i) (p i - b.hi i) ≤ p i - b.lo i := max_le (by linarith) (by linarith)
        linarith
      · have : p i - b.hi i ≤ max (a.lo i) (p i - b.hi i) := le_max_right _ _
        linarith
  · rintro ⟨x, hx, y, hy, rfl⟩
    rw [mem_pts] at hx hy ⊢
    intro i
    simp only [Box.minkowski, Pi.add_apply]
    have h1 := hx i
    have h2 := hy i
    constructor <;> linarith

/-- **C45** refuted for empty boxes: adding a large box gives points. -/
theorem C45_minkowski_refuted :
    ∃ a b : Box ℚ 1, a.isEmpty = true ∧ (a.minkowski b).contains ![7] = true :=
  ⟨⟨![5], ![0]⟩, ⟨![0], ![10]⟩, by decide +kernel⟩

/-- **C45**: dilation by nonnegative amounts. -/
theorem C45_dilated (b : Box K n) (hb : b.isEmpty = false) (c : Fin n → K) (hc : ∀ i, 0 ≤ c i) (p : Fin n → K) :
    p ∈ (b.dilated c).pts ↔ ∃ q ∈ b.pts, ∀ i, |p i - q i| ≤ c i := by
  have h1 : b.dilated c = b.minkowski ⟨-c, c⟩ := by
    simp [Box.dilated, Box.minkowski, sub_eq_add_neg]
  rw [h1, C45_minkowski b ⟨-c, c⟩ hb ((not_empty_iff _).2 fun i => by simp; linarith [hc i])]
  constructor
  · rintro ⟨x, hx, y, hy, rfl⟩
    refine ⟨x, hx, fun i => ?_⟩
    have := mem_pts.1 hy i
    rw [Pi.add_apply, add_sub_cancel_left, abs_le]
    exact this
  · rintro ⟨q, hq, h⟩
    refine ⟨q, hq, p - q, mem_pts.2 fun i => ?_, by abel⟩
    have := h i
    rw [abs_le] at this
    exact this

omit [IsStrictOrderedRing K] in
/-- **C45** refuted for `p - rect`: it is `rect - p`, i.e. `x` is inside iff `x + p` was. -/
theorem C45_point_minus_refuted [IsStrictOrderedRing K] (p : Fin n → K) (b : Box K n) (x : Fin n → K) :
    x ∈ (pointMinusBox p b).pts ↔ x + p ∈ b.pts := by
  rw [pointMinusBox, (C45_translate b p).2]
  constructor
  · rintro ⟨q, hq, rfl⟩
    simpa using hq
  · intro h
    exact ⟨x + p, h, by simp⟩

omit [IsStrictOrderedRing K] in
/-- **C45** refuted for `rect - rect`: the result is always the default (empty) box, whatever is excluded, and the box
operated on is overwritten. -/
theorem C45_exclude_refuted :
    (∀ (mx lw : K) (a b : Box K n), (a.exclude mx lw b).1 = Box.default mx lw) ∧
    ∃ a b : Box ℚ 1, (a.exclude 100 (-100) b).1.contains ![2] = false ∧ a.contains ![2] = true ∧
      b.contains ![2] = false ∧ (a.exclude 100 (-100) b).2 = ⟨![5], ![0]⟩ :=
  ⟨fun _ _ _ _ => rfl, ⟨![0], ![10]⟩, ⟨![5], ![12]⟩, by decide +kernel⟩

end Ring

section Field
variable [LinearOrder K] [Field K] [IsStrictOrderedRing K]

/-- **C45**: scaling a box with points scales its points. -/
theorem C45_scale (b : Box K n) (hb : b.isEmpty = false) (a : Fin n → K) (p : Fin n → K) :
    p ∈ (b.scale a).pts ↔ ∃ x ∈ b.pts, p = x * a := by
  rw [not_empty_iff] at hb
  constructor
  · intro h
    rw [mem_pts] at h
    refine ⟨fun i => if a i = 0 then b.lo i else p i / a i, mem_pts.2 fun i => ?_, ?_⟩
    · have h1 := h i
      simp only [Box.scale, spanningCorners, vmin_apply, vmax_apply, Pi.mul_apply] at h1
      have h2 := hb i
      by_cases h0 : a i = 0
      · simp [h0, h2]
      · simp only [h0, if_false]
        rcases lt_or_gt_of_ne h0 with hneg | hpos
        · have h3 : b.hi i * a i ≤ b.lo i * a i := mul_le_mul_of_nonpos_right h2 hneg.le
          rw [min_eq_right h3, max_eq_left h3] at h1
          rw [le_div_iff_of_neg hneg, div_le_iff_of_neg hneg]
          exact ⟨h1.2, h1.1⟩
        · have h3 : b.lo i * a i ≤ b.hi i * a i := mul_le_mul_of_nonneg_right h2 hpos.le
          rw [min_eq_left h3, max_eq_right h3] at h1
          rw [le_div_iff₀ hpos, div_le_iff₀ hpos]
          exact h1
    · ext i
      simp only [Pi.mul_apply]
      by_cases h0 : a i = 0
      · have h1 := h i
        simp only [Box.scale, spanningCorners, vmin_apply, vmax_apply, Pi.mul_apply, h0, mul_zero, min_self, max_self] at h1
        rw [h0, mul_zero]
        exact le_antisymm h1.2 h1.1
      · simp [h0]
  · rintro ⟨x, hx, rfl⟩
    rw [mem_pts] at hx ⊢
    intro i
    simp only [Box.scale, spanningCorners, vmin_apply, vmax_apply, Pi.mul_apply]
    have h1 := hx i
    rcases le_total 0 (a i) with h | h
    · exact ⟨min_le_of_left_le (mul_le_mul_of_nonneg_right h1.1 h), le_max_of_le_right (mul_le_mul_of_nonneg_right h1.2 h)⟩
    · exact ⟨min_le_of_right_le (mul_le_mul_of_nonpos_right h1.2 h),
        le_max_of_le_left (mul_le_mul_of_nonpos_right h1.1 h)⟩

omit [IsStrictOrderedRing K] in
/-- **C45** refuted for scaling an empty box: the result always has points. -/
theorem C45_scale_refuted (b : Box K n) (a : Fin n → K) : (b.scale a).isEmpty = false := (C45_spanning _ _).2.2.1

/-- **C45**: division undoes scaling for boxes with points; it is undefined exactly if a factor is zero. -/
theorem C45_unscale (b : Box K n) (a : Fin n → K) :
    (b.unscale a = none ↔ ∃ i, a i = 0) ∧ (b.isEmpty = false → ∀ r, (b.scale a).unscale a = some r → r = b) ∧
    ∀ r, b.unscale a = some r → r = b.scale (fun i => (a i)⁻¹) := by
  refine ⟨?_, fun hb r hr => ?_, fun r hr => ?_⟩
  · simp [Box.unscale]
  · rw [not_empty_iff] at hb
    unfold Box.unscale at hr
    split at hr
    · cases hr
    rename_i h0
    push Not at h0
    cases hr
    cases b
    simp only [spanningCorners, Box.scale, Box.mk.injEq] at hb ⊢
    constructor
    · ext i
      have h1 := hb i
      simp only [vmin_apply, vmax_apply, Pi.mul_apply]
      rcases lt_or_gt_of_ne (h0 i) with hneg | hpos
      · have h3 := mul_le_mul_of_nonpos_right h1 hneg.le
        rw [min_eq_right h3, max_eq_left h3, mul_div_cancel_right₀ _ (h0 i), mul_div_cancel_right₀ _ (h0 i), min_eq_right h1]
      · have h3 := mul_le_mul_of_nonneg_right h1 hpos.le
        rw [min_eq_left h3, max_eq_right h3, mul_div_cancel_right₀ _ (h0 i), mul_div_cancel_right₀ _ (h0 i), min_eq_left h1]
    · ext i
      have h1 := hb i
      simp only [vmin_apply, vmax_apply, Pi.mul_apply]
      rcases lt_or_gt_of_ne (h0 i) with hneg | hpos
      · have h3 := mul_le_mul_of_nonpos_right h1 hneg.le
        rw [min_eq_right h3, max_eq_left h3, mul_div_cancel_right₀ _ (h0 i), mul_div_cancel_right₀ _ (h0 i), max_eq_left h1]
      · have h3 := mul_le_mul_of_nonneg_right h1 hpos.le
        rw [min_eq_left h3, max_eq_right h3, mul_div_cancel_right₀ _ (h0 i), mul_div_cancel_right₀ _ (h0 i), max_eq_right h1]
  · unfold Box.unscale at hr
    split at hr
    · cases hr
    cases hr
    simp only [Box.scale, div_eq_mul_inv]
    rfl

end Field

/-! ### Examples -/

example : ((⟨![0, 0], ![1, 2]⟩ : Box ℚ 2).union ⟨![5, -1], ![6, 0]⟩) = ⟨![0, -1], ![6, 2]⟩ := by decide +kernel
example : fromPoints 100 (-100) [![1, 5], ![3, 2]] = (⟨![1, 2], ![3, 5]⟩ : Box ℤ 2) := by decide +kernel
example : ((⟨![1], ![2]⟩ : Box ℚ 1).scale ![-3]) = ⟨![-6], ![-3]⟩ := by decide +kernel
example : (⟨![0, 0], ![2, 2]⟩ : Box ℤ 2).intersects ⟨![1, 1], ![5, 5]⟩ = true := by decide +kernel

end Geomc.Rect
