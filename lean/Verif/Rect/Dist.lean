import Mathlib.Topology.Order.DenselyOrdered
import Mathlib.Topology.Constructions
import Mathlib.Topology.Instances.Real.Lemmas
import Verif.Rect.Props

/-!
# C47: nearest points and distances; C48: coordinates, support points and contact; C49: rays
-/

namespace Geomc.Rect

open Geomc.Vec

variable {K : Type} {n : ℕ}

section Ring
variable [LinearOrder K] [Field K] [IsStrictOrderedRing K]

omit [LinearOrder K] [IsStrictOrderedRing K] in
theorem mag2_sum (u : Fin n → K) : mag2 u = ∑ i, u i * u i := mag2_eq u

theorem mag2_le {u v : Fin n → K} (h : ∀ i, |u i| ≤ |v i|) : mag2 u ≤ mag2 v := by
  rw [mag2_sum, mag2_sum]
  exact Finset.sum_le_sum fun i _ => by rw [← abs_mul_abs_self (u i), ← abs_mul_abs_self (v i)]
                                        exact mul_self_le_mul_self (abs_nonneg _) (h i)

theorem mag2_lt {u v : Fin n → K} (h : ∀ i, |u i| ≤ |v i|) {k : Fin n} (hk : |u k| < |v k|) : mag2 u < mag2 v := by
  rw [mag2_sum, mag2_sum]
  refine Finset.sum_lt_sum (fun i _ => ?_) ⟨k, Finset.mem_univ _, ?_⟩
  · rw [← abs_mul_abs_self (u i), ← abs_mul_abs_self (v i)]
    exact mul_self_le_mul_self (abs_nonneg _) (h i)
  · rw [← abs_mul_abs_self (u k), ← abs_mul_abs_self (v k)]
    exact mul_self_lt_mul_self (abs_nonneg _) hk

theorem mag2_nonneg (u : Fin n → K) : 0 ≤ mag2 u := by
  rw [mag2_eq]
  exact self_dot_nonneg u

theorem mag2_eq_zero (u : Fin n → K) : mag2 u = 0 ↔ u = 0 := by
  rw [mag2_eq, self_dot_eq_zero]

omit [IsStrictOrderedRing K] in
theorem clip_apply (b : Box K n) (p : Fin n → K) (i : Fin n) : b.clip p i = min (b.hi i) (max (b.lo i) (p i)) := by
  simp [Box.clip]

theorem clip_near (b : Box K n) (p q : Fin n → K) (i : Fin n) (h : b.lo i ≤ b.hi i) (hq : b.lo i ≤ q i ∧ q i ≤ b.hi i) :
    |p i - b.clip p i| ≤ |p i - q i| := by
  rw [clip_apply]
  rcases le_total (p i) (b.lo i) with h1 | h1
  · rw [max_eq_left h1, min_eq_right h, abs_of_nonpos (by linarith), abs_of_nonpos (by linarith)]
    linarith
  · rw [max_eq_right h1]
    rcases le_total (p i) (b.hi i) with h2 | h2
    · rw [min_eq_right h2]
      simp
    · rw [min_eq_left h2, abs_of_nonneg (by linarith), abs_of_nonneg (by linarith)]
      linarith

omit [IsStrictOrderedRing K] in
theorem clip_mem (b : Box K n) (hb : b.isEmpty = false) (p : Fin n → K) : b.clip p ∈ b.pts := by
  rw [not_empty_iff] at hb
  rw [mem_pts]
  intro i
  rw [clip_apply]
  exact ⟨le_min (hb i) (le_max_left _ _), min_le_left _ _⟩

/-- **C47**: `clip` is the closest point of a box that has points, and `dist2` is the squared distance to it. -/
theorem C47_clip (b : Box K n) (hb : b.isEmpty = false) (p : Fin n → K) :
    b.clip p ∈ b.pts ∧ (∀ q ∈ b.pts, mag2 (p - b.clip p) ≤ mag2 (p - q)) ∧ (p ∈ b.pts → b.clip p = p) ∧
    IsLeast {x | ∃ q ∈ b.pts, x = mag2 (p - q)} (b.dist2 p) ∧ (b.dist2 p = 0 ↔ p ∈ b.pts) := by
  have hm := clip_mem b hb p
  have hb' := (not_empty_iff b).1 hb
  have hle : ∀ q ∈ b.pts, mag2 (p - b.clip p) ≤ mag2 (p - q) := fun q hq =>
    mag2_le fun i => clip_near b p q i (hb' i) (mem_pts.1 hq i)
  have hin : p ∈ b.pts → b.clip p = p := by
    intro h
    ext i
    rw [mem_pts] at h
    rw [clip_apply, max_eq_right (h i).1, min_eq_right (h i).2]
  refine ⟨hm, hle, hin, ⟨⟨_, hm, rfl⟩, ?_⟩, ?_⟩
  · rintro x ⟨q, hq, rfl⟩
    exact hle q hq
  · rw [Box.dist2, mag2_eq_zero, sub_eq_zero]
    constructor
    · intro h
      rw [h]
      exact hm
    · exact fun h => (hin h).symm

/-- The boundary of a box: its points with some coordinate extreme. -/
def Box.boundary (b : Box K n) : Set (Fin n → K) := {q | q ∈ b.pts ∧ ∃ i, q i = b.lo i ∨ q i = b.hi i}

/-- It is the topological frontier. -/
theorem frontier_pts (b : Box ℝ n) : frontier b.pts = b.boundary := by
  have h1 : b.pts = Set.pi Set.univ fun i => Set.Icc (b.lo i) (b.hi i) := by
    rw [Set.pi_univ_Icc, Box.pts]
  have h2 : IsClosed b.pts := by
    rw [h1]
    exact isClosed_set_pi fun i _ => isClosed_Icc
  rw [frontier, h2.closure_eq, h1, interior_pi_set Set.finite_univ, ← h1]
  ext q
  simp only [interior_Icc, Set.mem_sdiff, Set.mem_pi, Set.mem_univ, true_imp_iff, Set.mem_Ioo, Box.boundary, Set.mem_setOf_eq]
  apply and_congr_right
  intro hq
  rw [mem_pts] at hq
  push Not
  apply exists_congr
  intro i
  have := hq i
  constructor
  · intro h
    by_cases h3 : b.lo i < q i
    · exact Or.inr (le_antisymm this.2 (h h3))
    · exact Or.inl (le_antisymm (not_lt.1 h3) this.1)
  · rintro (h | h) h3
    · exact absurd h3 (by rw [h]; exact lt_irrefl _)
    · exact h.ge

/-- `project` picks the nearer extreme on every axis. -/
theorem project_apply (b : Box K n) (p : Fin n → K) (i : Fin n) :
    (b.project p i = b.lo i ∨ b.project p i = b.hi i) ∧
    |p i - b.project p i| ≤ |p i - b.lo i| ∧ |p i - b.project p i| ≤ |p i - b.hi i| := by
  unfold Box.project
  simp only
  split_ifs with h
  · exact ⟨Or.inl rfl, le_refl _, h.le⟩
  · exact ⟨Or.inr rfl, not_lt.1 h, le_refl _⟩

theorem project_mem (b : Box K n) (hb : b.isEmpty = false) (p : Fin n → K) : b.project p ∈ b.pts := by
  rw [not_empty_iff] at hb
  rw [mem_pts]
  intro i
  rcases (project_apply b p i).1 with h | h <;> rw [h]
  · exact ⟨le_refl _, hb i⟩
  · exact ⟨hb i, le_refl _⟩

/-- On the axes where the point is not strictly between the extremes, `project` and `clip` agree. -/
theorem project_eq_clip (b : Box K n) (p : Fin n → K) (i : Fin n) (h : b.lo i ≤ b.hi i)
    (hp : p i ≤ b.lo i ∨ b.hi i ≤ p i) : b.project p i = b.clip p i := by
  rw [clip_apply]
  unfold Box.project
  simp only
  rcases hp with h1 | h1
  · rw [max_eq_left h1, min_eq_right h, abs_of_nonpos (by linarith), abs_of_nonpos (by linarith)]
    split_ifs with h2
    · rfl
    · linarith
  · rw [min_eq_left (h1.trans (le_max_right _ _)), abs_of_nonneg (by linarith), abs_of_nonneg (by linarith)]
    split_ifs with h2
    · linarith
    · rfl

/-- Being the nearest boundary point. -/
def Box.NearestBoundary (b : Box K n) (p q : Fin n → K) : Prop :=
  q ∈ b.boundary ∧ ∀ r ∈ b.boundary, mag2 (p - q) ≤ mag2 (p - r)

/-- **C47**: in one dimension `project` is right everywhere. -/
theorem C47_project_1d (b : Box K 1) (hb : b.isEmpty = false) (p : Fin 1 → K) : b.NearestBoundary p (b.project p) := by
  refine ⟨⟨project_mem b hb p, 0, (project_apply b p 0).1⟩, ?_⟩
  rintro r ⟨hr, i, hi⟩
  apply mag2_le
  intro j
  have h0 := project_apply b p i
  rw [Subsingleton.elim j i]
  simp only [Pi.sub_apply]
  rcases hi with hi | hi <;> rw [hi]
  · exact h0.2.1
  · exact h0.2.2

/-- **C47**, where `project` is right in two and more dimensions: it always lands on the corner nearest to the point, and
this is the nearest boundary point exactly if no coordinate of the point lies strictly between the extremes (that is, from
outside, beyond a corner; from inside, only on a corner). -/
theorem C47_project_iff (b : Box K n) (hn : 2 ≤ n) (hb : b.isEmpty = false) (p : Fin n → K) :
    (∀ i, b.project p i = b.lo i ∨ b.project p i = b.hi i) ∧
    (b.NearestBoundary p (b.project p) ↔ ∀ i, p i ≤ b.lo i ∨ b.hi i ≤ p i) := by
  have hb' := (not_empty_iff b).1 hb
  refine ⟨fun i => (project_apply b p i).1, ⟨fun h i => ?_, fun h => ?_⟩⟩
  · by_contra hc
    push Not at hc
    obtain ⟨j, hj⟩ : ∃ j : Fin n, j ≠ i := by
      by_cases h0 : (i : ℕ) = 0
      · exact ⟨⟨1, by omega⟩, fun h => by rw [← h] at h0; simp at h0⟩
      · exact ⟨⟨0, by omega⟩, fun h => h0 (by rw [← h])⟩
    have hm := mem_pts.1 (project_mem b hb p)
    have h1 := h.2 (Function.update (b.project p) i (p i)) ⟨mem_pts.2 fun k => ?_, j, ?_⟩
    · refine absurd h1 (not_le.2 (mag2_lt (k := i) (fun k => ?_) ?_))
      · by_cases hk : k = i
        · subst hk
          simp
        · simp [hk]
      · simp only [Pi.sub_apply, Function.update_self, sub_self, abs_zero, abs_pos]
        rcases (project_apply b p i).1 with h2 | h2 <;> rw [h2]
        · exact sub_ne_zero.2 hc.1.ne'
        · exact sub_ne_zero.2 hc.2.ne
    · by_cases hk : k = i
      · subst hk
        simp [hc.1.le, hc.2.le]
      · rw [Function.update_of_ne hk]
        exact hm k
    · rw [Function.update_of_ne hj]
      exact (project_apply b p j).1
  · have he : b.project p = b.clip p := by
      ext i
      exact project_eq_clip b p i (hb' i) (h i)
    refine ⟨⟨project_mem b hb p, ⟨0, by omega⟩, (project_apply b p _).1⟩, fun r hr => ?_⟩
    rw [he]
    exact (C47_clip b hb p).2.1 r hr.1

/-- **C47** refuted: the nearest boundary point to (5, 1) in the square [0, 10]² is (5, 0), not (10, 0), and that to
(15, 4) is (10, 4), not (10, 0); the distances follow. -/
theorem C47_project_refuted :
    let b : Box ℚ 2 := ⟨![0, 0], ![10, 10]⟩
    b.project ![5, 1] = ![10, 0] ∧ mag2 (![5, 1] - b.project ![5, 1]) = 26 ∧ mag2 (![5, 1] - ![5, 0] : Fin 2 → ℚ) = 1 ∧
    b.project ![15, 4] = ![10, 0] ∧ mag2 (![15, 4] - b.project ![15, 4]) = 41 ∧
    mag2 (![15, 4] - ![10, 4] : Fin 2 → ℚ) = 25 := by
  decide +kernel

/-- **C47**: the sign of the signed distance is right. -/
theorem C47_sdf_sign {sqrt : K → K} (hs : IsSqrt sqrt) (b : Box K n) (hb : b.isEmpty = false) (p : Fin n → K) (hn : 0 < n) :
    (p ∉ b.pts → 0 < b.sdf sqrt p) ∧ (p ∈ b.pts → b.sdf sqrt p ≤ 0) ∧
    ((∀ i, b.lo i < p i ∧ p i < b.hi i) → b.sdf sqrt p < 0) ∧
    (b.sdf sqrt p = 0 → p ∈ b.boundary) := by
  have hc := (C45_contains b p).2.1
  have hnn : 0 ≤ mag2 (b.project p - p) := mag2_nonneg _
  have hz : sqrt (mag2 (b.project p - p)) = 0 → b.project p = p := by
    intro h
    rw [hs.ne_zero hnn, mag2_eq_zero, sub_eq_zero] at h
    exact h
  have hsn : 0 ≤ sqrt (mag2 (b.project p - p)) := by
    rcases hnn.eq_or_lt with h | h
    · rw [← h, hs.zero]
    · exact (hs.pos _ h).le
  refine ⟨fun h => ?_, fun h => ?_, fun h => ?_, fun h => ?_⟩
  · have h1 : ¬ b.contains p = true := fun h2 => h (hc.1 h2)
    rw [Box.sdf, if_neg h1, one_mul]
    refine lt_of_le_of_ne hsn fun h2 => h ?_
    rw [← hz h2.symm]
    exact project_mem b hb p
  · rw [Box.sdf, if_pos (hc.2 h)]
    linarith
  · have h1 : p ∈ b.pts := mem_pts.2 fun i => ⟨(h i).1.le, (h i).2.le⟩
    rw [Box.sdf, if_pos (hc.2 h1), neg_one_mul, neg_lt_zero]
    refine lt_of_le_of_ne hsn fun h2 => ?_
    have h3 := hz h2.symm
    rcases (project_apply b p ⟨0, hn⟩).1 with h4 | h4 <;> rw [h3] at h4
    · exact absurd h4 (h _).1.ne'
    · exact absurd h4 (h _).2.ne
  · have h1 : sqrt (mag2 (b.project p - p)) = 0 := by
      unfold Box.sdf at h
      split_ifs at h
      · linarith
      · linarith
    have h2 := hz h1
    refine ⟨?_, ⟨0, hn⟩, ?_⟩
    · rw [← h2]
      exact project_mem b hb p
    · have := (project_apply b p ⟨0, hn⟩).1
      rwa [h2] at this

omit [LinearOrder K] [IsStrictOrderedRing K] in
theorem mag2_sub_comm (u v : Fin n → K) : mag2 (u - v) = mag2 (v - u) := by
  rw [mag2_sum, mag2_sum]
  exact Finset.sum_congr rfl fun i _ => by simp only [Pi.sub_apply]; ring

/-- **C47**: its magnitude is the distance to the boundary exactly when `project` is right. -/
theorem C47_sdf_iff {sqrt : K → K} (hs : IsSqrt sqrt) (b : Box K n) (hn : 2 ≤ n) (hb : b.isEmpty = false) (p : Fin n → K) :
    b.sdf sqrt p ^ 2 = mag2 (b.project p - p) ∧
    ((∀ q ∈ b.boundary, b.sdf sqrt p ^ 2 ≤ mag2 (p - q)) ↔ ∀ i, p i ≤ b.lo i ∨ b.hi i ≤ p i) := by
  have h1 : b.sdf sqrt p ^ 2 = mag2 (b.project p - p) := by
    have := hs.sq _ (mag2_nonneg (b.project p - p))
    unfold Box.sdf
    split_ifs <;> linear_combination this
  refine ⟨h1, ?_⟩
  rw [← (C47_project_iff b hn hb p).2, h1, mag2_sub_comm]
  exact ⟨fun h => ⟨⟨project_mem b hb p, ⟨0, by omega⟩, (project_apply b p _).1⟩, h⟩, fun h => h.2⟩

/-! ### C48 -/

/-- **C48**: `remap` and `unmap` are inverse, between the unit cube and the box. -/
theorem C48_remap (b : Box K n) (hb : ∀ i, b.hi i ≠ b.lo i) (s p u : Fin n → K) :
    b.unmap (b.remap s) = some s ∧ (b.unmap p = some u → b.remap u = p) ∧ ∃ u, b.unmap p = some u := by
  have h0 : ¬ ∃ i, b.hi i = b.lo i := fun ⟨i, h⟩ => hb i h
  refine ⟨?_, fun h => ?_, ⟨_, if_neg h0⟩⟩
  · rw [Box.unmap, if_neg h0]
    congr 1
    ext i
    rw [div_eq_iff (sub_ne_zero.2 (hb i)), Box.remap]
    ring
  · rw [Box.unmap, if_neg h0] at h
    cases h
    ext i
    have := sub_ne_zero.2 (hb i)
    rw [Box.remap]
    field_simp
    ring

/-- **C48**: the unit cube maps onto the box. -/
theorem C48_remap_cube (b : Box K n) (hb : ∀ i, b.lo i < b.hi i) (s : Fin n → K) :
    b.remap s ∈ b.pts ↔ ∀ i, 0 ≤ s i ∧ s i ≤ 1 := by
  rw [mem_pts]
  apply forall_congr'
  intro i
  have h1 := sub_pos.2 (hb i)
  simp only [Box.remap]
  constructor
  · rintro ⟨h2, h3⟩
    constructor
    · by_contra h
      push Not at h
      nlinarith
    · by_contra h
      push Not at h
      nlinarith
  · rintro ⟨h2, h3⟩
    constructor <;> nlinarith

omit [LinearOrder K] [IsStrictOrderedRing K] in
/-- **C48**: a box flat along an axis has no coordinates. -/
theorem C48_unmap_undefined [LinearOrder K] (b : Box K n) (p : Fin n → K) : b.unmap p = none ↔ ∃ i, b.hi i = b.lo i := by
  simp [Box.unmap]

/-- **C48**: the support point is a corner of the box farthest along the direction. -/
theorem C48_support (b : Box K n) (hb : b.isEmpty = false) (d : Fin n → K) :
    (∀ i, b.support d i = b.lo i ∨ b.support d i = b.hi i) ∧ b.support d ∈ b.pts ∧
    ∀ q ∈ b.pts, dot q d ≤ dot (b.support d) d := by
  rw [not_empty_iff] at hb
  have h1 : ∀ i, b.support d i = b.lo i ∨ b.support d i = b.hi i := by
    intro i
    unfold Box.support
    split_ifs <;> simp
  refine ⟨h1, mem_pts.2 fun i => ?_, fun q hq => ?_⟩
  · rcases h1 i with h | h <;> rw [h]
    · exact ⟨le_refl _, hb i⟩
    · exact ⟨hb i, le_refl _⟩
  · rw [dot_eq, dot_eq]
    refine Finset.sum_le_sum fun i _ => ?_
    have := mem_pts.1 hq i
    unfold Box.support
    split_ifs with h
    · exact mul_le_mul_of_nonpos_right this.1 h.le
    · exact mul_le_mul_of_nonneg_right this.2 (not_lt.1 h)

end Ring

/-! ### C48: contact -/

section Contact
variable [LinearOrder K] [CommRing K] [IsStrictOrderedRing K]

omit [IsStrictOrderedRing K] in
theorem overlaps_iff (a b : Box K n) (i : Fin n) : a.overlaps b i = true ↔ b.lo i < a.hi i ∧ a.lo i < b.hi i := by
  simp [Box.overlaps]

/-- Moving by less than the gap does not separate overlapping intervals; moving by the gap makes them touch. -/
theorem gap_overlap (a b : Box K n) (i : Fin n) (h : b.lo i < a.hi i ∧ a.lo i < b.hi i) :
    (a.hi i + a.gap b i = b.lo i ∨ a.lo i + a.gap b i = b.hi i) ∧
    ∀ w : K, (a.hi i + w ≤ b.lo i ∨ b.hi i ≤ a.lo i + w) → |a.gap b i| ≤ |w| := by
  unfold Box.gap
  simp only
  rw [abs_of_neg (show b.lo i - a.hi i < 0 by linarith), abs_of_pos (show 0 < b.hi i - a.lo i by linarith)]
  constructor
  · split_ifs
    · left; ring
    · right; ring
  · intro w hw
    split_ifs with h1
    · rw [abs_of_neg (show b.lo i - a.hi i < 0 by linarith)]
      rcases hw with hw | hw
      · exact le_trans (by linarith) (neg_le_abs w)
      · exact le_trans (by linarith) (le_abs_self w)
    · rw [abs_of_pos (show 0 < b.hi i - a.lo i by linarith)]
      rcases hw with hw | hw
      · exact le_trans (by linarith) (neg_le_abs w)
      · exact le_trans (by linarith) (le_abs_self w)

/-- The gap between separate intervals is the least move that makes them meet. -/
theorem gap_separate (a b : Box K n) (i : Fin n) (ha : a.lo i ≤ a.hi i) (hb : b.lo i ≤ b.hi i)
    (h : ¬ (b.lo i < a.hi i ∧ a.lo i < b.hi i)) :
    (a.hi i + a.gap b i = b.lo i ∨ a.lo i + a.gap b i = b.hi i) ∧
    ∀ w : K, a.lo i + w ≤ b.hi i → b.lo i ≤ a.hi i + w → |a.gap b i| ≤ |w| := by
  have key : a.gap b i = b.lo i - a.hi i ∧ a.hi i ≤ b.lo i ∨ a.gap b i = b.hi i - a.lo i ∧ b.hi i ≤ a.lo i := by
    by_cases h1 : a.hi i ≤ b.lo i
    · left
      refine ⟨?_, h1⟩
      unfold Box.gap
      simp only
      rw [abs_of_nonneg (by linarith), abs_of_nonneg (by linarith)]
      split_ifs <;> linarith
    · right
      have h2 : b.hi i ≤ a.lo i := by
        by_contra h3
        exact h ⟨not_le.1 h1, not_le.1 h3⟩
      refine ⟨?_, h2⟩
      unfold Box.gap
      simp only
      rw [abs_of_nonpos (by linarith), abs_of_nonpos (by linarith)]
      split_ifs <;> linarith
  rcases key with ⟨h1, h2⟩ | ⟨h1, h2⟩ <;> rw [h1]
  · refine ⟨Or.inl (by ring), fun w _ h4 => ?_⟩
    rw [abs_of_nonneg (by linarith)]
    exact le_trans (by linarith) (le_abs_self w)
  · refine ⟨Or.inr (by ring), fun w h3 _ => ?_⟩
    rw [abs_of_nonpos (by linarith)]
    exact le_trans (by linarith) (neg_le_abs w)

/-- The search finds an axis of least gap. -/
theorem best_spec (g : Fin n → K) (mx : K) (h : ∃ i, |g i| < |mx|) :
    ∃ k, (List.finRange n).foldl (fun (s : Option (Fin n) × K) i => if |g i| < |s.2| then (some i, g i) else s) (none, mx)
      = (some k, g k) ∧ ∀ i, |g k| ≤ |g i| := by
  have key : ∀ (l : List (Fin n)) (s : Option (Fin n) × K), (s = (none, mx) ∨ ∃ k, s = (some k, g k)) →
      let r := l.foldl (fun (s : Option (Fin n) × K) i => if |g i| < |s.2| then (some i, g i) else s) s
      (r = (none, mx) ∨ ∃ k, r = (some k, g k)) ∧ |r.2| ≤ |s.2| ∧ ∀ i ∈ l, |r.2| ≤ |g i| := by
    intro l
    induction l with
    | nil => exact fun s hs => ⟨hs, le_refl _, by simp⟩
    | cons i l ih =>
      intro s hs
      simp only [List.foldl_cons]
      by_cases h1 : |g i| < |s.2|
      · rw [if_pos h1]
        obtain ⟨h2, h3, h4⟩ := ih (some i, g i) (Or.inr ⟨i, rfl⟩)
        refine ⟨h2, h3.trans h1.le, fun j hj => ?_⟩
        rcases List.mem_cons.1 hj with rfl | hj
        · exact h3
        · exact h4 j hj
      · rw [if_neg h1]
        obtain ⟨h2, h3, h4⟩ := ih s hs
        refine ⟨h2, h3, fun j hj => ?_⟩
        rcases List.mem_cons.1 hj with rfl | hj
        · exact h3.trans (not_lt.1 h1)
        · exact h4 j hj
  obtain ⟨h1, -, h3⟩ := key (List.finRange n) (none, mx) (Or.inl rfl)
  obtain ⟨i₀, hi₀⟩ := h
  rcases h1 with h1 | ⟨k, h1⟩
  · rw [h1] at h3
    exact absurd (h3 i₀ (List.mem_finRange _)) (not_le.2 hi₀)
  · refine ⟨k, h1, fun i => ?_⟩
    rw [h1] at h3
    exact h3 i (List.mem_finRange _)

theorem sum_sq_le {u v : Fin n → K} (h : ∀ i, |u i| ≤ |v i|) : ∑ i, u i * u i ≤ ∑ i, v i * v i :=
  Finset.sum_le_sum fun i _ => by rw [← abs_mul_abs_self (u i), ← abs_mul_abs_self (v i)]
                                  exact mul_self_le_mul_self (abs_nonneg _) (h i)

/-- **C48** (integer element types): the contact vector reports whether the boxes overlap, moves the box out of overlap into
contact, and is a shortest such move; if the boxes do not overlap it closes the gap by the shortest move. -/
theorem C48_contact (mx : K) (a b : Box K n) (ha : a.isEmpty = false) (hb : b.isEmpty = false)
    (hmx : ∃ i, |a.gap b i| < |mx|) :
    ∃ v, a.contactVector mx b = some (v, a.intersects b) ∧ (a.translate v).intersects b = false ∧
      ((a.translate v).pts ∩ b.pts).Nonempty ∧
      (a.intersects b = true → ∀ w, (a.translate w).intersects b = false → ∑ i, v i * v i ≤ ∑ i, w i * w i) ∧
      (a.intersects b = false → ∀ w, ((a.translate w).pts ∩ b.pts).Nonempty → ∑ i, v i * v i ≤ ∑ i, w i * w i) := by
  have ha' := (not_empty_iff a).1 ha
  have hb' := (not_empty_iff b).1 hb
  have hall : (List.finRange n).all (a.overlaps b) = a.intersects b := rfl
  have share : ∀ w : Fin n → K, ((a.translate w).pts ∩ b.pts).Nonempty ↔
      ∀ i, a.lo i + w i ≤ b.hi i ∧ b.lo i ≤ a.hi i + w i := by
    intro w
    rw [← C45_inter, pts_nonempty]
    apply forall_congr'
    intro i
    simp only [Box.inter, vmin_apply, vmax_apply, max_le_iff, le_min_iff, Box.translate, Pi.add_apply]
    have h1 := ha' i
    have h2 := hb' i
    constructor
    · rintro ⟨⟨h3, h4⟩, h5, h6⟩
      exact ⟨h5, h4⟩
    · rintro ⟨h3, h4⟩
      exact ⟨⟨by linarith, h4⟩, h3, h2⟩
  have disj : ∀ w : Fin n → K, (a.translate w).intersects b = false ↔ ∃ i, a.hi i + w i ≤ b.lo i ∨ b.hi i ≤ a.lo i + w i := by
    intro w
    rw [← Bool.not_eq_true, intersects_iff]
    simp only [Box.translate, Pi.add_apply, not_forall, not_and_or, not_lt]
  obtain ⟨k, hk, hmin⟩ := best_spec (a.gap b) mx hmx
  by_cases h : a.intersects b = true
  · have hov := (intersects_iff a b).1 h
    refine ⟨Function.update (fun _ => 0) k (a.gap b k), ?_, ?_, ?_, fun _ w hw => ?_, fun h' => absurd h (by simp [h'])⟩
    · unfold Box.contactVector
      simp only [hall, h, hk, if_true, Option.map_some]
    · rw [disj]
      refine ⟨k, ?_⟩
      rw [Function.update_self]
      exact (gap_overlap a b k (hov k)).1.imp le_of_eq ge_of_eq
    · rw [share]
      intro i
      by_cases hi : i = k
      · subst hi
        rw [Function.update_self]
        have h1 := ha' i
        have h2 := hb' i
        rcases (gap_overlap a b i (hov i)).1 with h3 | h3
        · constructor <;> linarith
        · constructor <;> linarith
      · rw [Function.update_of_ne hi]
        have := hov i
        constructor <;> linarith
    · obtain ⟨i, hi⟩ := (disj w).1 hw
      have h1 := (hmin i).trans ((gap_overlap a b i (hov i)).2 (w i) hi)
      have h2 : ∑ j, (Function.update (fun _ => (0 : K)) k (a.gap b k) j) * Function.update (fun _ => (0 : K)) k (a.gap b k) j =
          a.gap b k * a.gap b k := by
        rw [Finset.sum_eq_single k]
        · rw [Function.update_self]
        · intro j _ hj
          rw [Function.update_of_ne hj, mul_zero]
        · simp
      rw [h2, ← abs_mul_abs_self]
      refine (mul_self_le_mul_self (abs_nonneg _) h1).trans ?_
      rw [abs_mul_abs_self]
      exact Finset.single_le_sum (f := fun j => w j * w j) (fun j _ => mul_self_nonneg _) (Finset.mem_univ i)
  · rw [Bool.not_eq_true] at h
    have hsep : ∀ i, a.overlaps b i ≠ true → ¬ (b.lo i < a.hi i ∧ a.lo i < b.hi i) :=
      fun i hi h' => hi ((overlaps_iff a b i).2 h')
    refine ⟨fun i => if a.overlaps b i then 0 else a.gap b i, ?_, ?_, ?_, fun h' => absurd h (by simp [h']), fun _ w hw => ?_⟩
    · unfold Box.contactVector
      simp [hall, h]
    · have h1 : ¬ a.intersects b = true := by simp [h]
      rw [intersects_iff] at h1
      push Not at h1
      obtain ⟨i, hi⟩ := h1
      have h2 : ¬ (b.lo i < a.hi i ∧ a.lo i < b.hi i) := fun h3 => absurd h3.2 (not_lt.2 (hi h3.1))
      have h3 : ¬ a.overlaps b i = true := fun h4 => h2 ((overlaps_iff a b i).1 h4)
      rw [disj]
      refine ⟨i, ?_⟩
      rw [if_neg h3]
      exact (gap_separate a b i (ha' i) (hb' i) h2).1.imp le_of_eq ge_of_eq
    · rw [share]
      intro i
      have h1 := ha' i
      have h2 := hb' i
      by_cases hi : a.overlaps b i = true
      · rw [if_pos hi]
        have := (overlaps_iff a b i).1 hi
        constructor <;> linarith
      · rw [if_neg hi]
        rcases (gap_separate a b i h1 h2 (hsep i hi)).1 with h3 | h3
        · constructor <;> linarith
        · constructor <;> linarith
    · have h1 := (share w).1 hw
      refine sum_sq_le fun i => ?_
      by_cases hi : a.overlaps b i = true
      · simp [hi]
      · simp only [hi]
        exact (gap_separate a b i (ha' i) (hb' i) (hsep i hi)).2 (w i) (h1 i).1 (h1 i).2

/-- **C48** refuted for integer boxes that should end up sharing no cell: the moved box still shares one. -/
theorem C48_contact_refuted (mx : ℤ) (a b : Box ℤ n) (ha : a.isEmpty = false) (hb : b.isEmpty = false)
    (hmx : ∃ i, |a.gap b i| < |mx|) (v : Fin n → ℤ) (f : Bool) (h : a.contactVector mx b = some (v, f)) :
    ∃ cell, (a.translate v).contains cell = true ∧ b.contains cell = true := by
  obtain ⟨v', h1, -, ⟨c, h3, h4⟩, -⟩ := C48_contact mx a b ha hb hmx
  rw [h] at h1
  cases h1
  exact ⟨c, ((C45_contains _ c).2.1).2 h3, ((C45_contains _ c).2.1).2 h4⟩

/-- **C48** refuted for floating point boxes: the first statement converts the greatest value of the element type to a
64-bit integer, which is undefined, whatever the boxes. -/
theorem C48_contact_float_refuted (mx : ℚ) (hmx : 2 ^ 63 ≤ mx) (a b : Box ℚ n) : contactVectorF mx a b = none := by
  have : toIndex mx = none := by
    have h1 : (2 : ℤ) ^ 63 ≤ truncQ mx := by
      rw [truncQ, if_pos (by linarith [show (0 : ℚ) < 2 ^ 63 by norm_num])]
      rw [Int.le_floor]
      exact_mod_cast hmx
    rw [toIndex, if_neg (fun h => absurd h.2 (not_lt.2 h1))]
  rw [contactVectorF, this]
  rfl

end Contact

/-! ### C49 -/

section Ray
variable [LinearOrder K] [Field K] [IsStrictOrderedRing K]

/-- One slab. -/
theorem slab_iff (l h o d t : K) (hl : l ≤ h) (hd : d ≠ 0) :
    (min ((h - o) / d) ((l - o) / d) ≤ t ∧ t ≤ max ((h - o) / d) ((l - o) / d)) ↔ l ≤ o + t * d ∧ o + t * d ≤ h := by
  rcases lt_or_gt_of_ne hd with hneg | hpos
  · have h1 : (h - o) / d ≤ (l - o) / d := by
      rw [div_le_div_right_of_neg hneg]
      linarith
    rw [min_eq_left h1, max_eq_right h1, div_le_iff_of_neg hneg, le_div_iff_of_neg hneg]
    constructor <;> rintro ⟨h2, h3⟩ <;> constructor <;> linarith
  · have h1 : (l - o) / d ≤ (h - o) / d := by
      rw [div_le_div_iff_of_pos_right hpos]
      linarith
    rw [min_eq_right h1, max_eq_left h1, div_le_iff₀ hpos, le_div_iff₀ hpos]
    constructor <;> rintro ⟨h2, h3⟩ <;> constructor <;> linarith

theorem slabs_spec (b : Box K n) (hb : ∀ i, b.lo i ≤ b.hi i) (o d : Fin n → K) (l : List (Fin n)) (s : Ext K × Ext K) :
    (b.slabs o d l s = none → ∀ t, ∃ i ∈ l, ¬ (b.lo i ≤ o i + t * d i ∧ o i + t * d i ≤ b.hi i)) ∧
    ∀ r, b.slabs o d l s = some r → ∀ t : K, (r.1 ≤ ((t : K) : Ext K) ∧ ((t : K) : Ext K) ≤ r.2 ↔
      (s.1 ≤ ((t : K) : Ext K) ∧ ((t : K) : Ext K) ≤ s.2) ∧ ∀ i ∈ l, b.lo i ≤ o i + t * d i ∧ o i + t * d i ≤ b.hi i) := by
  induction l generalizing s with
  | nil =>
    refine ⟨fun h => by simp [Box.slabs] at h, fun r h t => ?_⟩
    simp only [Box.slabs, Option.some.injEq] at h
    subst h
    simp
  | cons i l ih =>
    rw [Box.slabs]
    by_cases hd : d i = 0
    · rw [if_pos hd]
      by_cases ho : o i < b.lo i ∨ b.hi i < o i
      · rw [if_pos ho]
        refine ⟨fun _ t => ⟨i, by simp, ?_⟩, fun r h => by cases h⟩
        rw [hd, mul_zero, add_zero]
        rintro ⟨h1, h2⟩
        rcases ho with ho | ho
        · exact absurd ho (not_lt.2 h1)
        · exact absurd ho (not_lt.2 h2)
      · rw [if_neg ho]
        push Not at ho
        refine ⟨fun h t => ?_, fun r h t => ?_⟩
        · obtain ⟨j, hj, h1⟩ := (ih s).1 h t
          exact ⟨j, by simp [hj], h1⟩
        · rw [(ih s).2 r h t, List.forall_mem_cons, hd, mul_zero, add_zero]
          simp [ho.1, ho.2]
    · rw [if_neg hd]
      simp only
      refine ⟨fun h t => ?_, fun r h t => ?_⟩
      · obtain ⟨j, hj, h1⟩ := (ih _).1 h t
        exact ⟨j, by simp [hj], h1⟩
      · rw [(ih _).2 r h t, List.forall_mem_cons, ← slab_iff _ _ _ _ t (hb i) hd]
        simp only [stdMax_eq, stdMin_eq, max_le_iff, le_min_iff, WithBot.coe_le_coe, WithTop.coe_le_coe]
        rw [← stdMin_eq, ← stdMax_eq]
        tauto

/-- **C49**: for a box with points, the returned interval is exactly the set of ray parameters inside the box; a miss means
there are none. -/
theorem C49_ray (b : Box K n) (hb : b.isEmpty = false) (o d : Fin n → K) :
    (b.intersectRay o d = none → ∀ t : K, o + t • d ∉ b.pts) ∧
    ∀ l u, b.intersectRay o d = some (l, u) → ∀ t : K,
      (l ≤ ((t : K) : Ext K) ∧ ((t : K) : Ext K) ≤ u ↔ o + t • d ∈ b.pts) := by
  have h := slabs_spec b ((not_empty_iff b).1 hb) o d (List.finRange n) (⊥, ((⊤ : WithTop K) : Ext K))
  refine ⟨fun h0 t hm => ?_, fun l u h0 t => ?_⟩
  · obtain ⟨i, -, h1⟩ := h.1 h0 t
    exact h1 (mem_pts.1 hm i)
  · rw [h.2 (l, u) h0 t, mem_pts]
    simp [WithBot.coe_le_coe]

/-- **C49** refuted for inverted (empty) boxes: an interval of hits is reported. -/
theorem C49_ray_refuted :
    ∃ b : Box ℚ 1, b.isEmpty = true ∧ b.intersectRay ![0] ![1] = some (((0 : ℚ) : Ext ℚ), ((1 : ℚ) : Ext ℚ)) :=
  ⟨⟨![1], ![0]⟩, by decide +kernel, by decide +kernel⟩

end Ray

/-! ### Examples -/

example : (⟨![0, 0], ![10, 10]⟩ : Box ℚ 2).dist2 ![13, 14] = 25 := by decide +kernel
example : (⟨![0, 0], ![10, 10]⟩ : Box ℚ 2).project ![13, 14] = ![10, 10] := by decide +kernel
example : (⟨![2, 0], ![4, 10]⟩ : Box ℚ 2).remap ![1/2, 1/5] = ![3, 2] := by decide +kernel
example : (⟨![2, 0], ![4, 10]⟩ : Box ℚ 2).support ![-1, 3] = ![2, 10] := by decide +kernel
example : (⟨![0, 0], ![4, 4]⟩ : Box ℤ 2).contactVector 1000 ⟨![3, 1], ![9, 9]⟩ = some (![-1, 0], true) := by decide +kernel
example : (⟨![0, 0], ![4, 4]⟩ : Box ℤ 2).contactVector 1000 ⟨![7, 1], ![9, 9]⟩ = some (![3, 0], false) := by decide +kernel
example : (⟨![1, 0], ![3, 1]⟩ : Box ℚ 2).intersectRay ![0, 1/2] ![2, 0] =
    some (((1/2 : ℚ) : Ext ℚ), ((3/2 : ℚ) : Ext ℚ)) := by decide +kernel

end Geomc.Rect
