import Verif.Shape.Project
import Verif.Shape.SimplexRay

/-!
# C78: the nearest point of a simplex
-/

namespace Geomc.Shape

open Geomc.Vec Geomc.LU Finset

variable {K : Type} {N : ℕ} [Field K] [LinearOrder K] [IsStrictOrderedRing K]

variable {s : Simp K N} {p : Fin N → K} {r : PRes K N}

omit [LinearOrder K] [IsStrictOrderedRing K] in
theorem comb_extend {pts : ℕ → Fin N → K} {V W : Finset ℕ} (h : V ⊆ W) (β : ℕ → K) :
    ∑ v ∈ W, (if v ∈ V then β v else 0) = ∑ v ∈ V, β v ∧ comb pts W (fun v => if v ∈ V then β v else 0) = comb pts V β := by
  constructor
  · rw [← sum_filter, filter_mem_eq_inter, inter_eq_right.2 h]
  · rw [comb, comb]
    simp only [ite_smul, zero_smul]
    rw [← sum_filter, filter_mem_eq_inter, inter_eq_right.2 h]

theorem comb_mem {V : Finset ℕ} (hV : V ⊆ range s.n) {β : ℕ → K} (h0 : ∀ v ∈ V, 0 ≤ β v) (h1 : ∑ v ∈ V, β v = 1) :
    comb s.pts V β ∈ s.set := by
  obtain ⟨e1, e2⟩ := comb_extend (pts := s.pts) hV β
  refine ⟨fun v => if v ∈ V then β v else 0, fun v _ => ?_, e1.trans h1, e2.symm⟩
  beta_reduce
  split_ifs with h
  · exact h0 v h
  · exact le_rfl

/-- A result that is a projection to a face, as near as any point, is the nearest point, strictly within the face. -/
theorem cand_nearest (h : IsCand s p false (range s.n) (s.n - 1) r.face r.pt r.d2)
    (hall : ∀ α : ℕ → K, (∀ v ∈ range s.n, 0 ≤ α v) → ∑ v ∈ range s.n, α v = 1 → r.d2 ≤ sqd s p (range s.n) α) :
    r.pt ∈ s.set ∧ r.d2 = (p - r.pt) ⬝ᵥ (p - r.pt) ∧ ∀ x ∈ s.set, r.d2 ≤ (p - x) ⬝ᵥ (p - x) := by
  obtain ⟨hg, hsub, -, β, hβ, hpt, hd2, hpos⟩ := h
  refine ⟨?_, ?_, ?_⟩
  · rw [hpt]
    exact comb_mem hsub (fun v hv => (hpos v hv (fun h => by cases h)).le) hβ.sum
  · rw [hd2, hpt]
    rfl
  · rintro x ⟨w, h0, h1, rfl⟩
    exact hall w (fun v hv => h0 v (mem_range.1 hv)) h1

/-- **C78**: clipping a point to a simplex gives the point of the simplex nearest to it, and a face with this point strictly
within it. -/
theorem C78_clip (hi : AffInd s.pts s.n) (hN0 : 0 < N) (hN : GenPos s) (h1 : 1 ≤ s.n) (hn : s.n ≤ N + 1) (p : Fin N → K) :
    ∃ q F, s.clip p = some (q, F) ∧ (q ∈ s.set ∧ ∀ x ∈ s.set, (p - q) ⬝ᵥ (p - q) ≤ (p - x) ⬝ᵥ (p - x)) ∧
      (p ∈ s.set → q = p) ∧ (∀ i < F.n, ∃ j < s.n, F.pts i = s.pts j) ∧ AffInd F.pts F.n ∧
      ∃ w : ℕ → K, (∀ i < F.n, 0 < w i) ∧ ∑ i ∈ range F.n, w i = 1 ∧ q = ∑ i ∈ range F.n, w i • F.pts i := by
  obtain ⟨r, e, hc, -, hall⟩ := nearest_spec (skip := false) (p := p) (L := 0) hi hN0 hN h1 hn .clip (Or.inl rfl) (fun h => by cases h)
  obtain ⟨h2, h3, h4⟩ := cand_nearest hc fun α h0 hα => hall α h0 hα (fun h => by cases h)
  rw [h3] at h4
  have hset : p ∈ s.set → r.pt = p := by
    intro hp
    have h5 := h4 p hp
    rw [sub_self, dotProduct_zero] at h5
    exact (sub_eq_zero.1 ((self_dot_eq_zero _).1 (le_antisymm h5 (self_dot_nonneg _)))).symm
  refine ⟨r.pt, projectedFace s r, ?_, ⟨h2, h4⟩, hset, ?_, ?_, ?_⟩
  · rw [Simp.clip, e]
    rfl
  · intro i hi'
    simp only [projectedFace] at hi' ⊢
    exact ⟨_, hc.good.lt i (by omega), by rw [if_pos (by omega)]⟩
  · have ha := hc.good.affInd hi
    intro w hw1 hw2 i hi'
    simp only [projectedFace] at hw1 hw2 hi'
    refine ha w hw1 (Eq.trans ?_ hw2) i hi'
    exact sum_congr rfl fun j hj => by rw [if_pos (by have := mem_range.1 hj; omega)]
  · obtain ⟨β, hβ, hpt, -, hpos⟩ := hc.wts
    refine ⟨fun i => β (r.face.inc i), ?_, ?_, ?_⟩
    · intro i hi'
      simp only [projectedFace] at hi'
      exact hpos _ (Face.mem_verts (by omega)) (fun h => by cases h)
    · simp only [projectedFace]
      rw [← hc.good.sum_verts β]
      exact hβ.sum
    · rw [hpt, comb, hc.good.sum_verts fun v => β v • s.pts v]
      simp only [projectedFace]
      exact sum_congr rfl fun j hj => by rw [if_pos (by have := mem_range.1 hj; omega)]

/-- **C78**: projecting to a simplex with fewer vertices than fill the space gives its nearest point, and the signed distance
is the distance to it. -/
theorem C78_project_thin {sqrt : K → K} (hi : AffInd s.pts s.n) (hN0 : 0 < N) (hN : GenPos s) (h1 : 1 ≤ s.n)
    (hn : s.n ≤ N) (p : Fin N → K) :
    ∃ q, s.project p = some q ∧ q ∈ s.set ∧ (∀ x ∈ s.set, (p - q) ⬝ᵥ (p - q) ≤ (p - x) ⬝ᵥ (p - x)) ∧
      s.sdf sqrt p = some (len sqrt (p - q)) := by
  obtain ⟨r, e, hc, hcon, hall⟩ := nearest_spec (skip := false) (p := p) (L := 0) hi hN0 hN h1 (by omega) .project (Or.inr hn)
    (fun h => by cases h)
  obtain ⟨h2, h3, h4⟩ := cand_nearest hc fun α h0 hα => hall α h0 hα (fun h => by cases h)
  rw [h3] at h4
  refine ⟨r.pt, by rw [Simp.project, e]; rfl, h2, h4, ?_⟩
  rw [Simp.sdf, e, Option.map_some, hcon hn, h3, len, mag2_eq]
  simp

/-! ### Solid simplexes -/

/-- The nearest point of a set from outside is on its surface. -/
theorem nearest_surface {sqrt : K → K} (hs : IsSqrt sqrt) {S : Set (Fin N → K)} {p q : Fin N → K} (hq : q ∈ S) (hp : p ∉ S)
    (h : ∀ x ∈ S, (p - q) ⬝ᵥ (p - q) ≤ (p - x) ⬝ᵥ (p - x)) : q ∈ surface sqrt S := by
  refine ⟨hq, fun ε hε => ?_⟩
  have hne : p - q ≠ 0 := fun h0 => hp (by rwa [sub_eq_zero.1 h0])
  have hl := len_pos hs hne
  have hd := self_dot_pos hne
  obtain ⟨t, ht0, ht1, hte⟩ : ∃ t : K, 0 < t ∧ t ≤ 1 ∧ t * len sqrt (p - q) < ε := by
    refine ⟨min 1 (ε / len sqrt (p - q) / 2), lt_min zero_lt_one (by positivity), min_le_left _ _, ?_⟩
    calc min 1 (ε / len sqrt (p - q) / 2) * len sqrt (p - q) ≤ ε / len sqrt (p - q) / 2 * len sqrt (p - q) :=
          mul_le_mul_of_nonneg_right (min_le_right _ _) hl.le
      _ = ε / 2 := by field_simp
      _ < ε := by linarith
  refine ⟨q + t • (p - q), fun hmem => ?_, ?_⟩
  · have h1 := h _ hmem
    rw [show p - (q + t • (p - q)) = (1 - t) • (p - q) by module, smul_dotProduct, dotProduct_smul, smul_eq_mul, smul_eq_mul] at h1
    have h2 := mul_pos (mul_pos ht0 (show 0 < 2 - t by linarith)) hd
    linarith
  · rw [show q - (q + t • (p - q)) = (-t) • (p - q) by module, len_smul hs, abs_neg, abs_of_pos ht0]
    exact hte

/-- A full simplex and a point: either the result is the nearest point of the simplex and the point is not strictly inside,
or it is the nearest point of the planes of the facets, it is inside and so is the ball up to it. -/
theorem full_cases {sqrt : K → K} (hs : IsSqrt sqrt) (hi : AffInd s.pts s.n) (hN0 : 0 < N) (hN : GenPos s) (hn : s.n = N + 1)
    (p : Fin N → K) : ∃ r, projectSimplex s p .project false = some r ∧ r.d2 = (p - r.pt) ⬝ᵥ (p - r.pt) ∧ r.pt ∈ surface sqrt s.set ∧
      ((r.contains = false ∧ (p ∈ s.set → r.pt = p) ∧ ∀ x ∈ s.set, r.d2 ≤ (p - x) ⬝ᵥ (p - x)) ∨
        (r.contains = true ∧ p ∈ s.set ∧ ∀ q, len sqrt (p - q) < len sqrt (p - r.pt) → q ∈ s.set)) ∧
      Good s r.face ∧ ∃ γ : ℕ → K, IsProj s.pts r.face.verts p γ ∧ r.pt = comb s.pts r.face.verts γ := by
  obtain ⟨r, β, e, hβ, hp, hout, hin⟩ := project_full (p := p) hi hN0 hN hn
  obtain ⟨m, ρ, hm⟩ := facets hi hN0 hN hn
  -- coordinates of any point
  have hco : ∀ x : Fin N → K, ∃ w : ℕ → K, IsProj s.pts (range s.n) x w ∧ comb s.pts (range s.n) w = x := by
    intro x
    obtain ⟨w, h1, h2⟩ := bary (hn ▸ hi) x
    rw [← hn] at h1 h2
    refine ⟨w, ⟨h1, fun u _ v _ => ?_⟩, h2⟩
    rw [show comb s.pts (range s.n) w = x from h2, sub_self, zero_dotProduct]
  have hmem : ∀ x, (∀ i < s.n, m i ⬝ᵥ (x - ρ i) ≤ 0) → x ∈ s.set := by
    intro x hx
    obtain ⟨w, h1, h2⟩ := hco x
    refine ⟨w, fun i hi' => ?_, h1.sum, h2.symm⟩
    obtain ⟨-, κ, hκ, h3⟩ := hm i hi'
    have h4 := h3 x w h1
    have h5 := hx i hi'
    rw [h4] at h5
    by_contra hc
    have := mul_pos hκ (neg_pos.2 (not_le.1 hc))
    linarith
  have hmem' : ∀ x ∈ s.set, ∀ i < s.n, m i ⬝ᵥ (x - ρ i) ≤ 0 := by
    rintro x ⟨w, h0, h1, rfl⟩ i hi'
    obtain ⟨-, κ, hκ, h3⟩ := hm i hi'
    rw [h3 _ w ⟨h1, fun u _ v _ => by rw [show comb s.pts (range s.n) w = ∑ i ∈ range s.n, w i • s.pts i from rfl, sub_self,
      zero_dotProduct]⟩]
    have := mul_nonneg hκ.le (h0 i hi')
    linarith
  -- a point of a plane is on the surface
  have hsurf : ∀ x ∈ s.set, (∃ i < s.n, m i ⬝ᵥ (x - ρ i) = 0) → x ∈ surface sqrt s.set := by
    rintro x hx ⟨i, hi', h0⟩
    refine ⟨hx, fun ε hε => ?_⟩
    have hl := len_pos hs (hm i hi').1
    refine ⟨x + (ε / len sqrt (m i) / 2) • m i, fun h => ?_, ?_⟩
    · have h1 := hmem' _ h i hi'
      rw [show x + (ε / len sqrt (m i) / 2) • m i - ρ i = (x - ρ i) + (ε / len sqrt (m i) / 2) • m i by abel, dotProduct_add, h0,
        dotProduct_smul, smul_eq_mul, zero_add] at h1
      have := mul_pos (show 0 < ε / len sqrt (m i) / 2 by positivity) (self_dot_pos (hm i hi').1)
      linarith
    · rw [show x - (x + (ε / len sqrt (m i) / 2) • m i) = (-(ε / len sqrt (m i) / 2)) • m i by module, len_smul hs, abs_neg,
        abs_of_pos (by positivity)]
      rw [show ε / len sqrt (m i) / 2 * len sqrt (m i) = ε / 2 by field_simp]
      linarith
  refine ⟨r, e, ?_⟩
  by_cases hall : ∀ v < s.n, 0 < β v
  · obtain ⟨hcon, -, -, ⟨k, hk, hkv, hgood, γ, hγ, hpt, hd2⟩, hle⟩ := hin hall
    have hd : r.d2 = (p - r.pt) ⬝ᵥ (p - r.pt) := by
      rw [hd2, hpt]
      rfl
    have hpS : p ∈ s.set := ⟨β, fun i hi' => (hall i hi').le, hβ.sum, hp.symm⟩
    -- the distance to the plane of a facet
    have hplane : ∀ i < s.n, m i ⬝ᵥ (p - ρ i) < 0 ∧ r.d2 * (m i ⬝ᵥ m i) ≤ (m i ⬝ᵥ (p - ρ i)) * (m i ⬝ᵥ (p - ρ i)) := by
      intro i hi'
      obtain ⟨hm0, κ, hκ, h3⟩ := hm i hi'
      have hmm := self_dot_pos hm0
      constructor
      · rw [h3 p β hβ]
        have := mul_pos hκ (hall i hi')
        linarith
      · obtain ⟨w, h4, h5⟩ := hco (p - (m i ⬝ᵥ (p - ρ i) / (m i ⬝ᵥ m i)) • m i)
        have h6 := h3 _ w h4
        have h7 : m i ⬝ᵥ (p - (m i ⬝ᵥ (p - ρ i) / (m i ⬝ᵥ m i)) • m i - ρ i) = 0 := by
          rw [show p - (m i ⬝ᵥ (p - ρ i) / (m i ⬝ᵥ m i)) • m i - ρ i = (p - ρ i) - (m i ⬝ᵥ (p - ρ i) / (m i ⬝ᵥ m i)) • m i by abel,
            dotProduct_sub, dotProduct_smul, smul_eq_mul, div_mul_cancel₀ _ hmm.ne', sub_self]
        rw [h7] at h6
        have hw0 : w i = 0 := by
          rcases mul_eq_zero.1 h6.symm with h | h
          · linarith
          · exact h
        have h8 := hle i hi' w (by
          have := add_sum_erase (range s.n) w (mem_range.2 hi')
          rw [hw0, zero_add] at this
          exact this.trans h4.sum)
        have h9 : comb s.pts ((range s.n).erase i) w = comb s.pts (range s.n) w := by
          rw [comb, comb, ← add_sum_erase (range s.n) (fun v => w v • s.pts v) (mem_range.2 hi'), hw0, zero_smul, zero_add]
        rw [sqd, h9, h5, sub_sub_cancel, smul_dotProduct, dotProduct_smul, smul_eq_mul, smul_eq_mul] at h8
        calc r.d2 * (m i ⬝ᵥ m i) ≤ m i ⬝ᵥ (p - ρ i) / (m i ⬝ᵥ m i) * (m i ⬝ᵥ (p - ρ i) / (m i ⬝ᵥ m i) * (m i ⬝ᵥ m i)) * (m i ⬝ᵥ m i) :=
              mul_le_mul_of_nonneg_right h8 hmm.le
          _ = _ := by field_simp
    have hstep : ∀ q : Fin N → K, ∀ i < s.n, (p - q) ⬝ᵥ (p - q) ≤ r.d2 → m i ⬝ᵥ (q - ρ i) ≤ 0 := by
      intro q i hi' hq
      obtain ⟨h1, h2⟩ := hplane i hi'
      have h3 := cauchy (m i) (q - p)
      have h4 : (q - p) ⬝ᵥ (q - p) = (p - q) ⬝ᵥ (p - q) := by
        rw [← neg_sub p q, neg_dotProduct, dotProduct_neg, neg_neg]
      have h5 : (m i ⬝ᵥ (q - p)) ^ 2 ≤ (-(m i ⬝ᵥ (p - ρ i))) ^ 2 := by
        have := mul_le_mul_of_nonneg_left hq (self_dot_nonneg (m i))
        rw [h4] at h3
        rw [neg_sq, pow_two (m i ⬝ᵥ (p - ρ i))]
        linarith
      have h6 := le_of_abs_le (abs_le_of_sq_le_sq h5 (by linarith))
      rw [show q - ρ i = (q - p) + (p - ρ i) by abel, dotProduct_add]
      linarith
    have hptS : r.pt ∈ s.set := hmem _ fun i hi' => hstep _ i hi' hd.ge
    refine ⟨hd, ?_, Or.inr ⟨hcon, hpS, fun q hq => hmem q fun i hi' => hstep q i hi' ?_⟩, hgood, γ, by rw [hkv]; exact hγ, by rw [hkv]; exact hpt⟩
    · refine hsurf _ hptS ⟨k, hk, ?_⟩
      obtain ⟨-, κ, hκ, h3⟩ := hm k hk
      obtain ⟨e1, e2⟩ := comb_extend (pts := s.pts) (erase_subset k (range s.n)) γ
      rw [h3 r.pt (fun v => if v ∈ (range s.n).erase k then γ v else 0) ⟨e1.trans hγ.sum, fun u _ v _ => by
        rw [e2, hpt, sub_self, zero_dotProduct]⟩, if_neg (by simp), mul_zero]
    · have := (len_le_iff hs (len_nonneg hs (p - r.pt))).1 hq.le
      rw [len_mul_self hs] at this
      rw [hd]
      exact this
  · push Not at hall
    obtain ⟨hcon, hc, hmin⟩ := hout hall
    have hc' : IsCand s p false (range s.n) (s.n - 1) r.face r.pt r.d2 := by
      rw [show s.n - 1 = N by omega]
      exact hc
    obtain ⟨h2, h3, h4⟩ := cand_nearest hc' hmin
    have hset : p ∈ s.set → r.pt = p := by
      intro hp'
      have h5 := h4 p hp'
      rw [h3, sub_self, dotProduct_zero] at h5
      exact (sub_eq_zero.1 ((self_dot_eq_zero _).1 (le_antisymm h5 (self_dot_nonneg _)))).symm
    refine ⟨h3, ?_, Or.inl ⟨hcon, hset, h4⟩, hc.good, ?_⟩
    · by_cases hpS : p ∈ s.set
      · rw [hset hpS]
        obtain ⟨v, hv, hbv⟩ := hall
        refine hsurf p hpS ⟨v, hv, le_antisymm (hmem' p hpS v hv) ?_⟩
        obtain ⟨-, κ, hκ, h5⟩ := hm v hv
        rw [h5 p β hβ]
        have := mul_nonneg hκ.le (neg_nonneg.2 hbv)
        linarith
      · exact nearest_surface hs h2 hpS fun x hx => by rw [← h3]; exact h4 x hx
    · obtain ⟨γ, h5, h6, -, -⟩ := hc.wts
      exact ⟨γ, h5, h6⟩

/-- **C78**: projecting to a full simplex gives the nearest point of its surface, from inside and from outside. -/
theorem C78_project {sqrt : K → K} (hs : IsSqrt sqrt) (hi : AffInd s.pts s.n) (hN0 : 0 < N) (hN : GenPos s) (hn : s.n = N + 1)
    (p : Fin N → K) : ∃ q, s.project p = some q ∧ IsNearest sqrt s.set p q := by
  obtain ⟨r, e, hd, hsurf, hcase, -⟩ := full_cases hs hi hN0 hN hn p
  refine ⟨r.pt, by rw [Simp.project, e]; rfl, hsurf, fun x hx => ?_⟩
  rcases hcase with ⟨-, -, hle⟩ | ⟨-, -, hball⟩
  · rw [len_le_iff hs (len_nonneg hs _), len_mul_self hs, ← hd]
    exact hle x hx.1
  · by_contra hc
    obtain ⟨y, hy, hyl⟩ := hx.2 (len sqrt (p - r.pt) - len sqrt (p - x)) (by linarith [not_le.1 hc])
    refine hy (hball y ?_)
    have := len_tri hs p x y
    linarith

/-- **C78**: the signed distance to a full simplex. -/
theorem C78_sdf {sqrt : K → K} (hs : IsSqrt sqrt) (hi : AffInd s.pts s.n) (hN0 : 0 < N) (hN : GenPos s) (hn : s.n = N + 1)
    (p : Fin N → K) : ∃ d, s.sdf sqrt p = some d ∧ IsSDist sqrt s.set p d := by
  obtain ⟨r, e, hd, hsurf, hcase, -⟩ := full_cases hs hi hN0 hN hn p
  have hl : sqrt r.d2 = len sqrt (p - r.pt) := by rw [len, mag2_eq, hd]
  rcases hcase with ⟨hcon, hset, hle⟩ | ⟨hcon, hp, hball⟩
  · refine ⟨len sqrt (p - r.pt), by rw [Simp.sdf, e, Option.map_some, hcon, hl]; simp, fun hp => ⟨⟨r.pt, hsurf.1, rfl⟩, ?_⟩, fun hp => ?_⟩
    · rintro y ⟨x, hx, rfl⟩
      rw [len_le_iff hs (len_nonneg hs _), len_mul_self hs, ← hd]
      exact hle x hx
    · have h0 : len sqrt (p - r.pt) = 0 := by
        rw [hset hp, sub_self, len_eq_zero hs]
      rw [h0]
      refine ⟨le_rfl, fun q hq => ?_, fun ρ hρ => ?_⟩
      · have := len_nonneg hs (p - q)
        linarith
      · obtain ⟨x, hx, hxl⟩ := hsurf.2 ρ (by linarith)
        rw [hset hp] at hxl
        exact ⟨x, hxl, hx⟩
  · refine ⟨-len sqrt (p - r.pt), by rw [Simp.sdf, e, Option.map_some, hcon, hl]; simp, fun h => absurd hp h, fun _ => ⟨?_, ?_, ?_⟩⟩
    · linarith [len_nonneg hs (p - r.pt)]
    · rw [neg_neg]
      exact hball
    · intro ρ hρ
      rw [neg_neg] at hρ
      obtain ⟨x, hx, hxl⟩ := hsurf.2 (ρ - len sqrt (p - r.pt)) (by linarith)
      refine ⟨x, ?_, hx⟩
      have := len_tri hs p r.pt x
      linarith

/-! ### The normal -/

theorem cross_perp (u v : Fin 3 → K) (t : K) (h : u ⬝ᵥ v = 0) : cross (cross v (u + t • v)) v = (v ⬝ᵥ v) • u := by
  rw [dot3] at h
  rw [dot3]
  ext i
  fin_cases i
  · simp [cross, Duals.diffOfProducts_eq]
    linear_combination (-v 0) * h
  · simp [cross, Duals.diffOfProducts_eq]
    linear_combination (-v 1) * h
  · simp [cross, Duals.diffOfProducts_eq]
    linear_combination (-v 2) * h

theorem perp2 {u v : Fin 2 → K} (hv : v ≠ 0) (h : u ⬝ᵥ v = 0) : ∃ t : K, u = t • rightPerp v ∧ rightPerp v ⬝ᵥ rightPerp v = v ⬝ᵥ v := by
  have hvv := self_dot_pos hv
  simp only [dotProduct, Fin.sum_univ_two] at h hvv
  refine ⟨(u 0 * v 1 - u 1 * v 0) / (v 0 * v 0 + v 1 * v 1), ?_, ?_⟩
  · ext i
    fin_cases i
    · simp [rightPerp]
      rw [div_mul_eq_mul_div, eq_div_iff hvv.ne']
      linear_combination (v 0) * h
    · simp [rightPerp]
      rw [div_mul_eq_mul_div, ← neg_div, eq_div_iff hvv.ne']
      linear_combination (v 1) * h
  · simp [rightPerp, dotProduct, Fin.sum_univ_two]
    ring

/-- The direction reported for a face the point was projected to leads from the foot to the point. -/
theorem normalDirection_spec (hi : AffInd s.pts s.n) (hg : Good s r.face) {γ : ℕ → K} (hγ : IsProj s.pts r.face.verts p γ)
    (hpt : r.pt = comb s.pts r.face.verts γ) (hne : p ≠ r.pt) :
    ∃ c : K, 0 < c ∧ normalDirection s p r = c • (p - r.pt) := by
  have hu : p - r.pt ≠ 0 := sub_ne_zero.2 hne
  have huu := self_dot_pos hu
  have hperp : ∀ i < r.face.n, (p - r.pt) ⬝ᵥ r.face.bases i = 0 := by
    intro i hi'
    rw [hpt, hg.basis i hi']
    exact hγ.orth _ (Face.mem_verts hi'.le) _ (Face.mem_verts le_rfl)
  have hspan : r.pt - s.pts (r.face.inc r.face.n) = ∑ k ∈ range r.face.n, γ (r.face.inc k) • r.face.bases k := by
    rw [hpt, comb_sub_root' _ hγ.sum, hg.sum_verts fun v => γ v • (s.pts v - s.pts (r.face.inc r.face.n)), sum_range_succ, sub_self,
      smul_zero, add_zero]
    exact sum_congr rfl fun k hk => by rw [hg.basis k (mem_range.1 hk)]
  -- along a vector at right angles to the face
  have hsign : ∀ d : Fin N → K, ∀ t : K, p - r.pt = t • d → d ⬝ᵥ (p - s.pts (r.face.inc r.face.n)) = d ⬝ᵥ (p - r.pt) →
      ∃ c : K, 0 < c ∧ (if dot d (p - s.pts (r.face.inc r.face.n)) ≥ 0 then d else -d) = c • (p - r.pt) := by
    intro d t ht hdd
    have ht0 : t ≠ 0 := by
      rintro rfl
      rw [zero_smul] at ht
      exact hu ht
    have hd0 : d ≠ 0 := by
      rintro rfl
      rw [smul_zero] at ht
      exact hu ht
    have hdp := self_dot_pos hd0
    have e1 : d ⬝ᵥ (p - r.pt) = t * (d ⬝ᵥ d) := by rw [ht, dotProduct_smul, smul_eq_mul]
    rw [dot_eq, hdd, e1, ht]
    rcases lt_or_gt_of_ne ht0 with h | h
    · rw [if_neg (by push Not; exact mul_neg_of_neg_of_pos h hdp)]
      refine ⟨-t⁻¹, neg_pos.2 (inv_lt_zero.2 h), ?_⟩
      rw [smul_smul, neg_mul, inv_mul_cancel₀ ht0, neg_smul, one_smul]
    · rw [if_pos (mul_pos h hdp).le]
      refine ⟨t⁻¹, inv_pos.2 h, ?_⟩
      rw [smul_smul, inv_mul_cancel₀ ht0, one_smul]
  have hsplit : p - s.pts (r.face.inc r.face.n) = (p - r.pt) + ∑ k ∈ range r.face.n, γ (r.face.inc k) • r.face.bases k := by
    rw [← hspan]
    abel
  have hother : ∃ c : K, 0 < c ∧ p - r.pt = c • (p - r.pt) := ⟨1, zero_lt_one, (one_smul _ _).symm⟩
  rw [normalDirection]
  simp only
  by_cases h1 : r.face.n = 1
  · rw [if_pos h1]
    have hd := hg.dim
    have hv0 : r.face.bases 0 ≠ 0 := by
      rw [hg.basis 0 (by omega)]
      intro h0
      have ha := hg.affInd hi
      rw [h1] at ha h0
      have := ha (fun k => if k = 0 then 1 else -1) (by simp [sum_range_succ]) (by
        simp only [sum_range_succ, range_zero, sum_empty, zero_add]
        rw [← h0]
        simp
        abel) 0 (by omega)
      simp at this
    have hp0 := hperp 0 (by omega)
    have hcase : N = 1 ∨ N = 2 ∨ N = 3 ∨ ∃ M, N = M + 4 := by
      rcases Nat.lt_or_ge N 4 with h4 | h4
      · omega
      · exact Or.inr (Or.inr (Or.inr ⟨N - 4, by omega⟩))
    rw [h1, sum_range_one, ← h1] at hsplit
    rcases hcase with rfl | rfl | rfl | ⟨M, rfl⟩
    · exact hother
    · obtain ⟨t, ht, hpp⟩ := perp2 hv0 hp0
      refine hsign (rightPerp (r.face.bases 0)) t ht ?_
      rw [hsplit, dotProduct_add, dotProduct_smul, show rightPerp (r.face.bases 0) ⬝ᵥ r.face.bases 0 = 0 by
        simp [rightPerp, dotProduct, Fin.sum_univ_two]; ring, smul_zero, add_zero]
    · refine ⟨r.face.bases 0 ⬝ᵥ r.face.bases 0, self_dot_pos hv0, ?_⟩
      change cross (cross (r.face.bases 0) (p - s.pts (r.face.inc r.face.n))) (r.face.bases 0) = _
      rw [hsplit, cross_perp _ _ _ hp0]
    · exact hother
  · rw [if_neg h1]
    by_cases h2 : N > 2 ∧ r.face.n = N - 1
    · rw [if_pos h2]
      have hf2 : 2 ≤ r.face.n := by omega
      have hlt : r.face.n < N := by omega
      have hmem := hg.nullSpan hf2 _ hperp
      rw [show Set.Ico r.face.n N = {r.face.n} by
        ext k
        simp only [Set.mem_Ico, Set.mem_singleton_iff]
        omega, Set.image_singleton] at hmem
      obtain ⟨c, hc⟩ := Submodule.mem_span_singleton.1 hmem
      refine hsign _ c hc.symm ?_
      rw [hsplit, dotProduct_add, dotProduct_sum, sum_eq_zero, add_zero]
      intro k hk
      rw [dotProduct_smul, hg.nullOrth hf2 _ le_rfl hlt k (mem_range.1 hk), smul_zero]
    · rw [if_neg h2]
      exact hother

/-- **C78**: away from the surface, `normal` is a positive multiple of the vector from the projection of the point to the point. -/
theorem C78_normal (hi : AffInd s.pts s.n) (hN0 : 0 < N) (hN : GenPos s) (h1 : 1 ≤ s.n) (hn : s.n ≤ N + 1) {sqrt : K → K}
    (hs : IsSqrt sqrt) (p : Fin N → K) :
    ∃ q m, s.project p = some q ∧ s.normal p = some m ∧ (p ≠ q → ∃ c : K, 0 < c ∧ m = c • (p - q)) := by
  have key : ∃ r, projectSimplex s p .project false = some r ∧ Good s r.face ∧
      ∃ γ : ℕ → K, IsProj s.pts r.face.verts p γ ∧ r.pt = comb s.pts r.face.verts γ := by
    rcases Nat.lt_or_ge N s.n with h | h
    · obtain ⟨r, e, -, -, -, h5⟩ := full_cases hs hi hN0 hN (by omega) p
      exact ⟨r, e, h5⟩
    · obtain ⟨r, e, hc, -⟩ := nearest_spec (skip := false) (p := p) (L := 0) hi hN0 hN h1 hn .project (Or.inr h) (fun h => by cases h)
      obtain ⟨γ, h5, h6, -, -⟩ := hc.wts
      exact ⟨r, e, hc.good, γ, h5, h6⟩
  obtain ⟨r, e, hg, γ, hγ, hpt⟩ := key
  refine ⟨r.pt, normalDirection s p r, by rw [Simp.project, e]; rfl, by rw [Simp.normal, e]; rfl, fun hne => ?_⟩
  exact normalDirection_spec hi hg hγ hpt hne

theorem tri_ind : AffInd tri.pts tri.n := by
  intro w h1 h2 i hi
  have e : tri.n = 3 := rfl
  rw [e] at h1 h2 hi
  simp only [sum_range_succ, range_zero, sum_empty, zero_add] at h1 h2
  have p0 : tri.pts 0 = ![1, 1] := by decide +kernel
  have p1 : tri.pts 1 = ![5, 2] := by decide +kernel
  have p2 : tri.pts 2 = ![2, 4] := by decide +kernel
  rw [p0, p1, p2] at h2
  have e0 := congrFun h2 0
  have e1 := congrFun h2 1
  simp at e0 e1
  have : i = 0 ∨ i = 1 ∨ i = 2 := by omega
  rcases this with rfl | rfl | rfl <;> linarith

/-- Outside, `normal` is not a unit vector; inside, it points into the shape instead of out of it: it is a positive multiple
of the vector from the nearest point of the surface to the point. -/
theorem C78_normal_refuted :
    ∃ (s : Simp ℚ 2), AffInd s.pts s.n ∧ s.n = 3 ∧
      (∃ p m, s.contains p = some false ∧ s.normal p = some m ∧ mag2 m ≠ 1) ∧
      ∃ p q m, s.contains p = some true ∧ s.project p = some q ∧ s.normal p = some m ∧ 0 < dot m (p - q) ∧
        dot m (p - q) * dot m (p - q) = mag2 m * mag2 (p - q) :=
  ⟨tri, tri_ind, rfl, ⟨![5, 0], ![1, -4], by decide +kernel⟩, ![2, 2], ![7/5, 11/5], ![3, -1], by decide +kernel⟩

theorem foldlM_none {α β : Type} (f : α → β → Option α) (l : List β) (b : β) (hb : b ∈ l) (h : ∀ a, f a b = none) (a : α) :
    l.foldlM f a = none := by
  induction l generalizing a with
  | nil => simp at hb
  | cons c l ih =>
    rw [List.foldlM_cons]
    rcases List.mem_cons.1 hb with rfl | hb
    · rw [h]
      rfl
    · rcases f a c with _ | a'
      · rfl
      · exact ih hb a'

/-- **C78** refuted from four dimensions on: whatever point is asked for, every query of the unit simplex of four-dimensional space
(the origin and the axes) divides by zero, because the third axis is not found by `orthogonal`. -/
theorem C78_four_refuted (p : Fin 4 → ℚ) (sqrt : ℚ → ℚ) :
    (Simp.standard : Simp ℚ 4).clip p = none ∧ (Simp.standard : Simp ℚ 4).project p = none ∧
    (Simp.standard : Simp ℚ 4).sdf sqrt p = none ∧ (Simp.standard : Simp ℚ 4).normal p = none := by
  have key : ∀ op skip, projectSimplex (Simp.standard : Simp ℚ 4) p op skip = none := by
    intro op skip
    have e : ((Face.ofSimp (Simp.standard : Simp ℚ 4) true).bind fun f => f.exclude 3).isNone := by decide +kernel
    have hn : (Face.ofSimp (Simp.standard : Simp ℚ 4) true).map Face.n = some 4 := by decide +kernel
    rcases h : Face.ofSimp (Simp.standard : Simp ℚ 4) true with _ | f
    · rw [h] at hn
      cases hn
    rw [h, Option.map_some, Option.some.injEq] at hn
    rw [h, Option.bind_some, Option.isNone_iff_eq_none] at e
    rw [projectSimplex, if_neg (by decide), show decide ((Simp.standard : Simp ℚ 4).n > 2) = true from rfl, h, Option.bind_some, hn,
      findFace]
    simp only [gt_iff_lt, lt_irrefl, decide_false, Bool.false_and, Bool.false_eq_true, false_and, if_false]
    rw [foldlM_none _ _ 3 (by rw [hn, List.mem_range]; omega) (fun x => by rw [e]; rfl)]
    rfl
  refine ⟨?_, ?_, ?_, ?_⟩
  · rw [Simp.clip, key]
    rfl
  · rw [Simp.project, key]
    rfl
  · rw [Simp.sdf, key]
    rfl
  · rw [Simp.normal, key]
    rfl

/-- A simplex in four dimensions with a facet whose altitude has its last coordinate zero. -/
def pent : Simp ℚ 4 := ⟨fun i => [![4, 1, 1, 1], ![0, 0, 0, 0], ![0, 4, 1, 1], ![0, 1, 4, 1], ![0, 1, 1, 4]].getD i 0, 5⟩

theorem pent_ind : AffInd pent.pts pent.n := by
  intro w h1 h2 i hi
  have e : pent.n = 5 := rfl
  rw [e] at h1 h2 hi
  simp only [sum_range_succ, range_zero, sum_empty, zero_add] at h1 h2
  have p0 : pent.pts 0 = ![4, 1, 1, 1] := rfl
  have p1 : pent.pts 1 = ![0, 0, 0, 0] := rfl
  have p2 : pent.pts 2 = ![0, 4, 1, 1] := rfl
  have p3 : pent.pts 3 = ![0, 1, 4, 1] := rfl
  have p4 : pent.pts 4 = ![0, 1, 1, 4] := rfl
  rw [p0, p1, p2, p3, p4] at h2
  have e0 := congrFun h2 0
  have e1 := congrFun h2 1
  have e2 := congrFun h2 2
  have e3 := congrFun h2 3
  simp at e0 e1 e2 e3
  have : i = 0 ∨ i = 1 ∨ i = 2 ∨ i = 3 ∨ i = 4 := by omega
  rcases this with rfl | rfl | rfl | rfl | rfl <;> linarith

/-- **C78** refuted from four dimensions on: without general position, nothing need be divided by zero and the answers are still
wrong.  A facet whose normal is not found is passed over, so that a point beyond it is taken to be inside: clipping leaves it where
it is and its signed distance is negative. -/
theorem C78_silent_refuted : ∃ (s : Simp ℚ 4) (p : Fin 4 → ℚ), AffInd s.pts s.n ∧ s.n = 5 ∧ s.contains p = some false ∧
    (∃ F, s.clip p = some (p, F)) ∧ ∀ sqrt : ℚ → ℚ, (∀ x, 0 < x → 0 < sqrt x) → ∃ d < 0, s.sdf sqrt p = some d := by
  refine ⟨pent, ![-1/10, 3/2, 3/2, 3/2], pent_ind, rfl, by decide +kernel, ?_, fun sqrt hs => ?_⟩
  · have h : (pent.clip ![-1/10, 3/2, 3/2, 3/2]).map Prod.fst = some ![-1/10, 3/2, 3/2, 3/2] := by decide +kernel
    rcases e : pent.clip ![-1/10, 3/2, 3/2, 3/2] with _ | ⟨q, F⟩
    · rw [e] at h
      cases h
    · rw [e] at h
      have hq : q = ![-1/10, 3/2, 3/2, 3/2] := Option.some.inj h
      rw [hq]
      exact ⟨F, rfl⟩
  · have h : (projectSimplex pent ![-1/10, 3/2, 3/2, 3/2] .project false).map (fun r => (decide (0 < r.d2), r.contains)) =
        some (true, true) := by decide +kernel
    rw [Simp.sdf]
    rcases e : projectSimplex pent ![-1/10, 3/2, 3/2, 3/2] .project false with _ | r
    · rw [e] at h
      cases h
    · rw [e, Option.map_some] at h
      obtain ⟨h1, h2⟩ := Prod.mk.inj (Option.some.inj h)
      refine ⟨_, ?_, rfl⟩
      beta_reduce
      rw [h2]
      have := hs _ (of_decide_eq_true h1)
      simp
      exact this

/-- A triangle in four dimensions. -/
def tri4 : Simp ℚ 4 := ⟨fun i => [![1, 0, 0, 1], ![0, 1, 0, 2], ![0, 0, 0, 0]].getD i 0, 3⟩

theorem tri4_ind : AffInd tri4.pts tri4.n := by
  intro w h1 h2 i hi
  have e : tri4.n = 3 := rfl
  rw [e] at h1 h2 hi
  simp only [sum_range_succ, range_zero, sum_empty, zero_add] at h1 h2
  have p0 : tri4.pts 0 = ![1, 0, 0, 1] := rfl
  have p1 : tri4.pts 1 = ![0, 1, 0, 2] := rfl
  have p2 : tri4.pts 2 = ![0, 0, 0, 0] := rfl
  rw [p0, p1, p2] at h2
  have e0 := congrFun h2 0
  have e1 := congrFun h2 1
  simp at e0 e1
  have : i = 0 ∨ i = 1 ∨ i = 2 := by omega
  rcases this with rfl | rfl | rfl <;> linarith

/-- It is in general position. -/
theorem tri4_gen : GenPos tri4 := by
  have p0 : tri4.pts 0 = ![1, 0, 0, 1] := rfl
  have p1 : tri4.pts 1 = ![0, 1, 0, 2] := rfl
  have p2 : tri4.pts 2 = 0 := by decide +kernel
  have hspan : ∀ (S : Set (Fin 4 → ℚ)) (u : Fin 4 → ℚ), (∀ d ∈ S, ∃ a < 3, ∃ b < 3, d = tri4.pts a - tri4.pts b) →
      u ∈ Submodule.span ℚ S → ∃ x y : ℚ, u = ![x, y, 0, x + 2 * y] := by
    intro S u hS hu
    have : u ∈ Submodule.span ℚ {tri4.pts 0, tri4.pts 1} := by
      refine (Submodule.span_le.2 ?_ : Submodule.span ℚ S ≤ _) hu
      have hm : ∀ a < 3, tri4.pts a ∈ Submodule.span ℚ {tri4.pts 0, tri4.pts 1} := by
        intro a ha
        have : a = 0 ∨ a = 1 ∨ a = 2 := by omega
        rcases this with rfl | rfl | rfl
        · exact Submodule.subset_span (by simp)
        · exact Submodule.subset_span (by simp)
        · rw [p2]
          exact Submodule.zero_mem _
      intro d hd
      obtain ⟨a, ha, b, hb, rfl⟩ := hS d hd
      exact Submodule.sub_mem _ (hm a ha) (hm b hb)
    obtain ⟨x, y, rfl⟩ := Submodule.mem_span_pair.1 this
    refine ⟨x, y, ?_⟩
    rw [p0, p1]
    ext i
    fin_cases i <;> simp
    ring
  intro _
  constructor
  · intro V hV hc v hv u hu hperp hne i hi hz
    obtain rfl : V = range 3 := eq_of_subset_of_card_le hV (by rw [card_range]; exact hc)
    obtain ⟨x, y, rfl⟩ := hspan _ u (by
      rintro d ⟨a, ha, b, hb, rfl⟩
      exact ⟨a, mem_range.1 ha, b, mem_range.1 hb, rfl⟩) hu
    obtain rfl : i = 3 := Fin.ext hi
    simp at hz
    apply hne
    have hxy : x = 0 ∧ y = 0 := by
      have hv' := mem_range.1 hv
      have : v = 0 ∨ v = 1 ∨ v = 2 := by omega
      rcases this with rfl | rfl | rfl
      · have := hperp 1 (by decide) 2 (by decide)
        rw [p1, p2] at this
        simp [dotProduct, Fin.sum_univ_four] at this
        constructor <;> linarith
      · have := hperp 0 (by decide) 2 (by decide)
        rw [p0, p2] at this
        simp [dotProduct, Fin.sum_univ_four] at this
        constructor <;> linarith
      · have := hperp 0 (by decide) 1 (by decide)
        rw [p0, p1] at this
        simp [dotProduct, Fin.sum_univ_four] at this
        constructor <;> linarith
    rw [hxy.1, hxy.2]
    ext k
    fin_cases k <;> simp
  · intro _ _ u hu h0
    obtain ⟨x, y, rfl⟩ := hspan _ u (by
      rintro d ⟨a, ha, b, hb, rfl⟩
      exact ⟨a, ha, b, hb, rfl⟩) hu
    have h1 := h0 0 (by decide)
    have h2 := h0 1 (by decide)
    simp at h1 h2
    rw [h1, h2]
    ext k
    fin_cases k <;> simp

/-- The hypotheses are satisfiable in four dimensions. -/
example : ∃ q F, tri4.clip ![3, 3, 1, 5] = some (q, F) ∧ q ∈ tri4.set := by
  obtain ⟨q, F, h, h', -⟩ := C78_clip tri4_ind (by omega) tri4_gen (by decide) (by decide) ![3, 3, 1, 5]
  exact ⟨q, F, h, h'.1⟩

example : (tri4.clip ![3, 3, 1, 2]).map (fun x => (x.1, x.2.verts)) = some (![1/3, 2/3, 0, 5/3], [![1, 0, 0, 1], ![0, 1, 0, 2]]) := by
  decide +kernel

example : (tri.clip ![6, 6]).map (fun x => (x.1, x.2.verts)) = some (![50/13, 36/13], [![5, 2], ![2, 4]]) := by decide +kernel
example : (tri.clip ![6, 1]).map (fun x => (x.1, x.2.verts)) = some (![5, 2], [![5, 2]]) := by decide +kernel
example : (tri.clip ![2, 2]).map (fun x => (x.1, x.2.verts)) = some (![2, 2], [![1, 1], ![5, 2], ![2, 4]]) := by decide +kernel
example : tri.project ![2, 2] = some ![7/5, 11/5] ∧ tri.project ![6, 6] = some ![50/13, 36/13] := by decide +kernel
example : (projectSimplex tri ![2, 2] .project false).map (fun r => (r.d2, r.contains)) = some (2/5, true) := by decide +kernel

/-- The hypotheses are satisfiable. -/
example : ∃ q F, tri.clip ![6, 6] = some (q, F) ∧ q ∈ tri.set := by
  obtain ⟨q, F, h, h', -⟩ := C78_clip tri_ind (by omega) (.small (by omega)) (by decide) (by decide) ![6, 6]
  exact ⟨q, F, h, h'.1⟩

end Geomc.Shape
