import Verif.Shape.Simplex

/-!
# Averages of finitely many points, and the foot of the perpendicular
-/

namespace Geomc.Shape

open Geomc.Vec Finset

variable {K : Type} {N : ℕ} [Field K]

/-- The combination of the points of a set of indices. -/
def comb (pts : ℕ → Fin N → K) (V : Finset ℕ) (β : ℕ → K) : Fin N → K := ∑ v ∈ V, β v • pts v

/-- `β` are the weights of the foot of the perpendicular from `p` to the affine span of the points. -/
structure IsProj (pts : ℕ → Fin N → K) (V : Finset ℕ) (p : Fin N → K) (β : ℕ → K) : Prop where
  sum : ∑ v ∈ V, β v = 1
  orth : ∀ u ∈ V, ∀ v ∈ V, (p - comb pts V β) ⬝ᵥ (pts u - pts v) = 0

variable {pts : ℕ → Fin N → K} {V W : Finset ℕ} {p : Fin N → K} {α β : ℕ → K}

theorem comb_sub_root (r : Fin N → K) (h : ∑ v ∈ V, β v = 0) : comb pts V β = ∑ v ∈ V, β v • (pts v - r) := by
  simp only [smul_sub]
  rw [sum_sub_distrib, ← sum_smul, h, zero_smul, sub_zero]
  rfl

theorem comb_sub_root' (r : Fin N → K) (h : ∑ v ∈ V, β v = 1) : comb pts V β - r = ∑ v ∈ V, β v • (pts v - r) := by
  simp only [smul_sub]
  rw [sum_sub_distrib, ← sum_smul, h, one_smul]
  rfl

theorem comb_sub (α β : ℕ → K) : comb pts V α - comb pts V β = comb pts V fun v => α v - β v := by
  simp only [comb, sub_smul]
  rw [sum_sub_distrib]

theorem dot_comb (x : Fin N → K) : x ⬝ᵥ comb pts V β = ∑ v ∈ V, β v * (x ⬝ᵥ pts v) := by
  rw [comb, dotProduct_sum]
  exact sum_congr rfl fun v _ => by rw [dotProduct_smul, smul_eq_mul]

theorem IsProj.perp (h : IsProj pts V p β) (hα : ∑ v ∈ V, α v = 0) : (p - comb pts V β) ⬝ᵥ comb pts V α = 0 := by
  rcases V.eq_empty_or_nonempty with rfl | ⟨v0, hv0⟩
  · simp [comb]
  · rw [comb_sub_root (pts v0) hα, dotProduct_sum]
    refine sum_eq_zero fun v hv => ?_
    rw [dotProduct_smul, h.orth v hv v0 hv0, smul_zero]

theorem IsProj.perp' (h : IsProj pts V p β) (hα : ∑ v ∈ V, α v = 1) :
    (p - comb pts V β) ⬝ᵥ (comb pts V β - comb pts V α) = 0 := by
  rw [comb_sub]
  exact h.perp (by rw [sum_sub_distrib, h.sum, hα, sub_self])

/-- Pythagoras. -/
theorem IsProj.pyth (h : IsProj pts V p β) (hα : ∑ v ∈ V, α v = 1) :
    (p - comb pts V α) ⬝ᵥ (p - comb pts V α) =
      (p - comb pts V β) ⬝ᵥ (p - comb pts V β) + (comb pts V β - comb pts V α) ⬝ᵥ (comb pts V β - comb pts V α) := by
  have h0 := h.perp' hα
  have e : p - comb pts V α = (p - comb pts V β) + (comb pts V β - comb pts V α) := by abel
  rw [e, add_dotProduct, dotProduct_add, dotProduct_add, h0, dotProduct_comm (comb pts V β - comb pts V α) (p - comb pts V β), h0]
  ring

variable [LinearOrder K] [IsStrictOrderedRing K]

theorem IsProj.le (h : IsProj pts V p β) (hα : ∑ v ∈ V, α v = 1) :
    (p - comb pts V β) ⬝ᵥ (p - comb pts V β) ≤ (p - comb pts V α) ⬝ᵥ (p - comb pts V α) := by
  rw [h.pyth hα]
  linarith [self_dot_nonneg (comb pts V β - comb pts V α)]

/-- On the way to the foot one only gets nearer. -/
theorem IsProj.toward (h : IsProj pts V p β) (hα : ∑ v ∈ V, α v = 1) {t : K} (h0 : 0 ≤ t) (h1 : t ≤ 1) :
    (∑ v ∈ V, ((1 - t) * α v + t * β v) = 1) ∧
    (p - comb pts V fun v => (1 - t) * α v + t * β v) ⬝ᵥ (p - comb pts V fun v => (1 - t) * α v + t * β v) ≤
      (p - comb pts V α) ⬝ᵥ (p - comb pts V α) := by
  have hs : ∑ v ∈ V, ((1 - t) * α v + t * β v) = 1 := by
    rw [sum_add_distrib, ← mul_sum, ← mul_sum, hα, h.sum]
    ring
  refine ⟨hs, ?_⟩
  rw [h.pyth hs, h.pyth hα]
  have e : (comb pts V β - comb pts V fun v => (1 - t) * α v + t * β v) = (1 - t) • (comb pts V β - comb pts V α) := by
    rw [comb_sub, comb_sub]
    simp only [comb, smul_sum, smul_smul]
    exact sum_congr rfl fun v _ => by congr 1; ring
  rw [e, smul_dotProduct, dotProduct_smul, smul_eq_mul, smul_eq_mul]
  have := self_dot_nonneg (comb pts V β - comb pts V α)
  have h2 : (1 - t) * (1 - t) ≤ 1 := by nlinarith
  nlinarith

omit [IsStrictOrderedRing K] in
theorem exists_exit_aux [IsStrictOrderedRing K] (hα : ∀ v ∈ V, 0 ≤ α v) (hβ : ∃ v ∈ V, β v ≤ 0) :
    ∃ t : K, 0 ≤ t ∧ t ≤ 1 ∧ (∃ v ∈ V, β v ≤ 0 ∧ (1 - t) * α v + t * β v = 0) ∧ ∀ v ∈ V, 0 ≤ (1 - t) * α v + t * β v := by
  obtain ⟨v1, hv1, hb1⟩ := hβ
  obtain ⟨v, hv, hmin⟩ := exists_min_image (V.filter fun v => β v ≤ 0) (fun v => α v / (α v - β v)) ⟨v1, by simp [hv1, hb1]⟩
  rw [mem_filter] at hv
  obtain ⟨hv, hb⟩ := hv
  have ha := hα v hv
  have h0 : 0 ≤ α v / (α v - β v) := div_nonneg ha (by linarith)
  have h1 : α v / (α v - β v) ≤ 1 := by
    rcases (show 0 ≤ α v - β v by linarith).eq_or_lt with h | h
    · rw [← h, div_zero]
      exact zero_le_one
    · rw [div_le_one h]
      linarith
  refine ⟨_, h0, h1, ⟨v, hv, hb, ?_⟩, fun u hu => ?_⟩
  · rcases (show 0 ≤ α v - β v by linarith).eq_or_lt with h | h
    · rw [← h, div_zero]
      linarith
    · have : α v / (α v - β v) * (α v - β v) = α v := div_mul_cancel₀ _ h.ne'
      linear_combination -this
  · have hau := hα u hu
    rcases le_or_gt (β u) 0 with hbu | hbu
    · have hm := hmin u (by simp [hu, hbu])
      rcases (show 0 ≤ α u - β u by linarith).eq_or_lt with h | h
      · have ea : α u = 0 := by linarith
        have eb : β u = 0 := by linarith
        rw [ea, eb]
        simp
      · have : α u / (α u - β u) * (α u - β u) = α u := div_mul_cancel₀ _ h.ne'
        have := mul_le_mul_of_nonneg_right hm h.le
        linarith
    · have := mul_nonneg (sub_nonneg.2 h1) hau
      have := mul_nonneg h0 hbu.le
      linarith

/-- Leaving a simplex towards the foot of the perpendicular: if the foot has a weight that is not positive, one can go to
the face opposite to such a vertex without getting farther from `p`. -/
theorem IsProj.exit (h : IsProj pts V p β) (h0 : ∀ v ∈ V, 0 ≤ α v) (hα : ∑ v ∈ V, α v = 1) (hβ : ∃ v ∈ V, β v ≤ 0) :
    ∃ v ∈ V, β v ≤ 0 ∧ ∃ γ : ℕ → K, (∀ u ∈ V.erase v, 0 ≤ γ u) ∧ ∑ u ∈ V.erase v, γ u = 1 ∧
      (p - comb pts (V.erase v) γ) ⬝ᵥ (p - comb pts (V.erase v) γ) ≤ (p - comb pts V α) ⬝ᵥ (p - comb pts V α) := by
  obtain ⟨t, ht0, ht1, ⟨v, hv, hb, hz⟩, hpos⟩ := exists_exit_aux h0 hβ
  obtain ⟨hs, hd⟩ := h.toward hα ht0 ht1
  refine ⟨v, hv, hb, fun u => (1 - t) * α u + t * β u, fun u hu => hpos u (mem_of_mem_erase hu), ?_, ?_⟩
  · have := add_sum_erase V (fun u => (1 - t) * α u + t * β u) hv
    simp only [hz, zero_add] at this
    exact this.trans hs
  · refine le_trans (le_of_eq ?_) hd
    have : (comb pts (V.erase v) fun u => (1 - t) * α u + t * β u) = comb pts V fun u => (1 - t) * α u + t * β u := by
      simp only [comb]
      rw [← add_sum_erase V (fun u => ((1 - t) * α u + t * β u) • pts u) hv, hz, zero_smul, zero_add]
    rw [this]

/-- The same if the weight of `r` can only vanish far away: then `r` keeps its weight. -/
theorem IsProj.exit_keep (h : IsProj pts V p β) (h0 : ∀ v ∈ V, 0 ≤ α v) (hα : ∑ v ∈ V, α v = 1) (hβ : ∃ v ∈ V, β v ≤ 0)
    {r : ℕ} {L : K} (hL : ∀ γ : ℕ → K, ∑ v ∈ V, γ v = 1 → γ r ≤ 0 → L ≤ (p - comb pts V γ) ⬝ᵥ (p - comb pts V γ))
    (hx : (p - comb pts V α) ⬝ᵥ (p - comb pts V α) < L) :
    0 < β r ∧ ∃ v ∈ V, v ≠ r ∧ β v ≤ 0 ∧ ∃ γ : ℕ → K, (∀ u ∈ V.erase v, 0 ≤ γ u) ∧ ∑ u ∈ V.erase v, γ u = 1 ∧
      (p - comb pts (V.erase v) γ) ⬝ᵥ (p - comb pts (V.erase v) γ) ≤ (p - comb pts V α) ⬝ᵥ (p - comb pts V α) := by
  have hr : 0 < β r := by
    by_contra hc
    have := hL β h.sum (not_lt.1 hc)
    exact absurd (this.trans (h.le hα)) (not_le.2 hx)
  refine ⟨hr, ?_⟩
  obtain ⟨v, hv, hb, γ, h1, h2, h3⟩ := h.exit h0 hα hβ
  exact ⟨v, hv, fun e => absurd hr (not_lt.2 (e ▸ hb)), hb, γ, h1, h2, h3⟩

/-! ### Independent points -/

omit [LinearOrder K] [IsStrictOrderedRing K] in
theorem AffInd.comp {m n : ℕ} {j : ℕ → ℕ} (h : AffInd pts n) (hj : ∀ k < m, j k < n)
    (hinj : ∀ k < m, ∀ l < m, j k = j l → k = l) : AffInd (fun k => pts (j k)) m := by
  intro w h1 h2 k hk
  have hsum : ∀ {M : Type} [AddCommMonoid M] (F : K → ℕ → M), (∀ v, F 0 v = 0) →
      ∑ v ∈ range n, F (∑ k ∈ range m, if j k = v then w k else 0) v = ∑ k ∈ range m, F (w k) (j k) := by
    intro M _ F hF
    have hval : ∀ k < m, ∑ l ∈ range m, (if j l = j k then w l else 0) = w k := by
      intro k hk
      rw [sum_eq_single k]
      · simp
      · intro l hl hne
        rw [if_neg fun e => hne (hinj l (mem_range.1 hl) k hk e)]
      · intro h'
        exact absurd (mem_range.2 hk) h'
    rw [← sum_subset (s₁ := (range m).image j)]
    · rw [sum_image fun a ha b hb e => hinj a (mem_range.1 ha) b (mem_range.1 hb) e]
      exact sum_congr rfl fun k hk => by rw [hval k (mem_range.1 hk)]
    · intro v hv
      obtain ⟨k, hk, rfl⟩ := mem_image.1 hv
      exact mem_range.2 (hj k (mem_range.1 hk))
    · intro v _ hv
      rw [sum_eq_zero, hF]
      intro k hk
      rw [if_neg fun e => hv (mem_image.2 ⟨k, hk, e⟩)]
  have := h (fun v => ∑ k ∈ range m, if j k = v then w k else 0)
    (by rw [hsum (fun x _ => x) fun _ => rfl]; exact h1)
    (by rw [hsum (fun x v => x • pts v) fun _ => zero_smul _ _]; exact h2) (j k) (hj k hk)
  rw [sum_eq_single k (fun l hl hne => if_neg fun e => hne (hinj l (mem_range.1 hl) k hk e))
    (fun h' => absurd (mem_range.2 hk) h')] at this
  simpa using this

omit [LinearOrder K] [IsStrictOrderedRing K] in
/-- Vectors as many as the dimension, independent, reach everything. -/
theorem span_all {m : ℕ} (hm : m = N) {b : Fin m → Fin N → K} (h : ∀ c : Fin m → K, ∑ i, c i • b i = 0 → ∀ i, c i = 0)
    (x : Fin N → K) : ∃ c : Fin m → K, ∑ i, c i • b i = x := by
  have hli : LinearIndependent K b := Fintype.linearIndependent_iff.2 h
  have := hli.span_eq_top_of_card_eq_finrank' (by simp [hm])
  have hx : x ∈ Submodule.span K (Set.range b) := by rw [this]; trivial
  exact (Submodule.mem_span_range_iff_exists_fun K).1 hx

end Geomc.Shape
