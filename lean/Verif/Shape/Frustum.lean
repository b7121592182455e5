import Verif.Shape.Extruded

/-!
# C53: frusta
-/

namespace Geomc.Shape

open Geomc.Vec Geomc.Rect

variable {K : Type} {n : ℕ} [Field K] [LinearOrder K] [IsStrictOrderedRing K] {sqrt : K → K}

/-- The frustum over a base in the plane of height one: multiples of base points by the heights in range, of which the
negative ones are left out if the range has heights of both signs. -/
def fruPts (S : Set (Fin n → K)) (lo hi : K) : Set (Fin (n + 1) → K) :=
  {p | ∃ b ∈ S, ∃ z, lo ≤ z ∧ z ≤ hi ∧ (lo < 0 → 0 < hi → 0 ≤ z) ∧ p = z • lift b 1}

omit [IsStrictOrderedRing K] in
theorem clipped_iff (h : Height K) (z : K) :
    (h.lo ≤ z ∧ z ≤ h.hi ∧ (h.lo < 0 → 0 < h.hi → 0 ≤ z)) ↔ h.clipped.lo ≤ z ∧ z ≤ h.clipped.hi := by
  rw [Height.clipped]
  simp only
  split_ifs with h1
  · constructor
    · exact fun h2 => ⟨h2.2.2 h1.1 h1.2, h2.2.1⟩
    · exact fun h2 => ⟨h1.1.le.trans h2.1, h2.2, fun _ _ => h2.1⟩
  · constructor
    · exact fun h2 => ⟨h2.1, h2.2.1⟩
    · exact fun h2 => ⟨h2.1, h2.2, fun h3 h4 => absurd ⟨h3, h4⟩ h1⟩

omit [IsStrictOrderedRing K] in
theorem mem_fru (S : Set (Fin n → K)) (h : Height K) (p : Fin (n + 1) → K) :
    p ∈ fruPts S h.lo h.hi ↔ ∃ b ∈ S, ∃ z, h.clipped.lo ≤ z ∧ z ≤ h.clipped.hi ∧ p = z • lift b 1 := by
  constructor
  · rintro ⟨b, hb, z, h0, h1, h2, rfl⟩
    have := (clipped_iff h z).1 ⟨h0, h1, h2⟩
    exact ⟨b, hb, z, this.1, this.2, rfl⟩
  · rintro ⟨b, hb, z, h0, h1, rfl⟩
    have := (clipped_iff h z).2 ⟨h0, h1⟩
    exact ⟨b, hb, z, this.1, this.2.1, this.2.2, rfl⟩

omit [IsStrictOrderedRing K] in
theorem clipped_sign (h : Height K) : ¬ (h.clipped.lo < 0 ∧ 0 < h.clipped.hi) := by
  rw [Height.clipped]
  simp only
  split_ifs with h1
  · simp
  · exact h1

omit [IsStrictOrderedRing K] in
theorem clipped_le (h : Height K) (hh : h.lo ≤ h.hi) : h.clipped.lo ≤ h.clipped.hi := by
  rw [Height.clipped]
  simp only
  split_ifs with h1
  · exact h1.2.le
  · exact hh

omit [LinearOrder K] [IsStrictOrderedRing K] in
theorem smul_lift_init (z : K) (b : Fin n → K) (x : K) : (Fin.init (z • lift b x) : Fin n → K) = z • b := by
  ext i
  have := congrFun (lift_init b x) i
  rw [Fin.init, Pi.smul_apply, Pi.smul_apply]
  rw [Fin.init] at this
  rw [this]

omit [LinearOrder K] [IsStrictOrderedRing K] in
theorem smul_lift_last (z : K) (b : Fin n → K) : (z • lift b 1) (Fin.last n) = z := by
  rw [Pi.smul_apply, lift_last, smul_eq_mul, mul_one]

omit [IsStrictOrderedRing K] in
/-- **C53**, frustum: containment. -/
theorem C53_fru_contains (S : Set (Fin n → K)) (hS : S.Nonempty) (contains : (Fin n → K) → Bool) (h : Height K)
    (hc : ∀ b, contains b = true ↔ b ∈ S) (p : Fin (n + 1) → K) :
    fruContains contains h p = true ↔ p ∈ fruPts S h.lo h.hi := by
  rw [mem_fru]
  unfold fruContains
  simp only
  by_cases h1 : h.clipped.contains (p (Fin.last n)) = true
  · rw [if_neg (by rw [h1]; decide)]
    rw [height_contains] at h1
    by_cases h0 : p (Fin.last n) = 0
    · rw [if_pos h0, decide_eq_true_eq]
      constructor
      · rintro rfl
        obtain ⟨b, hb⟩ := hS
        exact ⟨b, hb, 0, h1.1, h1.2, by rw [zero_smul]⟩
      · rintro ⟨b, hb, z, _, _, rfl⟩
        rw [smul_lift_last] at h0
        rw [h0, zero_smul]
    · rw [if_neg h0, hc]
      constructor
      · intro hb
        refine ⟨_, hb, p (Fin.last n), h1.1, h1.2, ?_⟩
        conv_lhs => rw [← lift_eta p]
        refine funext fun i => Fin.lastCases ?_ (fun i => ?_) i
        · rw [lift_last, smul_lift_last]
        · have e1 := congrFun (lift_init (Fin.init p : Fin n → K) (p (Fin.last n))) i
          have e2 := congrFun (smul_lift_init (p (Fin.last n)) (Fin.init fun i => p i / p (Fin.last n) : Fin n → K) 1) i
          rw [Fin.init] at e1 e2
          rw [e1, e2, Pi.smul_apply, Fin.init, Fin.init, smul_eq_mul, mul_div_cancel₀ _ h0]
      · rintro ⟨b, hb, z, _, _, rfl⟩
        rw [smul_lift_last] at *
        convert hb
        ext i
        have e2 := congrFun (smul_lift_init z b 1) i
        rw [Fin.init] at e2 ⊢
        rw [e2, Pi.smul_apply, smul_eq_mul, mul_div_cancel_left₀ _ h0]
  · have h2 : h.clipped.contains (p (Fin.last n)) = false := by simpa using h1
    rw [if_pos (by rw [h2]; decide)]
    rw [height_contains] at h1
    simp only [Bool.false_eq_true, false_iff]
    rintro ⟨b, hb, z, h3, h4, rfl⟩
    rw [smul_lift_last] at h1
    exact h1 ⟨h3, h4⟩

/-- **C53**, frustum: support. -/
theorem C53_fru_support (S : Set (Fin (n + 1) → K)) (support : (Fin (n + 1) → K) → Fin (n + 1) → K) (h : Height K)
    (hh : h.lo ≤ h.hi) (hb : ∀ d, d ≠ 0 → IsSupport S d (support d)) (d : Fin (n + 2) → K) :
    IsSupport (fruPts S h.lo h.hi) d (fruSupport support h d) := by
  set lo := h.clipped.lo with hlo
  set hi := h.clipped.hi with hhi
  have hle : lo ≤ hi := clipped_le h hh
  have hsign := clipped_sign h
  set σ : K := if lo < 0 then -1 else 1 with hσ
  set x := support (orFirst (fun i => σ * Fin.init d i)) with hx
  have hsup := hb _ (orFirst_ne (fun i => σ * (Fin.init d : Fin (n + 1) → K) i))
  set p := lift x 1 with hp
  have hcode : fruSupport support h d = (if 0 < p ⬝ᵥ d then hi else lo) • p := by
    rw [← dot_eq]
    rfl
  -- the base point is extreme in the direction that matters
  have hdot : ∀ q ∈ S, σ * (lift q 1 ⬝ᵥ d) ≤ σ * (p ⬝ᵥ d) := by
    intro q hq
    rw [dot_split (lift q 1), hp, dot_split (lift x 1), lift_init, lift_init, lift_last, lift_last, mul_add, mul_add]
    refine add_le_add ?_ (le_refl _)
    by_cases h0 : (fun i => σ * (Fin.init d : Fin (n + 1) → K) i) = 0
    · have : ∀ y : Fin (n + 1) → K, σ * (y ⬝ᵥ (Fin.init d : Fin (n + 1) → K)) = 0 := by
        intro y
        rw [← smul_eq_mul, ← dotProduct_smul, show σ • (Fin.init d : Fin (n + 1) → K) = 0 from h0, dotProduct_zero]
      rw [this, this]
    · have h2 := hsup.2 q hq
      rw [← hx] at h2
      rw [dot_eq, dot_eq, show orFirst (fun i => σ * (Fin.init d : Fin (n + 1) → K) i) =
        σ • (Fin.init d : Fin (n + 1) → K) from if_neg h0, dotProduct_smul, dotProduct_smul, smul_eq_mul, smul_eq_mul] at h2
      exact h2
  rw [hcode]
  constructor
  · rw [mem_fru]
    refine ⟨x, hsup.1, _, ?_, ?_, rfl⟩ <;> split_ifs <;> first | exact hle | exact le_refl _
  · intro y hy
    rw [mem_fru] at hy
    obtain ⟨q, hq, z, z0, z1, rfl⟩ := hy
    rw [← hlo] at z0
    rw [← hhi] at z1
    have h1 := hdot q hq
    rw [dot_eq, dot_eq, smul_dotProduct, smul_dotProduct, smul_eq_mul, smul_eq_mul]
    -- from the base point of `y` to the extreme one at the same height, then along the edge
    have h2 : z * (lift q 1 ⬝ᵥ d) ≤ z * (p ⬝ᵥ d) := by
      by_cases hneg : lo < 0
      · rw [hσ, if_pos hneg] at h1
        have : hi ≤ 0 := not_lt.1 fun h' => hsign ⟨hneg, h'⟩
        exact mul_le_mul_of_nonpos_left (by linarith) (z1.trans this)
      · rw [hσ, if_neg hneg, one_mul, one_mul] at h1
        exact mul_le_mul_of_nonneg_left h1 ((not_lt.1 hneg).trans z0)
    refine h2.trans ?_
    split_ifs with h3
    · exact mul_le_mul_of_nonneg_right z1 h3.le
    · exact mul_le_mul_of_nonpos_right z0 (not_lt.1 h3)

/-- **C53**, frustum: bounds. -/
theorem C53_fru_bounds (S : Set (Fin n → K)) (hS : S.Nonempty) (b : Box K n) (h : Height K) (hh : h.lo ≤ h.hi)
    (hb : IsHull S b) : IsHull (fruPts S h.lo h.hi) (fruBounds b h) := by
  set lo := h.clipped.lo with hlo
  set hi := h.clipped.hi with hhi
  have hle : lo ≤ hi := clipped_le h hh
  -- coordinate by coordinate, the scaled boxes
  have hmem : ∀ p, p ∈ (fruBounds b h).pts ↔ (∀ i : Fin n,
      min (min (b.lo i * lo) (b.hi i * lo)) (min (b.lo i * hi) (b.hi i * hi)) ≤ p i.castSucc ∧
      p i.castSucc ≤ max (max (b.lo i * lo) (b.hi i * lo)) (max (b.lo i * hi) (b.hi i * hi))) ∧
      lo ≤ p (Fin.last n) ∧ p (Fin.last n) ≤ hi := by
    intro p
    unfold fruBounds
    simp only
    rw [mem_prod_height, mem_pts]
    simp only [Box.union, Box.scale, spanningCorners, vmin_apply, vmax_apply, Pi.mul_apply, Fin.init]
    rfl
  constructor
  · intro p hp
    rw [mem_fru] at hp
    obtain ⟨x, hx, z, z0, z1, rfl⟩ := hp
    rw [← hlo] at z0
    rw [← hhi] at z1
    rw [hmem, smul_lift_last]
    refine ⟨fun i => ?_, z0, z1⟩
    have e := congrFun (smul_lift_init z x 1) i
    rw [Fin.init] at e
    rw [e, Pi.smul_apply, smul_eq_mul]
    have hbx := mem_pts.1 (hb.1 hx) i
    generalize x i = y at *
    -- bilinear: extremes at the ends
    have lower : ∀ w, b.lo i ≤ w → w ≤ b.hi i → ∀ k, min (b.lo i * k) (b.hi i * k) ≤ w * k ∧ w * k ≤ max (b.lo i * k) (b.hi i * k) := by
      intro w w0 w1 k
      rcases le_total 0 k with hk | hk
      · exact ⟨(min_le_left _ _).trans (mul_le_mul_of_nonneg_right w0 hk), le_max_of_le_right (mul_le_mul_of_nonneg_right w1 hk)⟩
      · exact ⟨(min_le_right _ _).trans (mul_le_mul_of_nonpos_right w1 hk), le_max_of_le_left (mul_le_mul_of_nonpos_right w0 hk)⟩
    have l1 := lower y hbx.1 hbx.2 lo
    have l2 := lower y hbx.1 hbx.2 hi
    rw [mul_comm z y]
    rcases le_total 0 y with hy | hy
    · exact ⟨(min_le_left _ _).trans (l1.1.trans (mul_le_mul_of_nonneg_left z0 hy)),
        le_max_of_le_right ((mul_le_mul_of_nonneg_left z1 hy).trans l2.2)⟩
    · exact ⟨(min_le_right _ _).trans (l2.1.trans (mul_le_mul_of_nonpos_left z1 hy)),
        le_max_of_le_left ((mul_le_mul_of_nonpos_left z0 hy).trans l1.2)⟩
  · intro c hc p hp
    rw [hmem] at hp
    obtain ⟨c', cl, ch, hc'⟩ := box_split c
    have hin : ∀ x ∈ S, ∀ z, lo ≤ z → z ≤ hi → z • x ∈ c'.pts ∧ cl ≤ z ∧ z ≤ ch := by
      intro x hx z z0 z1
      have := (hc' _).1 (hc ((mem_fru S h _).2 ⟨x, hx, z, z0, z1, rfl⟩))
      rwa [smul_lift_init, smul_lift_last] at this
    obtain ⟨s, hs⟩ := hS
    -- the extremes of the base box, scaled, stay in the other box
    have hscale : ∀ z, lo ≤ z → z ≤ hi → ∀ i, (c'.lo i ≤ b.lo i * z ∧ b.lo i * z ≤ c'.hi i) ∧
        (c'.lo i ≤ b.hi i * z ∧ b.hi i * z ≤ c'.hi i) := by
      intro z z0 z1 i
      have hne : ∀ j, b.lo j ≤ b.hi j := fun j => (mem_pts.1 (hb.1 hs) j).1.trans (mem_pts.1 (hb.1 hs) j).2
      have hlob : b.lo ∈ b.pts := mem_pts.2 fun j => ⟨le_refl _, hne j⟩
      have hhib : b.hi ∈ b.pts := mem_pts.2 fun j => ⟨hne j, le_refl _⟩
      by_cases hz : z = 0
      · have := mem_pts.1 (hin s hs z z0 z1).1 i
        rw [hz, zero_smul] at this
        rw [hz, mul_zero, mul_zero]
        exact ⟨this, this⟩
      · -- the box of points that `z` scales into `c'`
        have hpre : ∃ e : Box K n, ∀ x, x ∈ e.pts ↔ z • x ∈ c'.pts := by
          rcases lt_or_gt_of_ne hz with hneg | hpos
          · refine ⟨⟨fun j => c'.hi j / z, fun j => c'.lo j / z⟩, fun x => ?_⟩
            rw [mem_pts, mem_pts]
            refine forall_congr' fun j => ?_
            simp only [Pi.smul_apply, smul_eq_mul]
            rw [div_le_iff_of_neg hneg, le_div_iff_of_neg hneg, and_comm, mul_comm]
          · refine ⟨⟨fun j => c'.lo j / z, fun j => c'.hi j / z⟩, fun x => ?_⟩
            rw [mem_pts, mem_pts]
            refine forall_congr' fun j => ?_
            simp only [Pi.smul_apply, smul_eq_mul]
            rw [div_le_iff₀ hpos, le_div_iff₀ hpos, mul_comm]
        obtain ⟨e, he⟩ := hpre
        have hsub := hb.2 e fun x hx => (he x).2 (hin x hx z z0 z1).1
        have m1 := mem_pts.1 ((he _).1 (hsub hlob)) i
        have m2 := mem_pts.1 ((he _).1 (hsub hhib)) i
        rw [Pi.smul_apply, smul_eq_mul, mul_comm] at m1 m2
        exact ⟨m1, m2⟩
    rw [hc']
    refine ⟨mem_pts.2 fun i => ?_, (hin s hs lo (le_refl _) hle).2.1.trans hp.2.1, hp.2.2.trans (hin s hs hi hle (le_refl _)).2.2⟩
    have k1 := hscale lo (le_refl _) hle i
    have k2 := hscale hi hle (le_refl _) i
    have k3 := hp.1 i
    exact ⟨(le_min (le_min k1.1.1 k1.2.1) (le_min k2.1.1 k2.2.1)).trans k3.1,
      k3.2.trans (max_le (max_le k1.1.2 k1.2.2) (max_le k2.1.2 k2.2.2))⟩

theorem projectOn_eq (d a : Fin n → K) : projectOn d a = ((d ⬝ᵥ a) / (a ⬝ᵥ a)) • a := by
  rw [projectOn]
  split_ifs with h
  · ext i
    rw [dot_eq, mag2_eq, Pi.smul_apply, smul_eq_mul, mul_div_assoc, mul_comm]
  · rw [mag2_eq, not_not] at h
    rw [h, div_zero, zero_smul]
    exact (self_dot_eq_zero _).1 h

example : fruContains (fun b => (⟨![0], ![4]⟩ : Box ℚ 1).contains b) ⟨-1, 3⟩ ![8, 2] = true := by decide +kernel
example : fruContains (fun b => (⟨![0], ![4]⟩ : Box ℚ 1).contains b) ⟨-1, 3⟩ ![-2, -1/2] = false := by decide +kernel
example : fruSupport (fun d => (⟨![0], ![4]⟩ : Box ℚ 1).support d) ⟨-3, -1⟩ ![-1, 0] = ![-12, -3] := by decide +kernel
example : fruBounds (⟨![0], ![4]⟩ : Box ℚ 1) ⟨-1, 3⟩ = ⟨![0, 0], ![12, 3]⟩ := by decide +kernel

end Geomc.Shape
