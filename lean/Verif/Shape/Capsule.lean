import Verif.Shape.Sphere

/-!
# C51: capsules
-/

namespace Geomc.Shape

open Geomc.Vec Geomc.Rect

variable {K : Type} {n : ℕ} [Field K] [LinearOrder K] [IsStrictOrderedRing K] {sqrt : K → K}

/-- The points of a capsule: those within the radius of a point of the axis. -/
def Tube.capPts (sqrt : K → K) (c : Tube K n) : Set (Fin n → K) :=
  {p | ∃ t : K, 0 ≤ t ∧ t ≤ 1 ∧ len sqrt (p - (c.p0 + t • (c.p1 - c.p0))) ≤ c.radius}

theorem withLength_eq (hs : IsSqrt sqrt) {u : Fin n → K} (hu : u ≠ 0) (m : K) :
    withLength sqrt u m = m • ((len sqrt u)⁻¹ • u) := by
  rw [withLength, if_neg (by rw [mag2_eq]; exact (self_dot_pos hu).ne')]
  ext i
  simp only [Pi.smul_apply, smul_eq_mul, len]
  rw [mul_div_assoc, div_eq_inv_mul]

omit [IsStrictOrderedRing K] in
theorem clamp1_eq (v : K) : clamp1 v 0 1 = max 0 (min 1 v) := by rw [clamp1, stdMax_eq, stdMin_eq]

/-- The parameter of the nearest axis point. -/
def Tube.frac (c : Tube K n) (p : Fin n → K) : K := clamp1 (dot (p - c.p0) c.axis / mag2 c.axis) 0 1

/-- The nearest axis point. -/
def Tube.foot (c : Tube K n) (p : Fin n → K) : Fin n → K := c.p0 + c.frac p • (c.p1 - c.p0)

omit [IsStrictOrderedRing K] in
theorem frac_mem [IsStrictOrderedRing K] (c : Tube K n) (p : Fin n → K) : 0 ≤ c.frac p ∧ c.frac p ≤ 1 := by
  rw [Tube.frac, clamp1_eq]
  exact ⟨le_max_left _ _, max_le zero_le_one (min_le_left _ _)⟩

/-- The vector from the nearest axis point makes no acute angle with the axis as seen from there. -/
theorem foot_cone (c : Tube K n) (hc : c.p0 ≠ c.p1) (p : Fin n → K) {t : K} (h0 : 0 ≤ t) (h1 : t ≤ 1) :
    (p - c.foot p) ⬝ᵥ (c.p0 + t • (c.p1 - c.p0) - c.foot p) ≤ 0 := by
  have ha : 0 < c.axis ⬝ᵥ c.axis := self_dot_pos (sub_ne_zero.2 (Ne.symm hc))
  set f := c.frac p with hf
  set s := dot (p - c.p0) c.axis / mag2 c.axis with hs
  have hfs : f = max 0 (min 1 s) := by rw [hf, Tube.frac, clamp1_eq]
  have e1 : c.p0 + t • (c.p1 - c.p0) - c.foot p = (t - f) • c.axis := by
    rw [Tube.foot, sub_smul, Tube.axis]
    abel
  have e2 : p - c.foot p = (p - c.p0) - f • c.axis := by
    rw [Tube.foot, Tube.axis]
    abel
  have e3 : (p - c.p0) ⬝ᵥ c.axis = s * (c.axis ⬝ᵥ c.axis) := by
    rw [hs, dot_eq, mag2_eq, div_mul_cancel₀ _ ha.ne']
  rw [e1, e2, dotProduct_smul, sub_dotProduct, smul_dotProduct, e3, smul_eq_mul, smul_eq_mul]
  have key : (t - f) * (s - f) ≤ 0 := by
    rw [hfs]
    rcases le_total s 0 with h2 | h2
    · rw [min_eq_right (by linarith), max_eq_left h2]
      nlinarith
    · rcases le_total s 1 with h3 | h3
      · rw [min_eq_right h3, max_eq_right h2]
        simp
      · rw [min_eq_left h3, max_eq_right zero_le_one]
        nlinarith
  nlinarith

/-- The distance to the axis. -/
def Tube.dseg (sqrt : K → K) (c : Tube K n) (p : Fin n → K) : K := len sqrt (p - c.foot p)

/-- A point moved away from the foot, along the direction of the point, keeps its foot. -/
theorem dseg_ray (hs : IsSqrt sqrt) (c : Tube K n) (hc : c.p0 ≠ c.p1) (p w : Fin n → K) (hw : len sqrt w = 1)
    (hcone : ∀ t : K, 0 ≤ t → t ≤ 1 → w ⬝ᵥ (c.p0 + t • (c.p1 - c.p0) - c.foot p) ≤ 0) {τ : K} (hτ : 0 ≤ τ) {t : K}
    (h0 : 0 ≤ t) (h1 : t ≤ 1) : τ ≤ len sqrt (c.foot p + τ • w - (c.p0 + t • (c.p1 - c.p0))) := by
  have hx := hcone t h0 h1
  set x := c.p0 + t • (c.p1 - c.p0) with hxd
  have e : c.foot p + τ • w - x = τ • w - (x - c.foot p) := by abel
  have h2 : w ⬝ᵥ w = 1 := by rw [← len_mul_self hs, hw, mul_one]
  have h3 := self_dot_nonneg (x - c.foot p)
  have h4 : τ * τ ≤ (τ • w - (x - c.foot p)) ⬝ᵥ (τ • w - (x - c.foot p)) := by
    revert hx h3
    generalize x - c.foot p = y
    intro hx h3
    simp only [sub_dotProduct, dotProduct_sub, smul_dotProduct, dotProduct_smul, dotProduct_comm y w, h2, smul_eq_mul]
    nlinarith
  rw [e]
  by_contra h5
  push Not at h5
  have h6 := mul_self_lt_mul_self (len_nonneg hs _) h5
  rw [len_mul_self hs] at h6
  linarith

theorem dseg_le (hs : IsSqrt sqrt) (c : Tube K n) (hc : c.p0 ≠ c.p1) (p : Fin n → K) {t : K} (h0 : 0 ≤ t) (h1 : t ≤ 1) :
    c.dseg sqrt p ≤ len sqrt (p - (c.p0 + t • (c.p1 - c.p0))) := by
  by_cases hp : p - c.foot p = 0
  · rw [Tube.dseg, hp, (len_eq_zero hs).2 rfl]
    exact len_nonneg hs _
  · have h2 := len_pos hs hp
    have h3 := dseg_ray hs c hc p _ (unit_eq hs hp).2 (fun t h0 h1 => ?_) (len_nonneg hs (p - c.foot p)) h0 h1
    · rw [smul_smul, mul_inv_cancel₀ h2.ne', one_smul, add_sub_cancel] at h3
      exact h3
    · rw [smul_dotProduct, smul_eq_mul]
      exact mul_nonpos_of_nonneg_of_nonpos (inv_nonneg.2 h2.le) (foot_cone c hc p h0 h1)

theorem mem_cap (hs : IsSqrt sqrt) (c : Tube K n) (hc : c.p0 ≠ c.p1) (p : Fin n → K) :
    p ∈ c.capPts sqrt ↔ c.dseg sqrt p ≤ c.radius :=
  ⟨fun ⟨_, h0, h1, h2⟩ => (dseg_le hs c hc p h0 h1).trans h2, fun h => ⟨_, (frac_mem c p).1, (frac_mem c p).2, h⟩⟩

theorem dseg_lip (hs : IsSqrt sqrt) (c : Tube K n) (hc : c.p0 ≠ c.p1) (p q : Fin n → K) :
    c.dseg sqrt p ≤ len sqrt (p - q) + c.dseg sqrt q :=
  (dseg_le hs c hc p (frac_mem c q).1 (frac_mem c q).2).trans (len_tri hs p q _)

/-- A direction in which the capsule's surface is nearest. -/
theorem exists_out (hs : IsSqrt sqrt) (hn : 2 ≤ n) (c : Tube K n) (hc : c.p0 ≠ c.p1) (p : Fin n → K) :
    ∃ w, len sqrt w = 1 ∧ p = c.foot p + c.dseg sqrt p • w ∧
      ∀ τ : K, 0 ≤ τ → c.dseg sqrt (c.foot p + τ • w) = τ ∧ len sqrt (p - (c.foot p + τ • w)) = |c.dseg sqrt p - τ| := by
  obtain ⟨w, hw, hpw, hcone⟩ : ∃ w, len sqrt w = 1 ∧ p - c.foot p = c.dseg sqrt p • w ∧
      ∀ t : K, 0 ≤ t → t ≤ 1 → w ⬝ᵥ (c.p0 + t • (c.p1 - c.p0) - c.foot p) ≤ 0 := by
    by_cases hp : p - c.foot p = 0
    · obtain ⟨w, hw, hwa⟩ := exists_perp hs hn (c.p1 - c.p0)
      refine ⟨w, hw, ?_, fun t _ _ => le_of_eq ?_⟩
      · rw [Tube.dseg, hp, (len_eq_zero hs).2 rfl, zero_smul]
      · have e : c.p0 + t • (c.p1 - c.p0) - c.foot p = (t - c.frac p) • (c.p1 - c.p0) := by
          rw [Tube.foot, sub_smul]
          abel
        rw [e, dotProduct_smul, hwa, smul_zero]
    · have h2 := len_pos hs hp
      refine ⟨_, (unit_eq hs hp).2, ?_, fun t h0 h1 => ?_⟩
      · rw [Tube.dseg, smul_smul, mul_inv_cancel₀ h2.ne', one_smul]
      · rw [smul_dotProduct, smul_eq_mul]
        exact mul_nonpos_of_nonneg_of_nonpos (inv_nonneg.2 h2.le) (foot_cone c hc p h0 h1)
  refine ⟨w, hw, by rw [← hpw]; abel, fun τ hτ => ⟨le_antisymm ?_ ?_, ?_⟩⟩
  · have h1 := dseg_le hs c hc (c.foot p + τ • w) (frac_mem c p).1 (frac_mem c p).2
    rw [show c.p0 + c.frac p • (c.p1 - c.p0) = c.foot p from rfl, add_sub_cancel_left, len_smul hs, hw, mul_one,
      abs_of_nonneg hτ] at h1
    exact h1
  · exact dseg_ray hs c hc p w hw hcone hτ (frac_mem c _).1 (frac_mem c _).2
  · rw [← sub_sub, hpw, ← sub_smul, len_smul hs, hw, mul_one]

omit [IsStrictOrderedRing K] in
theorem axis_zero [IsStrictOrderedRing K] (c : Tube K n) : mag2 c.axis = 0 ↔ c.p0 = c.p1 := by
  rw [mag2_eq, self_dot_eq_zero, Tube.axis, sub_eq_zero]
  exact eq_comm

theorem capSdf_eq (c : Tube K n) (hc : c.p0 ≠ c.p1) (p : Fin n → K) :
    c.capSdf sqrt p = some (c.dseg sqrt p - c.radius) := by
  unfold Tube.capSdf
  simp only
  rw [if_neg fun h => hc ((axis_zero c).1 h)]
  congr 2
  rw [Tube.dseg, len]
  congr 2
  rw [Tube.foot, Tube.frac, Tube.axis]
  abel

/-- **C51**: containment and signed distance; both are undefined exactly if the ends of the axis coincide. -/
theorem C51_sdf (hs : IsSqrt sqrt) (hn : 2 ≤ n) (c : Tube K n) (hr : 0 ≤ c.radius) (p : Fin n → K) :
    (c.capSdf sqrt p = none ↔ c.p0 = c.p1) ∧
    (∀ s, c.capSdf sqrt p = some s → IsSDist sqrt (c.capPts sqrt) p s) ∧
    ∀ b, c.capContains sqrt p = some b → (b = true ↔ p ∈ c.capPts sqrt) := by
  by_cases hc : c.p0 = c.p1
  · have h : c.capSdf sqrt p = none := by
      unfold Tube.capSdf
      simp only
      rw [if_pos ((axis_zero c).2 hc)]
    refine ⟨by simp [h, hc], by simp [h], by simp [Tube.capContains, h]⟩
  rw [Tube.capContains, capSdf_eq c hc]
  obtain ⟨w, hw, hp, hτ⟩ := exists_out hs hn c hc p
  set ℓ := c.dseg sqrt p with hℓ
  have hℓ0 : 0 ≤ ℓ := len_nonneg hs _
  refine ⟨by simp [hc], fun s h => ?_, fun b h => ?_⟩
  · cases h
    refine ⟨fun h => ?_, fun h => ?_⟩
    · rw [mem_cap hs c hc, not_le, ← hℓ] at h
      refine ⟨⟨c.foot p + c.radius • w, ?_, ?_⟩, ?_⟩
      · rw [mem_cap hs c hc, (hτ _ hr).1]
      · rw [(hτ _ hr).2, abs_of_pos (by linarith)]
      · rintro x ⟨q, hq, rfl⟩
        rw [mem_cap hs c hc] at hq
        have := dseg_lip hs c hc p q
        rw [← hℓ] at this
        linarith
    · rw [mem_cap hs c hc, ← hℓ] at h
      refine ⟨by linarith, fun q hq => ?_, fun ρ hρ => ?_⟩
      · rw [mem_cap hs c hc]
        have := dseg_lip hs c hc q p
        rw [len_sub_comm hs, ← hℓ] at this
        linarith
      · refine ⟨c.foot p + ((c.radius + ℓ + ρ) / 2) • w, ?_, ?_⟩
        · rw [(hτ _ (by linarith)).2, abs_of_nonpos (by linarith)]
          linarith
        · rw [mem_cap hs c hc, (hτ _ (by linarith)).1]
          intro h1
          linarith
  · cases h
    rw [mem_cap hs c hc, decide_eq_true_eq, sub_nonpos]

/-- **C51**: intersection with a sphere. -/
theorem C51_sphere (hs : IsSqrt sqrt) (hn : 2 ≤ n) (c : Tube K n) (hc : c.p0 ≠ c.p1) (hr : 0 ≤ c.radius) (s : Ball K n)
    (hsr : 0 ≤ s.r) :
    ∃ b, c.capIntersectsBall sqrt s = some b ∧ (b = true ↔ (c.capPts sqrt ∩ s.pts sqrt).Nonempty) := by
  rw [Tube.capIntersectsBall, capSdf_eq c hc]
  refine ⟨_, rfl, ?_⟩
  rw [decide_eq_true_eq]
  constructor
  · intro h
    obtain ⟨w, hw, hp, hτ⟩ := exists_out hs hn c hc s.center
    rcases le_total (c.dseg sqrt s.center) c.radius with h1 | h1
    · exact ⟨s.center, (mem_cap hs c hc _).2 h1, by rw [mem_ball, sub_self, (len_eq_zero hs).2 rfl]; exact hsr⟩
    · refine ⟨c.foot s.center + c.radius • w, (mem_cap hs c hc _).2 (hτ _ hr).1.le, ?_⟩
      rw [mem_ball, len_sub_comm hs, (hτ _ hr).2, abs_of_nonneg (by linarith)]
      exact h
  · rintro ⟨q, h1, h2⟩
    rw [mem_cap hs c hc] at h1
    rw [mem_ball] at h2
    have := dseg_lip hs c hc s.center q
    rw [len_sub_comm hs] at this
    linarith

/-- **C51**: the support function, for every direction. -/
theorem C51_support (hs : IsSqrt sqrt) (c : Tube K n) (hr : 0 ≤ c.radius) (d : Fin n → K) :
    IsSupport (c.capPts sqrt) d (c.capSupport sqrt d) := by
  have hl : len sqrt (withLength sqrt d c.radius) ≤ c.radius ∧ withLength sqrt d c.radius ⬝ᵥ d = c.radius * len sqrt d := by
    by_cases h : d = 0
    · have h1 : withLength sqrt d c.radius = 0 := by
        rw [withLength, if_pos (by rw [h, mag2_eq, zero_dotProduct])]
        rfl
      rw [h1, (len_eq_zero hs).2 rfl, zero_dotProduct, (len_eq_zero hs).2 h, mul_zero]
      exact ⟨hr, rfl⟩
    · rw [withLength_eq hs h, len_smul hs, (unit_eq hs h).2, mul_one, abs_of_nonneg hr, smul_dotProduct, unit_dot hs h]
      exact ⟨le_refl _, rfl⟩
  constructor
  · by_cases h : 0 ≤ dot d c.axis
    · refine ⟨1, zero_le_one, le_refl _, ?_⟩
      rw [Tube.capSupport, if_pos h, one_smul, add_sub_cancel, add_sub_cancel_left]
      exact hl.1
    · refine ⟨0, le_refl _, zero_le_one, ?_⟩
      rw [Tube.capSupport, if_neg h, zero_smul, add_zero, add_sub_cancel_left]
      exact hl.1
  · rintro q ⟨t, h0, h1, h2⟩
    have h3 := dot_le_len hs (q - (c.p0 + t • (c.p1 - c.p0))) d
    have h4 := mul_le_mul_of_nonneg_right h2 (len_nonneg hs d)
    rw [sub_dotProduct, add_dotProduct, smul_dotProduct, smul_eq_mul] at h3
    rw [dot_eq, dot_eq, Tube.capSupport, add_dotProduct, hl.2]
    have h5 : dot d c.axis = (c.p1 - c.p0) ⬝ᵥ d := by rw [dot_eq, dotProduct_comm, Tube.axis]
    have h6 : (c.p1 - c.p0) ⬝ᵥ d = c.p1 ⬝ᵥ d - c.p0 ⬝ᵥ d := sub_dotProduct _ _ _
    by_cases h : 0 ≤ dot d c.axis
    · rw [if_pos h]
      rw [h5] at h
      have := mul_le_mul_of_nonneg_right h1 h
      linarith
    · rw [if_neg h]
      rw [h5] at h
      push Not at h
      have := mul_nonpos_of_nonneg_of_nonpos h0 h.le
      nlinarith

/-- **C51**: the bounds are the smallest box around the capsule. -/
theorem C51_bounds (hs : IsSqrt sqrt) (c : Tube K n) (hr : 0 ≤ c.radius) : IsHull (c.capPts sqrt) c.capBounds := by
  have hb : ∀ i, c.capBounds.lo i = min (c.p0 i) (c.p1 i) - c.radius ∧ c.capBounds.hi i = max (c.p0 i) (c.p1 i) + c.radius := by
    intro i
    simp [Tube.capBounds, Box.dilated, spanningCorners]
  constructor
  · rintro p ⟨t, h0, h1, h2⟩
    rw [mem_pts]
    intro i
    have h3 := (len_coord hs _ i).trans h2
    rw [Pi.sub_apply, abs_le, Pi.add_apply, Pi.smul_apply, Pi.sub_apply, smul_eq_mul] at h3
    rw [(hb i).1, (hb i).2]
    have h4 := min_le_left (c.p0 i) (c.p1 i)
    have h5 := min_le_right (c.p0 i) (c.p1 i)
    have h6 := le_max_left (c.p0 i) (c.p1 i)
    have h7 := le_max_right (c.p0 i) (c.p1 i)
    constructor <;> nlinarith
  · intro b hsub p hp
    rw [mem_pts] at hp ⊢
    intro i
    have key0 : ∀ x : K, |x| = c.radius → c.p0 + Pi.single i x ∈ b.pts := by
      intro x hx
      refine hsub ⟨0, le_refl _, zero_le_one, ?_⟩
      rw [zero_smul, add_zero, add_sub_cancel_left, len_single hs, hx]
    have key1 : ∀ x : K, |x| = c.radius → c.p1 + Pi.single i x ∈ b.pts := by
      intro x hx
      refine hsub ⟨1, zero_le_one, le_refl _, ?_⟩
      rw [one_smul, add_sub_cancel, add_sub_cancel_left, len_single hs, hx]
    have hneg : |-c.radius| = c.radius := by rw [abs_neg, abs_of_nonneg hr]
    have a1 := (mem_pts.1 (key0 _ (abs_of_nonneg hr)) i).2
    have a2 := (mem_pts.1 (key0 _ hneg) i).1
    have a3 := (mem_pts.1 (key1 _ (abs_of_nonneg hr)) i).2
    have a4 := (mem_pts.1 (key1 _ hneg) i).1
    rw [Pi.add_apply, Pi.single_eq_same] at a1 a2 a3 a4
    have h3 := hp i
    rw [(hb i).1, (hb i).2] at h3
    constructor
    · rcases min_choice (c.p0 i) (c.p1 i) with h | h <;> rw [h] at h3 <;> linarith
    · rcases max_choice (c.p0 i) (c.p1 i) with h | h <;> rw [h] at h3 <;> linarith

/-- **C51**: off the axis, `project` gives the nearest surface point. -/
theorem C51_project (hs : IsSqrt sqrt) (c : Tube K n) (hc : c.p0 ≠ c.p1) (hr : 0 ≤ c.radius) (hn : 2 ≤ n)
    (p : Fin n → K) (hp : c.dseg sqrt p ≠ 0) :
    ∃ q, c.capProject sqrt p = some q ∧ IsNearest sqrt (c.capPts sqrt) p q := by
  have hna : c.nearestAxis p = some (c.foot p) := by
    rw [Tube.nearestAxis, if_neg fun h => hc ((axis_zero c).1 h)]
    rfl
  have hp' : p - c.foot p ≠ 0 := fun h => hp (by rw [Tube.dseg, h, (len_eq_zero hs).2 rfl])
  obtain ⟨w, hw, hpw, hτ⟩ := exists_out hs hn c hc p
  have hd0 : 0 < c.dseg sqrt p := len_pos hs hp'
  have e1 : withLength sqrt (p - c.foot p) c.radius = c.radius • w := by
    rw [withLength_eq hs hp']
    have : p - c.foot p = c.dseg sqrt p • w := by
      conv_lhs => rw [hpw]
      rw [show c.foot (c.foot p + c.dseg sqrt p • w) = c.foot p by rw [← hpw]]
      abel
    rw [show len sqrt (p - c.foot p) = c.dseg sqrt p from rfl, this, smul_smul, smul_smul, mul_assoc,
      inv_mul_cancel₀ hd0.ne', mul_one]
  have hsurf : ∀ x ∈ surface sqrt (c.capPts sqrt), c.dseg sqrt x = c.radius := by
    rintro x ⟨h1, h2⟩
    rw [mem_cap hs c hc] at h1
    refine le_antisymm h1 (not_lt.1 fun h3 => ?_)
    obtain ⟨r, h4, h5⟩ := h2 (c.radius - c.dseg sqrt x) (by linarith)
    apply h4
    rw [mem_cap hs c hc]
    have := dseg_lip hs c hc r x
    rw [len_sub_comm hs] at this
    linarith
  refine ⟨c.foot p + c.radius • w, ?_, ⟨⟨?_, fun ε hε => ?_⟩, fun r hr' => ?_⟩⟩
  · rw [Tube.capProject, hna, Option.map_some, e1]
  · rw [mem_cap hs c hc, (hτ _ hr).1]
  · refine ⟨c.foot p + (c.radius + ε / 2) • w, ?_, ?_⟩
    · rw [mem_cap hs c hc, (hτ _ (by linarith)).1]
      intro h
      linarith
    · rw [add_sub_add_left_eq_sub, ← sub_smul, len_smul hs, hw, mul_one, abs_of_nonpos (by linarith)]
      linarith
  · have h1 := hsurf r hr'
    rw [(hτ _ hr).2, abs_le]
    have h2 := dseg_lip hs c hc p r
    have h3 := dseg_lip hs c hc r p
    rw [len_sub_comm hs r p] at h3
    constructor <;> linarith

/-- **C51** refuted for `project` on the axis: the point itself is returned, though it is not on the surface. -/
theorem C51_project_refuted (hs : IsSqrt sqrt) (c : Tube K n) (hc : c.p0 ≠ c.p1) (hr : 0 < c.radius) (p : Fin n → K)
    (hp : c.dseg sqrt p = 0) : c.capProject sqrt p = some p ∧ p ∉ surface sqrt (c.capPts sqrt) := by
  have hp' : p - c.foot p = 0 := (len_eq_zero hs).1 hp
  constructor
  · rw [Tube.capProject, Tube.nearestAxis, if_neg fun h => hc ((axis_zero c).1 h)]
    have h1 : c.p0 + clamp1 (dot (p - c.p0) c.axis / mag2 c.axis) 0 1 • c.axis = p := (sub_eq_zero.1 hp').symm
    rw [h1, Option.map_some, sub_self, withLength, if_pos (by rw [mag2_eq, zero_dotProduct])]
    congr 1
    ext i
    simp
  · rintro ⟨-, h2⟩
    obtain ⟨r, h4, h5⟩ := h2 c.radius hr
    apply h4
    rw [mem_cap hs c hc]
    have := dseg_lip hs c hc r p
    rw [len_sub_comm hs] at this
    linarith

/-! ### Examples -/

example : (⟨![0, 0], ![10, 0], 2⟩ : Tube ℚ 2).capSdf toySqrt ![13, 4] = some 3 := by decide +kernel
example : (⟨![0, 0], ![10, 0], 2⟩ : Tube ℚ 2).capContains toySqrt ![5, 2] = some true := by decide +kernel
example : (⟨![0, 0], ![10, 0], 5⟩ : Tube ℚ 2).capSupport toySqrt ![3, 4] = ![13, 4] := by decide +kernel

end Geomc.Shape
