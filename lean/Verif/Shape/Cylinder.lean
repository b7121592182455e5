import Verif.Shape.Capsule

/-!
# C52: cylinders
-/

namespace Geomc.Shape

open Geomc.Vec Geomc.Rect

variable {K : Type} {n : ℕ} [Field K] [LinearOrder K] [IsStrictOrderedRing K] {sqrt : K → K}

/-- The points of a closed cylinder: along the axis, and across it by at most the radius. -/
def Tube.cylPts (sqrt : K → K) (c : Tube K n) : Set (Fin n → K) :=
  {p | ∃ (t : K) (v : Fin n → K), 0 ≤ t ∧ t ≤ 1 ∧ v ⬝ᵥ (c.p1 - c.p0) = 0 ∧ len sqrt v ≤ c.radius ∧
    p = c.p0 + t • (c.p1 - c.p0) + v}

/-- Cylindrical coordinates. -/
def Tube.ax (c : Tube K n) (p : Fin n → K) : K := ((p - c.p0) ⬝ᵥ c.axis) / (c.axis ⬝ᵥ c.axis)
def Tube.rad (c : Tube K n) (p : Fin n → K) : Fin n → K := p - c.p0 - c.ax p • c.axis

theorem axis_pos (c : Tube K n) (hc : c.p0 ≠ c.p1) : 0 < c.axis ⬝ᵥ c.axis := self_dot_pos (sub_ne_zero.2 (Ne.symm hc))

theorem rad_perp (c : Tube K n) (hc : c.p0 ≠ c.p1) (p : Fin n → K) : c.rad p ⬝ᵥ c.axis = 0 := by
  rw [Tube.rad, sub_dotProduct, smul_dotProduct, Tube.ax, smul_eq_mul, div_mul_cancel₀ _ (axis_pos c hc).ne', sub_self]

omit [IsStrictOrderedRing K] [LinearOrder K] in
theorem recon (c : Tube K n) (p : Fin n → K) : p = c.p0 + c.ax p • c.axis + c.rad p := by
  rw [Tube.rad]
  abel

theorem coords (c : Tube K n) (hc : c.p0 ≠ c.p1) (t : K) (v : Fin n → K) (hv : v ⬝ᵥ c.axis = 0) :
    c.ax (c.p0 + t • c.axis + v) = t ∧ c.rad (c.p0 + t • c.axis + v) = v := by
  have h1 : c.ax (c.p0 + t • c.axis + v) = t := by
    have e : c.p0 + t • c.axis + v - c.p0 = t • c.axis + v := by abel
    rw [Tube.ax, e, add_dotProduct, hv, add_zero, smul_dotProduct, smul_eq_mul, mul_div_cancel_right₀ _ (axis_pos c hc).ne']
  refine ⟨h1, ?_⟩
  rw [Tube.rad, h1]
  abel

theorem pyth (c : Tube K n) (hc : c.p0 ≠ c.p1) (p q : Fin n → K) :
    (p - q) ⬝ᵥ (p - q) = (c.ax p - c.ax q) * (c.ax p - c.ax q) * (c.axis ⬝ᵥ c.axis) +
      (c.rad p - c.rad q) ⬝ᵥ (c.rad p - c.rad q) := by
  have e : p - q = (c.ax p - c.ax q) • c.axis + (c.rad p - c.rad q) := by
    rw [sub_smul, Tube.rad, Tube.rad]
    abel
  have h : (c.rad p - c.rad q) ⬝ᵥ c.axis = 0 := by
    rw [sub_dotProduct, rad_perp c hc, rad_perp c hc, sub_self]
  rw [e]
  generalize c.rad p - c.rad q = y at *
  simp only [add_dotProduct, dotProduct_add, smul_dotProduct, dotProduct_smul, dotProduct_comm c.axis y, h, smul_eq_mul]
  ring

theorem mem_cyl (c : Tube K n) (hc : c.p0 ≠ c.p1) (p : Fin n → K) :
    p ∈ c.cylPts sqrt ↔ 0 ≤ c.ax p ∧ c.ax p ≤ 1 ∧ len sqrt (c.rad p) ≤ c.radius := by
  constructor
  · rintro ⟨t, v, h0, h1, h2, h3, rfl⟩
    obtain ⟨h4, h5⟩ := coords c hc t v h2
    rw [show c.p1 - c.p0 = c.axis from rfl, h4, h5]
    exact ⟨h0, h1, h3⟩
  · rintro ⟨h0, h1, h2⟩
    exact ⟨_, _, h0, h1, rad_perp c hc p, h2, recon c p⟩

theorem axial_le (hs : IsSqrt sqrt) (c : Tube K n) (hc : c.p0 ≠ c.p1) (p q : Fin n → K) :
    |c.ax p - c.ax q| * len sqrt c.axis ≤ len sqrt (p - q) := by
  have h := pyth c hc p q
  have h1 := self_dot_nonneg (c.rad p - c.rad q)
  rw [← len_mul_self hs, ← len_mul_self hs] at h
  refine (mul_self_le_mul_self_iff (mul_nonneg (abs_nonneg _) (len_nonneg hs _)) (len_nonneg hs _)).2 ?_
  rw [mul_mul_mul_comm, abs_mul_abs_self]
  linarith

theorem radial_le (hs : IsSqrt sqrt) (c : Tube K n) (hc : c.p0 ≠ c.p1) (p q : Fin n → K) :
    len sqrt (c.rad p - c.rad q) ≤ len sqrt (p - q) := by
  have h := pyth c hc p q
  rw [← len_mul_self hs (p - q), ← len_mul_self hs (c.rad p - c.rad q)] at h
  have h1 := mul_nonneg (mul_self_nonneg (c.ax p - c.ax q)) (axis_pos c hc).le
  exact (mul_self_le_mul_self_iff (len_nonneg hs _) (len_nonneg hs _)).2 (by linarith)

theorem radial_le' (hs : IsSqrt sqrt) (c : Tube K n) (hc : c.p0 ≠ c.p1) (p q : Fin n → K) :
    len sqrt (c.rad p) - len sqrt (c.rad q) ≤ len sqrt (c.rad p - c.rad q) := by
  have h1 := len_tri hs (c.rad p) (c.rad q) 0
  rw [sub_zero, sub_zero] at h1
  linarith

/-- The scalars of the code. -/
theorem code_scalars (c : Tube K n) (hc : c.p0 ≠ c.p1) (p : Fin n → K) :
    dot c.axis (p - c.p0) / mag2 c.axis = c.ax p ∧
    dot c.axis (p - c.p0) * (dot c.axis (p - c.p0) / mag2 c.axis) = c.ax p * c.ax p * (c.axis ⬝ᵥ c.axis) ∧
    mag2 (p - c.p0) - dot c.axis (p - c.p0) * (dot c.axis (p - c.p0) / mag2 c.axis) = c.rad p ⬝ᵥ c.rad p := by
  have ha := (axis_pos c hc).ne'
  have h1 : dot c.axis (p - c.p0) / mag2 c.axis = c.ax p := by
    rw [dot_eq, mag2_eq, dotProduct_comm, Tube.ax]
  have h2 : dot c.axis (p - c.p0) * (dot c.axis (p - c.p0) / mag2 c.axis) = c.ax p * c.ax p * (c.axis ⬝ᵥ c.axis) := by
    rw [h1, dot_eq, dotProduct_comm]
    rw [show (p - c.p0) ⬝ᵥ c.axis = c.ax p * (c.axis ⬝ᵥ c.axis) by rw [Tube.ax, div_mul_cancel₀ _ ha]]
    ring
  refine ⟨h1, h2, ?_⟩
  rw [h2, mag2_eq]
  have h3 : (p - c.p0) = c.ax p • c.axis + c.rad p := by
    rw [Tube.rad]
    abel
  have h4 := rad_perp c hc p
  rw [h3]
  simp only [add_dotProduct, dotProduct_add, smul_dotProduct, dotProduct_smul, dotProduct_comm c.axis (c.rad p), h4, smul_eq_mul]
  ring

/-- **C52**, containment: exactly the closed cylinder without its far cap. -/
theorem C52_contains_iff (hs : IsSqrt sqrt) (c : Tube K n) (hc : c.p0 ≠ c.p1) (hr : 0 ≤ c.radius) (p : Fin n → K) :
    ∃ b, c.cylContains p = some b ∧
      (b = true ↔ p ∈ c.cylPts sqrt ∧ (p - c.p0) ⬝ᵥ (c.p1 - c.p0) ≠ (c.p1 - c.p0) ⬝ᵥ (c.p1 - c.p0)) := by
  have ha := axis_pos c hc
  obtain ⟨h1, h2, h3⟩ := code_scalars c hc p
  refine ⟨_, by unfold Tube.cylContains; simp only; rw [if_neg fun h => hc ((axis_zero c).1 h)], ?_⟩
  rw [mul_div_assoc, h3, h2, Bool.and_eq_true, Bool.and_eq_true, decide_eq_true_eq, decide_eq_true_eq, decide_eq_true_eq,
    mem_cyl c hc, ← len_le_iff hs hr]
  have e1 : dot c.axis (p - c.p0) = c.ax p * (c.axis ⬝ᵥ c.axis) := by
    rw [dot_eq, dotProduct_comm, Tube.ax, div_mul_cancel₀ _ ha.ne']
  have e2 : (p - c.p0) ⬝ᵥ (c.p1 - c.p0) = c.ax p * (c.axis ⬝ᵥ c.axis) := by
    rw [Tube.ax, div_mul_cancel₀ _ ha.ne', Tube.axis]
  have e3 : (p - c.p0) ⬝ᵥ (c.p1 - c.p0) ≠ (c.p1 - c.p0) ⬝ᵥ (c.p1 - c.p0) ↔ c.ax p ≠ 1 := by
    rw [e2, show (c.p1 - c.p0) ⬝ᵥ (c.p1 - c.p0) = 1 * (c.axis ⬝ᵥ c.axis) by rw [one_mul]; rfl, Ne, mul_left_inj' ha.ne']
  rw [e3, e1]
  have h0 : 0 ≤ c.ax p * (c.axis ⬝ᵥ c.axis) ↔ 0 ≤ c.ax p := mul_nonneg_iff_of_pos_right ha
  have h4 : c.ax p * c.ax p * (c.axis ⬝ᵥ c.axis) < c.axis ⬝ᵥ c.axis ↔ c.ax p * c.ax p < 1 := by
    constructor
    · intro h
      by_contra h'
      push Not at h'
      nlinarith
    · intro h
      nlinarith
  rw [h0, mag2_eq, h4]
  constructor
  · rintro ⟨h5, h6, h7⟩
    have : c.ax p < 1 := by
      by_contra h'
      push Not at h'
      nlinarith
    exact ⟨⟨h7, this.le, h5⟩, this.ne⟩
  · rintro ⟨⟨h5, h6, h7⟩, h8⟩
    have := lt_of_le_of_ne h6 h8
    exact ⟨h7, by nlinarith, h5⟩

/-- **C52** refuted: no point of the far cap is contained, though every point of the near cap is. -/
theorem C52_contains_refuted (c : Tube K n) (hc : c.p0 ≠ c.p1) (hr : 0 ≤ c.radius) :
    c.cylContains c.p0 = some true ∧ c.cylContains c.p1 = some false := by
  have ha : ¬ mag2 c.axis = 0 := fun h => hc ((axis_zero c).1 h)
  constructor
  · unfold Tube.cylContains
    simp only
    rw [if_neg ha, sub_self, dot_eq, mag2_eq 0, dotProduct_zero, dotProduct_zero, mul_zero, zero_div, sub_self]
    have h1 : 0 < mag2 c.axis := by
      rw [mag2_eq]
      exact axis_pos c hc
    simp [h1, mul_self_nonneg]
  · unfold Tube.cylContains
    simp only
    rw [if_neg ha, show c.p1 - c.p0 = c.axis from rfl, dot_eq, mag2_eq]
    rw [mag2_eq] at ha
    rw [mul_div_cancel_right₀ _ ha]
    simp

/-- The code's signed distance in cylindrical coordinates. -/
theorem cylSdf_eq (c : Tube K n) (hc : c.p0 ≠ c.p1) (p : Fin n → K) :
    c.cylSdf sqrt p = some ((if max (-c.ax p) (c.ax p - 1) < 0 ∧ len sqrt (c.rad p) - c.radius < 0 then -1 else 1) *
      sqrt (max (len sqrt (c.rad p) - c.radius) 0 * max (len sqrt (c.rad p) - c.radius) 0 +
        max (max (-c.ax p) (c.ax p - 1)) 0 * max (max (-c.ax p) (c.ax p - 1)) 0 * (c.axis ⬝ᵥ c.axis))) := by
  obtain ⟨h1, h2, h3⟩ := code_scalars c hc p
  unfold Tube.cylSdf
  simp only
  rw [if_neg fun h => hc ((axis_zero c).1 h), h3, h1]
  simp only [stdMax_eq, mag2_eq]
  rw [show len sqrt (c.rad p) = sqrt (c.rad p ⬝ᵥ c.rad p) by rw [len, mag2_eq]]

/-- **C52**, signed distance: from outside it is the distance to the cylinder. -/
theorem C52_sdf_outside (hs : IsSqrt sqrt) (c : Tube K n) (hc : c.p0 ≠ c.p1) (hr : 0 ≤ c.radius) (p : Fin n → K)
    (hp : p ∉ c.cylPts sqrt) :
    ∃ s, c.cylSdf sqrt p = some s ∧ IsLeast {x | ∃ q ∈ c.cylPts sqrt, x = len sqrt (p - q)} s := by
  refine ⟨_, cylSdf_eq c hc p, ?_⟩
  have ha := axis_pos c hc
  rw [mem_cyl c hc] at hp
  have hsign : ¬ (max (-c.ax p) (c.ax p - 1) < 0 ∧ len sqrt (c.rad p) - c.radius < 0) := by
    rintro ⟨h1, h2⟩
    rw [max_lt_iff] at h1
    exact hp ⟨by linarith, by linarith, by linarith⟩
  rw [if_neg hsign, one_mul]
  set ρ := max (len sqrt (c.rad p) - c.radius) 0 with hρ
  set σ := max (max (-c.ax p) (c.ax p - 1)) 0 with hσ
  have hρ0 : 0 ≤ ρ := le_max_right _ _
  have hσ0 : 0 ≤ σ := le_max_right _ _
  -- the nearest point
  obtain ⟨t, ht0, ht1, ht⟩ : ∃ t : K, 0 ≤ t ∧ t ≤ 1 ∧ |c.ax p - t| = σ := by
    rcases le_total (c.ax p) 0 with h | h
    · refine ⟨0, le_refl _, zero_le_one, ?_⟩
      rw [hσ, max_eq_left (by linarith : c.ax p - 1 ≤ -c.ax p), max_eq_left (by linarith), sub_zero, abs_of_nonpos h]
    · rcases le_total (c.ax p) 1 with h' | h'
      · refine ⟨c.ax p, h, h', ?_⟩
        rw [hσ, max_eq_right (max_le (by linarith) (by linarith)), sub_self, abs_zero]
      · refine ⟨1, zero_le_one, le_refl _, ?_⟩
        rw [hσ, max_eq_right (by linarith : -c.ax p ≤ c.ax p - 1), max_eq_left (by linarith), abs_of_nonneg (by linarith)]
  obtain ⟨v, hv, hvr, hvd⟩ : ∃ v : Fin n → K, v ⬝ᵥ c.axis = 0 ∧ len sqrt v ≤ c.radius ∧ len sqrt (c.rad p - v) = ρ := by
    rcases le_total (len sqrt (c.rad p)) c.radius with h | h
    · exact ⟨c.rad p, rad_perp c hc p, h, by rw [sub_self, (len_eq_zero hs).2 rfl, hρ, max_eq_right (by linarith)]⟩
    · by_cases h0 : c.rad p = 0
      · exact ⟨c.rad p, rad_perp c hc p, by rw [h0, (len_eq_zero hs).2 rfl]; exact hr,
          by rw [sub_self, hρ, h0, (len_eq_zero hs).2 rfl, max_eq_right (by linarith)]⟩
      · have hl := len_pos hs h0
        refine ⟨c.radius • ((len sqrt (c.rad p))⁻¹ • c.rad p), ?_, ?_, ?_⟩
        · rw [smul_dotProduct, smul_dotProduct, rad_perp c hc p, smul_zero, smul_zero]
        · rw [len_smul hs, (unit_eq hs h0).2, mul_one, abs_of_nonneg hr]
        · have e : c.rad p - c.radius • ((len sqrt (c.rad p))⁻¹ • c.rad p) =
              (len sqrt (c.rad p) - c.radius) • ((len sqrt (c.rad p))⁻¹ • c.rad p) := by
            rw [sub_smul, smul_smul (len sqrt (c.rad p)), mul_inv_cancel₀ hl.ne', one_smul]
          rw [e, len_smul hs, (unit_eq hs h0).2, mul_one, hρ, max_eq_left (by linarith), abs_of_nonneg (by linarith)]
  have hsq : 0 ≤ ρ * ρ + σ * σ * (c.axis ⬝ᵥ c.axis) :=
    add_nonneg (mul_self_nonneg _) (mul_nonneg (mul_self_nonneg _) ha.le)
  have hsn : 0 ≤ sqrt (ρ * ρ + σ * σ * (c.axis ⬝ᵥ c.axis)) := by
    rcases hsq.eq_or_lt with h | h
    · rw [← h, hs.zero]
    · exact (hs.pos _ h).le
  obtain ⟨h4, h5⟩ := coords c hc t v hv
  constructor
  · refine ⟨c.p0 + t • c.axis + v, ⟨t, v, ht0, ht1, hv, hvr, rfl⟩, ?_⟩
    refine (len_eq hs hsn ?_).symm
    rw [hs.sq _ hsq, pyth c hc, h4, h5, ← abs_mul_abs_self (c.ax p - t), ht, ← len_mul_self hs (c.rad p - v), hvd]
    ring
  · rintro x ⟨q, hq, rfl⟩
    rw [mem_cyl c hc] at hq
    obtain ⟨q0, q1, q2⟩ := hq
    refine (mul_self_le_mul_self_iff hsn (len_nonneg hs _)).2 ?_
    rw [hs.sq _ hsq, len_mul_self hs, pyth c hc]
    have b1 : σ ≤ |c.ax p - c.ax q| := by
      refine max_le (max_le ?_ ?_) (abs_nonneg _)
      · exact le_trans (by linarith) (neg_le_abs _)
      · exact le_trans (by linarith) (le_abs_self _)
    have b2 : ρ ≤ len sqrt (c.rad p - c.rad q) := by
      refine max_le ?_ (len_nonneg hs _)
      have := radial_le' hs c hc p q
      linarith
    have b3 := mul_self_le_mul_self hσ0 b1
    have b4 := mul_self_le_mul_self hρ0 b2
    rw [abs_mul_abs_self] at b3
    rw [len_mul_self hs] at b4
    nlinarith

/-- **C52** refuted for the signed distance inside: it is zero at every point of the cylinder. -/
theorem C52_sdf_inside_refuted (hs : IsSqrt sqrt) (c : Tube K n) (hc : c.p0 ≠ c.p1) (p : Fin n → K) (hp : p ∈ c.cylPts sqrt) :
    c.cylSdf sqrt p = some 0 := by
  rw [mem_cyl c hc] at hp
  obtain ⟨h0, h1, h2⟩ := hp
  rw [cylSdf_eq c hc p, max_eq_right (by linarith : len sqrt (c.rad p) - c.radius ≤ 0),
    max_eq_right (max_le (by linarith) (by linarith) : max (-c.ax p) (c.ax p - 1) ≤ 0)]
  simp [hs.zero]

/-! ### Projection -/

theorem cyl_surface_sub (hs : IsSqrt sqrt) (c : Tube K n) (hc : c.p0 ≠ c.p1) (q : Fin n → K)
    (hq : q ∈ surface sqrt (c.cylPts sqrt)) : c.ax q = 0 ∨ c.ax q = 1 ∨ len sqrt (c.rad q) = c.radius := by
  obtain ⟨h1, h2⟩ := hq
  obtain ⟨q0, q1, q2⟩ := (mem_cyl c hc q).1 h1
  by_contra hcon
  push Not at hcon
  obtain ⟨n0, n1, n2⟩ := hcon
  have p0 := lt_of_le_of_ne q0 (Ne.symm n0)
  have p1 := lt_of_le_of_ne q1 n1
  have p2 := lt_of_le_of_ne q2 n2
  have hA : 0 < len sqrt c.axis := len_pos hs (sub_ne_zero.2 (Ne.symm hc))
  set ε := min (min (c.ax q * len sqrt c.axis) ((1 - c.ax q) * len sqrt c.axis)) (c.radius - len sqrt (c.rad q)) with hε
  have hε0 : 0 < ε := lt_min (lt_min (mul_pos p0 hA) (mul_pos (by linarith) hA)) (by linarith)
  obtain ⟨r, hr1, hr2⟩ := h2 ε hε0
  apply hr1
  rw [mem_cyl c hc]
  have e1 : ε ≤ c.ax q * len sqrt c.axis := (min_le_left _ _).trans (min_le_left _ _)
  have e2 : ε ≤ (1 - c.ax q) * len sqrt c.axis := (min_le_left _ _).trans (min_le_right _ _)
  have e3 : ε ≤ c.radius - len sqrt (c.rad q) := min_le_right _ _
  have b1 := axial_le hs c hc q r
  have b2 := radial_le hs c hc q r
  have b3 := radial_le' hs c hc r q
  rw [len_sub_comm hs (c.rad r)] at b3
  have b4 : |c.ax q - c.ax r| * len sqrt c.axis < c.ax q * len sqrt c.axis := by linarith
  have b5 : |c.ax q - c.ax r| * len sqrt c.axis < (1 - c.ax q) * len sqrt c.axis := by linarith
  have b6 := lt_of_mul_lt_mul_right b4 hA.le
  have b7 := lt_of_mul_lt_mul_right b5 hA.le
  rw [abs_lt] at b6 b7
  exact ⟨by linarith, by linarith, by linarith⟩

theorem cyl_surface_sup (hs : IsSqrt sqrt) (hn : 2 ≤ n) (c : Tube K n) (hc : c.p0 ≠ c.p1) (q : Fin n → K)
    (hq : q ∈ c.cylPts sqrt) (h : c.ax q = 0 ∨ c.ax q = 1 ∨ len sqrt (c.rad q) = c.radius) :
    q ∈ surface sqrt (c.cylPts sqrt) := by
  refine ⟨hq, fun ε hε => ?_⟩
  have hA : 0 < len sqrt c.axis := len_pos hs (sub_ne_zero.2 (Ne.symm hc))
  have hstep : 0 < ε / 2 / len sqrt c.axis := div_pos (by linarith) hA
  have hax : ∀ t : K, |t - c.ax q| = ε / 2 / len sqrt c.axis → len sqrt (q - (c.p0 + t • c.axis + c.rad q)) < ε ∧
      c.ax (c.p0 + t • c.axis + c.rad q) = t := by
    intro t ht
    refine ⟨?_, (coords c hc t _ (rad_perp c hc q)).1⟩
    have e : q - (c.p0 + t • c.axis + c.rad q) = (c.ax q - t) • c.axis := by
      rw [sub_smul, Tube.rad]
      abel
    rw [e, len_smul hs, abs_sub_comm, ht, div_mul_cancel₀ _ hA.ne']
    linarith
  rcases h with h | h | h
  · obtain ⟨h1, h2⟩ := hax (c.ax q - ε / 2 / len sqrt c.axis) (by rw [sub_sub_cancel_left, abs_neg, abs_of_pos hstep])
    refine ⟨_, fun hm => ?_, h1⟩
    have := ((mem_cyl c hc _).1 hm).1
    rw [h2, h] at this
    linarith
  · obtain ⟨h1, h2⟩ := hax (c.ax q + ε / 2 / len sqrt c.axis) (by rw [add_sub_cancel_left, abs_of_pos hstep])
    refine ⟨_, fun hm => ?_, h1⟩
    have := ((mem_cyl c hc _).1 hm).2.1
    rw [h2, h] at this
    linarith
  · obtain ⟨u, hu, hua, hur⟩ : ∃ u, len sqrt u = 1 ∧ u ⬝ᵥ c.axis = 0 ∧ c.rad q = len sqrt (c.rad q) • u := by
      by_cases h0 : c.rad q = 0
      · obtain ⟨u, hu, hua⟩ := exists_perp hs hn c.axis
        exact ⟨u, hu, hua, by rw [(len_eq_zero hs).2 h0, zero_smul, h0]⟩
      · exact ⟨_, (unit_eq hs h0).2, by rw [smul_dotProduct, rad_perp c hc, smul_zero],
          by rw [smul_smul, mul_inv_cancel₀ (len_pos hs h0).ne', one_smul]⟩
    have hv : (c.rad q + (ε / 2) • u) ⬝ᵥ c.axis = 0 := by
      rw [add_dotProduct, rad_perp c hc, smul_dotProduct, hua, smul_zero, add_zero]
    refine ⟨c.p0 + c.ax q • c.axis + (c.rad q + (ε / 2) • u), fun hm => ?_, ?_⟩
    · have := ((mem_cyl c hc _).1 hm).2.2
      rw [(coords c hc _ _ hv).2, hur, ← add_smul, len_smul hs, hu, mul_one, h, abs_of_nonneg] at this
      · linarith
      · have : 0 ≤ c.radius := h ▸ len_nonneg hs _
        linarith
    · have e : q - (c.p0 + c.ax q • c.axis + (c.rad q + (ε / 2) • u)) = -((ε / 2) • u) := by
        rw [Tube.rad]
        abel
      rw [e, len_neg hs, len_smul hs, hu, mul_one, abs_of_pos (by linarith)]
      linarith

/-- **C52**: off the axis, `project` gives the nearest surface point. -/
theorem C52_project (hs : IsSqrt sqrt) (hn : 2 ≤ n) (c : Tube K n) (hc : c.p0 ≠ c.p1) (hr : 0 ≤ c.radius) (p : Fin n → K)
    (hp : c.rad p ≠ 0) : ∃ q, c.cylProject sqrt p = some q ∧ IsNearest sqrt (c.cylPts sqrt) p q := by
  obtain ⟨h1, h2, h3⟩ := code_scalars c hc p
  have hℓ : 0 < len sqrt (c.rad p) := len_pos hs hp
  have hA : 0 < len sqrt c.axis := len_pos hs (sub_ne_zero.2 (Ne.symm hc))
  have hsq : sqrt (mag2 (p - c.p0) - dot c.axis (p - c.p0) * (dot c.axis (p - c.p0) / mag2 c.axis)) = len sqrt (c.rad p) := by
    rw [h3, len, mag2_eq]
  have hsA : sqrt (mag2 c.axis) = len sqrt c.axis := rfl
  set u := (len sqrt (c.rad p))⁻¹ • c.rad p with hu
  have hu1 : len sqrt u = 1 := (unit_eq hs hp).2
  have hua : u ⬝ᵥ c.axis = 0 := by rw [hu, smul_dotProduct, rad_perp c hc, smul_zero]
  have hpu : c.rad p = len sqrt (c.rad p) • u := by rw [hu, smul_smul, mul_inv_cancel₀ hℓ.ne', one_smul]
  -- what the code returns
  obtain ⟨s', r', hsr, hcode⟩ : ∃ s' r' : K, (s', r') =
      (if c.ax p < 0 ∨ 1 < c.ax p then (if c.ax p < 0 then 0 else 1, min (len sqrt (c.rad p)) c.radius)
        else if len sqrt (c.rad p) < c.radius ∧ len sqrt c.axis * min (c.ax p) (1 - c.ax p) < c.radius - len sqrt (c.rad p)
          then (if c.ax p < 1 / 2 then 0 else 1, len sqrt (c.rad p))
        else (c.ax p, c.radius)) ∧
      c.cylProject sqrt p = some (c.p0 + s' • c.axis + r' • u) := by
    refine ⟨_, _, Prod.mk.eta, ?_⟩
    unfold Tube.cylProject
    simp only
    rw [if_neg fun h => hc ((axis_zero c).1 h), hsq, if_neg hℓ.ne', h1]
    simp only [stdMin_eq, hsA]
    congr 1
    ext i
    simp only [Pi.add_apply, Pi.smul_apply, smul_eq_mul, hu, Tube.rad, Pi.sub_apply]
    ring
  refine ⟨_, hcode, ?_⟩
  have hv : ∀ x : K, (x • u) ⬝ᵥ c.axis = 0 := fun x => by rw [smul_dotProduct, hua, smul_zero]
  have hax := fun t x => (coords c hc t (x • u) (hv x)).1
  have hrad := fun t x => (coords c hc t (x • u) (hv x)).2
  have hradl : ∀ x : K, 0 ≤ x → len sqrt (x • u) = x := fun x hx => by rw [len_smul hs, hu1, mul_one, abs_of_nonneg hx]
  have hmem : ∀ t x : K, 0 ≤ t → t ≤ 1 → 0 ≤ x → x ≤ c.radius → c.p0 + t • c.axis + x • u ∈ c.cylPts sqrt := by
    intro t x t0 t1 x0 x1
    rw [mem_cyl c hc, hax, hrad, hradl x x0]
    exact ⟨t0, t1, x1⟩
  have hdist : ∀ t x : K, (p - (c.p0 + t • c.axis + x • u)) ⬝ᵥ (p - (c.p0 + t • c.axis + x • u)) =
      (c.ax p - t) * (c.ax p - t) * (c.axis ⬝ᵥ c.axis) + (len sqrt (c.rad p) - x) * (len sqrt (c.rad p) - x) := by
    intro t x
    rw [pyth c hc, hax, hrad]
    conv_lhs => rw [hpu]
    rw [← sub_smul, smul_dotProduct, dotProduct_smul, ← len_mul_self hs u, hu1]
    simp only [smul_eq_mul]
    ring
  -- lower bounds
  have hlow : ∀ r : Fin n → K, (c.ax p - c.ax r) * (c.ax p - c.ax r) * (c.axis ⬝ᵥ c.axis) +
      (len sqrt (c.rad p) - len sqrt (c.rad r)) * (len sqrt (c.rad p) - len sqrt (c.rad r)) ≤ (p - r) ⬝ᵥ (p - r) := by
    intro r
    rw [pyth c hc, ← len_mul_self hs (c.rad p - c.rad r)]
    have b1 := radial_le' hs c hc p r
    have b2 := radial_le' hs c hc r p
    rw [len_sub_comm hs (c.rad r)] at b2
    have : |len sqrt (c.rad p) - len sqrt (c.rad r)| ≤ len sqrt (c.rad p - c.rad r) := by
      rw [abs_le]
      constructor <;> linarith
    have h4 := mul_self_le_mul_self (abs_nonneg _) this
    rw [abs_mul_abs_self] at h4
    linarith
  have hfin : ∀ (q r : Fin n → K), (p - q) ⬝ᵥ (p - q) ≤ (p - r) ⬝ᵥ (p - r) → len sqrt (p - q) ≤ len sqrt (p - r) := by
    intro q r h
    rw [← len_mul_self hs, ← len_mul_self hs] at h
    exact (mul_self_le_mul_self_iff (len_nonneg hs _) (len_nonneg hs _)).2 h
  have ha := axis_pos c hc
  have haA : c.axis ⬝ᵥ c.axis = len sqrt c.axis * len sqrt c.axis := (len_mul_self hs _).symm
  set ℓ := len sqrt (c.rad p) with hℓd
  by_cases hout : c.ax p < 0 ∨ 1 < c.ax p
  · rw [if_pos hout, Prod.mk.injEq] at hsr
    obtain ⟨rfl, rfl⟩ := hsr
    have hx0 : 0 ≤ min ℓ c.radius := le_min hℓ.le hr
    have ht : 0 ≤ (if c.ax p < 0 then (0 : K) else 1) ∧ (if c.ax p < 0 then (0 : K) else 1) ≤ 1 := by
      split_ifs <;> simp
    have hm := hmem _ _ ht.1 ht.2 hx0 (min_le_right _ _)
    refine ⟨cyl_surface_sup hs hn c hc _ hm ?_, fun r hrs => hfin _ _ ((hdist _ _).le.trans (le_trans ?_ (hlow r)))⟩
    · rw [hax]
      split_ifs <;> simp
    · obtain ⟨r0, r1, r2⟩ := (mem_cyl c hc r).1 hrs.1
      have b1 : (c.ax p - if c.ax p < 0 then (0 : K) else 1) * (c.ax p - if c.ax p < 0 then (0 : K) else 1) ≤
          (c.ax p - c.ax r) * (c.ax p - c.ax r) := by
        split_ifs with h
        · nlinarith
        · have : 1 < c.ax p := hout.resolve_left h
          nlinarith
      have b2 : (ℓ - min ℓ c.radius) * (ℓ - min ℓ c.radius) ≤ (ℓ - len sqrt (c.rad r)) * (ℓ - len sqrt (c.rad r)) := by
        rcases le_total ℓ c.radius with h | h
        · rw [min_eq_left h, sub_self, mul_zero]
          exact mul_self_nonneg _
        · rw [min_eq_right h]
          exact mul_self_le_mul_self (by linarith) (by linarith)
      exact add_le_add (mul_le_mul_of_nonneg_right b1 ha.le) b2
  · rw [if_neg hout] at hsr
    push Not at hout
    obtain ⟨s0, s1⟩ := hout
    by_cases hin : ℓ < c.radius ∧ len sqrt c.axis * min (c.ax p) (1 - c.ax p) < c.radius - ℓ
    · rw [if_pos hin, Prod.mk.injEq] at hsr
      obtain ⟨rfl, rfl⟩ := hsr
      have ht : 0 ≤ (if c.ax p < 1 / 2 then (0 : K) else 1) ∧ (if c.ax p < 1 / 2 then (0 : K) else 1) ≤ 1 := by
        split_ifs <;> simp
      have hm := hmem _ ℓ ht.1 ht.2 hℓ.le hin.1.le
      refine ⟨cyl_surface_sup hs hn c hc _ hm ?_, fun r hrs => hfin _ _ ((hdist _ _).le.trans ?_)⟩
      · rw [hax]
        split_ifs <;> simp
      · rw [sub_self, mul_zero, add_zero]
        have hmin : |c.ax p - if c.ax p < 1 / 2 then (0 : K) else 1| = min (c.ax p) (1 - c.ax p) := by
          split_ifs with h
          · rw [sub_zero, abs_of_nonneg s0, min_eq_left (by linarith)]
          · rw [abs_of_nonpos (by linarith), min_eq_right (by linarith)]
            ring
        have hmin0 : 0 ≤ min (c.ax p) (1 - c.ax p) := le_min s0 (by linarith)
        rw [← abs_mul_abs_self (c.ax p - _), hmin]
        refine le_trans ?_ (hlow r)
        rcases cyl_surface_sub hs c hc r hrs with h | h | h
        · rw [h, sub_zero]
          have := mul_le_mul_of_nonneg_right (mul_self_le_mul_self hmin0 (min_le_left (c.ax p) (1 - c.ax p))) ha.le
          have h5 := mul_self_nonneg (ℓ - len sqrt (c.rad r))
          linarith
        · rw [h]
          have := mul_le_mul_of_nonneg_right (mul_self_le_mul_self hmin0 (min_le_right (c.ax p) (1 - c.ax p))) ha.le
          have h5 := mul_self_nonneg (ℓ - len sqrt (c.rad r))
          have h6 : (c.ax p - 1) * (c.ax p - 1) = (1 - c.ax p) * (1 - c.ax p) := by ring
          rw [h6]
          linarith
        · rw [h]
          have h5 := mul_self_le_mul_self (mul_nonneg hA.le hmin0) hin.2.le
          have h6 := mul_nonneg (mul_self_nonneg (c.ax p - c.ax r)) ha.le
          have h7 : min (c.ax p) (1 - c.ax p) * min (c.ax p) (1 - c.ax p) * (c.axis ⬝ᵥ c.axis) =
              len sqrt c.axis * min (c.ax p) (1 - c.ax p) * (len sqrt c.axis * min (c.ax p) (1 - c.ax p)) := by
            rw [haA]
            ring
          have h8 : (ℓ - c.radius) * (ℓ - c.radius) = (c.radius - ℓ) * (c.radius - ℓ) := by ring
          rw [h7, h8]
          linarith
    · rw [if_neg hin, Prod.mk.injEq] at hsr
      obtain ⟨rfl, rfl⟩ := hsr
      have hm := hmem (c.ax p) c.radius s0 s1 hr (le_refl _)
      refine ⟨cyl_surface_sup hs hn c hc _ hm ?_, fun r hrs => hfin _ _ ((hdist _ _).le.trans ?_)⟩
      · rw [hrad, hradl _ hr]
        simp
      · rw [sub_self, mul_zero, zero_mul, zero_add]
        refine le_trans ?_ (hlow r)
        obtain ⟨r0, r1, r2⟩ := (mem_cyl c hc r).1 hrs.1
        have hnn := mul_nonneg (mul_self_nonneg (c.ax p - c.ax r)) ha.le
        rcases le_total c.radius ℓ with h | h
        · have := mul_self_le_mul_self (sub_nonneg.2 h) (show ℓ - c.radius ≤ ℓ - len sqrt (c.rad r) by linarith)
          linarith
        · rcases h.eq_or_lt with h' | h'
          · rw [h', sub_self, mul_zero]
            exact add_nonneg (mul_nonneg (mul_self_nonneg _) ha.le) (mul_self_nonneg _)
          have hge : c.radius - ℓ ≤ len sqrt c.axis * min (c.ax p) (1 - c.ax p) := by
            by_contra h6
            exact hin ⟨h', not_le.1 h6⟩
          have hge0 : 0 ≤ c.radius - ℓ := by linarith
          have key : ∀ x : K, min (c.ax p) (1 - c.ax p) ≤ x → (ℓ - c.radius) * (ℓ - c.radius) ≤ x * x * (c.axis ⬝ᵥ c.axis) := by
            intro x hx
            have h7 := mul_self_le_mul_self hge0 (hge.trans (mul_le_mul_of_nonneg_left hx hA.le))
            have h8 : x * x * (c.axis ⬝ᵥ c.axis) = len sqrt c.axis * x * (len sqrt c.axis * x) := by
              rw [haA]
              ring
            have h9 : (ℓ - c.radius) * (ℓ - c.radius) = (c.radius - ℓ) * (c.radius - ℓ) := by ring
            rw [h8, h9]
            exact h7
          have h5 := mul_self_nonneg (ℓ - len sqrt (c.rad r))
          rcases cyl_surface_sub hs c hc r hrs with h6 | h6 | h6
          · have := key (c.ax p) (min_le_left _ _)
            rw [h6, sub_zero]
            linarith
          · have := key (1 - c.ax p) (min_le_right _ _)
            have h9 : (c.ax p - 1) * (c.ax p - 1) = (1 - c.ax p) * (1 - c.ax p) := by ring
            rw [h6, h9]
            linarith
          · rw [h6]
            linarith

/-- **C52** refuted for `project` of points on the line of the axis: division by zero. -/
theorem C52_project_refuted (hs : IsSqrt sqrt) (c : Tube K n) (t : K) : c.cylProject sqrt (c.p0 + t • (c.p1 - c.p0)) = none := by
  by_cases hc : c.p0 = c.p1
  · unfold Tube.cylProject
    simp only
    rw [if_pos ((axis_zero c).2 hc)]
  · obtain ⟨h1, h2, h3⟩ := code_scalars c hc (c.p0 + t • (c.p1 - c.p0))
    have hrad : c.rad (c.p0 + t • (c.p1 - c.p0)) = 0 := by
      have := (coords c hc t 0 (zero_dotProduct _)).2
      rwa [add_zero] at this
    unfold Tube.cylProject
    simp only
    rw [if_neg fun h => hc ((axis_zero c).1 h), h3, hrad, zero_dotProduct, hs.zero, if_pos rfl]

/-! ### Support and bounds -/

omit [IsStrictOrderedRing K] in
theorem projectOn_axis [IsStrictOrderedRing K] (c : Tube K n) (hc : c.p0 ≠ c.p1) (d : Fin n → K) :
    projectOn d c.axis = ((d ⬝ᵥ c.axis) / (c.axis ⬝ᵥ c.axis)) • c.axis := by
  rw [projectOn, if_pos (by rw [Ne, axis_zero]; exact hc)]
  ext i
  rw [dot_eq, mag2_eq, Pi.smul_apply, smul_eq_mul, mul_div_assoc, mul_comm]

/-- The part of a vector across the axis. -/
def Tube.across (c : Tube K n) (d : Fin n → K) : Fin n → K := d - ((d ⬝ᵥ c.axis) / (c.axis ⬝ᵥ c.axis)) • c.axis

theorem across_perp (c : Tube K n) (hc : c.p0 ≠ c.p1) (d : Fin n → K) : c.across d ⬝ᵥ c.axis = 0 := by
  rw [Tube.across, sub_dotProduct, smul_dotProduct, smul_eq_mul, div_mul_cancel₀ _ (axis_pos c hc).ne', sub_self]

omit [IsStrictOrderedRing K] [LinearOrder K] in
theorem dot_across (c : Tube K n) (d v : Fin n → K) (hv : v ⬝ᵥ c.axis = 0) : v ⬝ᵥ d = v ⬝ᵥ c.across d := by
  rw [Tube.across, dotProduct_sub, dotProduct_smul, hv, smul_zero, sub_zero]

/-- **C52**: the support function, for directions not along the axis. -/
theorem C52_support (hs : IsSqrt sqrt) (c : Tube K n) (hc : c.p0 ≠ c.p1) (hr : 0 ≤ c.radius) (d : Fin n → K) :
    (c.cylSupport sqrt d = none ↔ ∃ k : K, d = k • (c.p1 - c.p0)) ∧
    ∀ x, c.cylSupport sqrt d = some x → IsSupport (c.cylPts sqrt) d x := by
  have hcode : c.cylSupport sqrt d = (unit sqrt (c.across d)).map fun u i =>
      (if 0 < dot d c.axis then c.p1 else c.p0) i + u i * c.radius := by
    rw [Tube.cylSupport, projectOn_axis c hc]
    rfl
  refine ⟨?_, fun x hx => ?_⟩
  · rw [hcode, Option.map_eq_none_iff, unit_none hs]
    constructor
    · intro h
      exact ⟨_, sub_eq_zero.1 h⟩
    · rintro ⟨k, rfl⟩
      rw [Tube.across, show c.p1 - c.p0 = c.axis from rfl, smul_dotProduct, smul_eq_mul,
        mul_div_cancel_right₀ _ (axis_pos c hc).ne', sub_self]
  · by_cases h0 : c.across d = 0
    · rw [hcode, (unit_none hs _).2 h0] at hx
      cases hx
    obtain ⟨u1, u2⟩ := unit_eq hs h0
    rw [hcode, u1, Option.map_some, Option.some.injEq] at hx
    subst hx
    set u := (len sqrt (c.across d))⁻¹ • c.across d with hu
    have hua : u ⬝ᵥ c.axis = 0 := by rw [hu, smul_dotProduct, across_perp c hc, smul_zero]
    have hud : u ⬝ᵥ d = len sqrt (c.across d) := by rw [dot_across c d u hua, unit_dot hs h0]
    have hvu : (c.radius • u) ⬝ᵥ c.axis = 0 := by rw [smul_dotProduct, hua, smul_zero]
    have hlu : len sqrt (c.radius • u) ≤ c.radius := by rw [len_smul hs, u2, mul_one, abs_of_nonneg hr]
    have e : (fun i => (if 0 < dot d c.axis then c.p1 else c.p0) i + u i * c.radius) =
        (if 0 < dot d c.axis then c.p1 else c.p0) + c.radius • u := by
      ext i
      simp only [Pi.add_apply, Pi.smul_apply, smul_eq_mul]
      ring
    rw [e]
    have hda : dot d c.axis = c.p1 ⬝ᵥ d - c.p0 ⬝ᵥ d := by rw [dot_eq, dotProduct_comm, Tube.axis, sub_dotProduct]
    constructor
    · by_cases h : 0 < dot d c.axis
      · rw [if_pos h]
        exact ⟨1, _, zero_le_one, le_refl _, hvu, hlu, by rw [one_smul, add_sub_cancel]⟩
      · rw [if_neg h]
        exact ⟨0, _, le_refl _, zero_le_one, hvu, hlu, by rw [zero_smul, add_zero]⟩
    · rintro q ⟨t, v, h0', h1', hv, hl, rfl⟩
      have h3 : v ⬝ᵥ d ≤ c.radius * len sqrt (c.across d) := by
        rw [dot_across c d v hv]
        exact (dot_le_len hs _ _).trans (mul_le_mul_of_nonneg_right hl (len_nonneg hs _))
      rw [dot_eq, dot_eq, add_dotProduct, add_dotProduct, add_dotProduct, smul_dotProduct, smul_dotProduct, hud,
        sub_dotProduct, smul_eq_mul, smul_eq_mul]
      by_cases h : 0 < dot d c.axis
      · rw [if_pos h]
        rw [hda] at h
        nlinarith
      · rw [if_neg h]
        rw [hda] at h
        push Not at h
        nlinarith

/-- **C52**: the bounds are the smallest box around the cylinder. -/
theorem C52_bounds (hs : IsSqrt sqrt) (c : Tube K n) (hc : c.p0 ≠ c.p1) (hr : 0 ≤ c.radius) :
    ∃ b, c.cylBounds sqrt = some b ∧ IsHull (c.cylPts sqrt) b := by
  have ha := axis_pos c hc
  set e : Fin n → Fin n → K := fun i => c.across (Pi.single i 1) with he
  have hee : ∀ i, e i ⬝ᵥ e i = 1 - c.axis i * c.axis i / mag2 c.axis := by
    intro i
    rw [he]
    simp only
    rw [← dot_across c (Pi.single i 1) _ (across_perp c hc _), dotProduct_single, mul_one, Tube.across, Pi.sub_apply,
      Pi.smul_apply, Pi.single_eq_same, single_dotProduct, one_mul, mag2_eq, smul_eq_mul]
    ring
  have hlen : ∀ i, sqrt (1 - c.axis i * c.axis i / mag2 c.axis) = len sqrt (e i) := by
    intro i
    rw [len, mag2_eq (e i), hee i]
  have hcoord : ∀ (v : Fin n → K) (i : Fin n), v ⬝ᵥ c.axis = 0 → v i = v ⬝ᵥ e i := by
    intro v i hv
    rw [he]
    simp only
    rw [← dot_across c _ v hv, dotProduct_single, mul_one]
  refine ⟨_, by unfold Tube.cylBounds; simp only; rw [if_neg fun h => hc ((axis_zero c).1 h)], ?_, ?_⟩
  · rintro p ⟨t, v, h0, h1, hv, hl, rfl⟩
    rw [mem_pts]
    intro i
    simp only [Box.union, vmin_apply, vmax_apply, Pi.sub_apply, Pi.add_apply, Pi.smul_apply, smul_eq_mul, hlen]
    have h2 : |v i| ≤ c.radius * len sqrt (e i) := by
      rw [abs_le]
      have b1 := dot_le_len hs v (e i)
      have b2 := dot_le_len hs (-v) (e i)
      rw [neg_dotProduct, len_neg hs] at b2
      rw [hcoord v i hv]
      have b3 := mul_le_mul_of_nonneg_right hl (len_nonneg hs (e i))
      constructor <;> linarith
    rw [abs_le] at h2
    have h4 := min_le_left (c.p0 i - c.radius * len sqrt (e i)) (c.p1 i - c.radius * len sqrt (e i))
    have h5 := min_le_right (c.p0 i - c.radius * len sqrt (e i)) (c.p1 i - c.radius * len sqrt (e i))
    have h6 := le_max_left (c.p0 i + c.radius * len sqrt (e i)) (c.p1 i + c.radius * len sqrt (e i))
    have h7 := le_max_right (c.p0 i + c.radius * len sqrt (e i)) (c.p1 i + c.radius * len sqrt (e i))
    constructor <;> nlinarith
  · intro b hsub p hp
    rw [mem_pts] at hp ⊢
    intro i
    -- a radial vector reaching the extent along the axis
    obtain ⟨v, hv, hl, hvi⟩ : ∃ v : Fin n → K, v ⬝ᵥ c.axis = 0 ∧ len sqrt v ≤ c.radius ∧ v i = c.radius * len sqrt (e i) := by
      by_cases h0 : e i = 0
      · exact ⟨0, zero_dotProduct _, by rw [(len_eq_zero hs).2 rfl]; exact hr, by
          rw [h0, (len_eq_zero hs).2 rfl, mul_zero]; rfl⟩
      · have hpe := across_perp c hc (Pi.single i 1)
        have hv : (c.radius • ((len sqrt (e i))⁻¹ • e i)) ⬝ᵥ c.axis = 0 := by
          rw [smul_dotProduct, smul_dotProduct, hpe, smul_zero, smul_zero]
        refine ⟨_, hv, ?_, ?_⟩
        · rw [len_smul hs, (unit_eq hs h0).2, mul_one, abs_of_nonneg hr]
        · rw [hcoord _ i hv, smul_dotProduct, unit_dot hs h0, smul_eq_mul]
    have hnv : (-v) ⬝ᵥ c.axis = 0 := by rw [neg_dotProduct, hv, neg_zero]
    have hnl : len sqrt (-v) ≤ c.radius := by rw [len_neg hs]; exact hl
    have k1 := mem_pts.1 (hsub ⟨0, v, le_refl _, zero_le_one, hv, hl, rfl⟩) i
    have k2 := mem_pts.1 (hsub ⟨1, v, zero_le_one, le_refl _, hv, hl, rfl⟩) i
    have k3 := mem_pts.1 (hsub ⟨0, -v, le_refl _, zero_le_one, hnv, hnl, rfl⟩) i
    have k4 := mem_pts.1 (hsub ⟨1, -v, zero_le_one, le_refl _, hnv, hnl, rfl⟩) i
    simp only [zero_smul, add_zero, one_smul, add_sub_cancel, Pi.add_apply, Pi.neg_apply, hvi] at k1 k2 k3 k4
    have h3 := hp i
    simp only [Box.union, vmin_apply, vmax_apply, Pi.sub_apply, Pi.add_apply, hlen] at h3
    constructor
    · rcases min_choice (c.p0 i - c.radius * len sqrt (e i)) (c.p1 i - c.radius * len sqrt (e i)) with h | h <;>
        rw [h] at h3 <;> linarith
    · rcases max_choice (c.p0 i + c.radius * len sqrt (e i)) (c.p1 i + c.radius * len sqrt (e i)) with h | h <;>
        rw [h] at h3 <;> linarith

/-! ### Rays -/

/-- A parameter in a returned interval. -/
def InIval (iv : Ext K × Ext K) (t : K) : Prop := iv.1 ≤ ((t : K) : Ext K) ∧ ((t : K) : Ext K) ≤ iv.2

omit [IsStrictOrderedRing K] [Field K] in
theorem inIval_ival [Field K] (x y t : K) : InIval (ival x y) t ↔ min x y ≤ t ∧ t ≤ max x y := by
  simp [InIval, ival, stdMin_eq, stdMax_eq, WithBot.coe_le_coe]

omit [IsStrictOrderedRing K] [Field K] in
theorem inIval_full [Field K] (t : K) : InIval (full : Ext K × Ext K) t := by
  simp [InIval, full, WithBot.coe_le_coe]

omit [IsStrictOrderedRing K] [Field K] in
theorem inIval_meet [Field K] (x y : Ext K × Ext K) (t : K) : InIval (meet x y) t ↔ InIval x t ∧ InIval y t := by
  simp only [InIval, meet, stdMin_eq, stdMax_eq, max_le_iff, le_min_iff]
  tauto

theorem div_nonneg_pos {x y : K} (hy : 0 < y) : 0 ≤ x / y ↔ 0 ≤ x := by
  rw [le_div_iff₀ hy, zero_mul]

theorem div_nonpos_pos {x y : K} (hy : 0 < y) : x / y ≤ 0 ↔ x ≤ 0 := by
  rw [div_le_iff₀ hy, zero_mul]

/-- The cylinder along a ray. -/
theorem ray_coords (hs : IsSqrt sqrt) (c : Tube K n) (hc : c.p0 ≠ c.p1) (hr : 0 ≤ c.radius) (o v : Fin n → K) (t : K) :
    o + t • v ∈ c.cylPts sqrt ↔
      (0 ≤ dot c.axis (o - c.p0) + t * dot v c.axis ∧ dot c.axis (o - c.p0) + t * dot v c.axis ≤ mag2 c.axis) ∧
      (c.across v ⬝ᵥ c.across v) * t * t + 2 * (c.rad o ⬝ᵥ c.across v) * t + (c.rad o ⬝ᵥ c.rad o - c.radius * c.radius) ≤ 0 := by
  have ha := axis_pos c hc
  have e1 : (o + t • v - c.p0) = (o - c.p0) + t • v := by abel
  have e2 : c.ax (o + t • v) = (dot c.axis (o - c.p0) + t * dot v c.axis) / (c.axis ⬝ᵥ c.axis) := by
    rw [Tube.ax, e1, add_dotProduct, smul_dotProduct, dot_eq, dot_eq, dotProduct_comm c.axis (o - c.p0), smul_eq_mul]
  have e3 : c.rad (o + t • v) = c.rad o + t • c.across v := by
    rw [Tube.rad, e2, e1, Tube.rad, Tube.across, Tube.ax, dot_eq, dot_eq, dotProduct_comm c.axis (o - c.p0), add_div, add_smul,
      smul_sub, smul_smul, mul_div_assoc]
    abel
  rw [mem_cyl c hc, len_le_iff hs hr, e2, e3, div_nonneg_pos ha, div_le_one ha, mag2_eq, ← and_assoc]
  apply and_congr_right
  intro _
  rw [add_dotProduct, dotProduct_add, dotProduct_add, smul_dotProduct, dotProduct_smul, smul_dotProduct, dotProduct_smul,
    dotProduct_comm (c.across v) (c.rad o)]
  simp only [smul_eq_mul]
  constructor <;> intro h <;> linarith

/-- The quadratic coefficients of the code. -/
theorem ray_scalars (c : Tube K n) (hc : c.p0 ≠ c.p1) (o v : Fin n → K) :
    mag2 v - dot v c.axis * dot v c.axis / mag2 c.axis = c.across v ⬝ᵥ c.across v ∧
    dot (o - c.p0) v - dot c.axis (o - c.p0) * dot v c.axis / mag2 c.axis = c.rad o ⬝ᵥ c.across v := by
  have ha := (axis_pos c hc).ne'
  constructor
  · rw [← dot_across c v _ (across_perp c hc v), Tube.across, sub_dotProduct, smul_dotProduct, mag2_eq, mag2_eq, dot_eq,
      dotProduct_comm c.axis v, smul_eq_mul]
    ring
  · rw [← dot_across c v _ (rad_perp c hc o), Tube.rad, sub_dotProduct, smul_dotProduct, mag2_eq, dot_eq, dot_eq, dot_eq,
      dotProduct_comm c.axis v, dotProduct_comm c.axis (o - c.p0), Tube.ax, smul_eq_mul]
    ring

/-- Between the caps. -/
theorem caps_iff (d m a2 t : K) (hm : m ≠ 0) (ha : 0 < a2) :
    (min (-d / m) (-(d - a2) / m) ≤ t ∧ t ≤ max (-d / m) (-(d - a2) / m)) ↔ 0 ≤ d + t * m ∧ d + t * m ≤ a2 := by
  rw [between_iff]
  have h1 : (t - -d / m) * (t - -(d - a2) / m) = (d + t * m) * (d + t * m - a2) / (m * m) := by
    field_simp
    ring
  have hmm : 0 < m * m := mul_self_pos.2 hm
  rw [h1, div_nonpos_pos hmm]
  constructor
  · intro h
    constructor
    · by_contra h'
      push Not at h'
      nlinarith
    · by_contra h'
      push Not at h'
      nlinarith
  · rintro ⟨h2, h3⟩
    nlinarith

/-- **C52**: ray intersection is exact, except for rays running along the wall. -/
theorem C52_ray (hs : IsSqrt sqrt) (c : Tube K n) (hc : c.p0 ≠ c.p1) (hr : 0 ≤ c.radius) (o v : Fin n → K)
    (hwall : ¬ (c.across v = 0 ∧ len sqrt (c.rad o) = c.radius)) :
    ∃ res, c.cylRay sqrt o v = some res ∧
      (res = none → ∀ t : K, o + t • v ∉ c.cylPts sqrt) ∧
      ∀ iv, res = some iv → ∀ t : K, InIval iv t ↔ o + t • v ∈ c.cylPts sqrt := by
  have ha := axis_pos c hc
  have hm2 : 0 < mag2 c.axis := by rw [mag2_eq]; exact ha
  obtain ⟨e1, e2⟩ := ray_scalars c hc o v
  obtain ⟨f1, f2, f3⟩ := code_scalars c hc o
  have hz : dot c.axis (o - c.p1) = dot c.axis (o - c.p0) - mag2 c.axis := by
    rw [dot_eq, dot_eq, mag2_eq, ← dotProduct_sub]
    congr 1
    rw [Tube.axis]
    abel
  have hax : ∀ x, c.ax o = x → dot c.axis (o - c.p0) = x * mag2 c.axis := by
    rintro x rfl
    rw [← f1, div_mul_cancel₀ _ hm2.ne']
  unfold Tube.cylRay
  simp only
  rw [if_neg fun h => hc ((axis_zero c).1 h), e1, e2, f3, f1, hz]
  refine ⟨_, rfl, ?_⟩
  -- the wall
  have wall : ∀ w : Option (Ext K × Ext K), w = wallSpan sqrt (c.across v ⬝ᵥ c.across v) (2 * (c.rad o ⬝ᵥ c.across v))
      (c.rad o ⬝ᵥ c.rad o - c.radius * c.radius) →
      (w = none → ∀ t : K, ¬ ((c.across v ⬝ᵥ c.across v) * t * t + 2 * (c.rad o ⬝ᵥ c.across v) * t +
        (c.rad o ⬝ᵥ c.rad o - c.radius * c.radius) ≤ 0)) ∧
      ∀ iv, w = some iv → ∀ t : K, InIval iv t ↔ (c.across v ⬝ᵥ c.across v) * t * t + 2 * (c.rad o ⬝ᵥ c.across v) * t +
        (c.rad o ⬝ᵥ c.rad o - c.radius * c.radius) ≤ 0 := by
    intro w hw
    unfold wallSpan at hw
    by_cases h0 : c.across v = 0
    · rw [if_neg (by rw [h0, zero_dotProduct]; simp)] at hw
      simp only at hw
      have hk2 : c.rad o ⬝ᵥ c.rad o - c.radius * c.radius ≠ 0 := by
        intro h
        exact hwall ⟨h0, len_eq hs hr (by linarith)⟩
      have e : ∀ t : K, (c.across v ⬝ᵥ c.across v) * t * t + 2 * (c.rad o ⬝ᵥ c.across v) * t +
        (c.rad o ⬝ᵥ c.rad o - c.radius * c.radius) = c.rad o ⬝ᵥ c.rad o - c.radius * c.radius := by
        intro t
        rw [h0, zero_dotProduct, dotProduct_zero]
        ring
      by_cases hk : c.rad o ⬝ᵥ c.rad o - c.radius * c.radius < 0
      · rw [if_pos hk] at hw
        subst hw
        refine ⟨fun h => (by cases h), fun iv h t => ?_⟩
        cases h
        rw [e]
        exact ⟨fun _ => hk.le, fun _ => inIval_full t⟩
      · rw [if_neg hk] at hw
        subst hw
        refine ⟨fun _ t h => ?_, fun iv h => (by cases h)⟩
        rw [e] at h
        exact hk (lt_of_le_of_ne h hk2)
    · have hpos : 0 < c.across v ⬝ᵥ c.across v := self_dot_pos h0
      rw [if_pos hpos.ne'] at hw
      obtain ⟨q1, q2⟩ := quad_nonpos hs (b := 2 * (c.rad o ⬝ᵥ c.across v))
        (c := c.rad o ⬝ᵥ c.rad o - c.radius * c.radius) hpos
      cases hq : quadSolve sqrt (c.across v ⬝ᵥ c.across v) (2 * (c.rad o ⬝ᵥ c.across v))
        (c.rad o ⬝ᵥ c.rad o - c.radius * c.radius) with
      | none =>
        rw [hq] at hw
        simp only at hw
        have h1 := q1 hq
        have h2 := h1 0
        rw [mul_zero, mul_zero, zero_add, zero_add] at h2
        rw [if_neg (not_lt.2 h2.le)] at hw
        subst hw
        exact ⟨fun _ t => not_le.2 (h1 t), fun iv h => (by cases h)⟩
      | some r =>
        rw [hq] at hw
        simp only at hw
        subst hw
        refine ⟨fun h => (by cases h), fun iv h t => ?_⟩
        cases h
        rw [inIval_ival, q2 r hq t]
  generalize hw : wallSpan sqrt (c.across v ⬝ᵥ c.across v) (2 * (c.rad o ⬝ᵥ c.across v))
      (c.rad o ⬝ᵥ c.rad o - c.radius * c.radius) = w at *
  obtain ⟨w1, w2⟩ := wall w rfl
  clear wall
  cases w with
  | none =>
    refine ⟨fun _ t h => ?_, fun iv h => (by cases h)⟩
    rw [ray_coords hs c hc hr] at h
    exact w1 rfl t h.2
  | some iv =>
    rw [Option.bind_some]
    have hiv := w2 iv rfl
    by_cases hm : dot v c.axis = 0
    · rw [if_neg (not_not.2 hm)]
      by_cases ho : c.ax o < 0 ∨ 1 < c.ax o
      · rw [if_pos ho]
        refine ⟨fun _ t h => ?_, fun iv h => (by cases h)⟩
        rw [ray_coords hs c hc hr, hm, mul_zero, add_zero, hax _ rfl] at h
        rcases ho with ho | ho
        · exact absurd h.1.1 (not_le.2 (mul_neg_of_neg_of_pos ho hm2))
        · nlinarith [h.1.2]
      · rw [if_neg ho]
        push Not at ho
        refine ⟨fun h => (by cases h), fun iv' h t => ?_⟩
        cases h
        rw [ray_coords hs c hc hr, hm, mul_zero, add_zero, hax _ rfl, hiv t]
        constructor
        · intro h
          exact ⟨⟨mul_nonneg ho.1 hm2.le, by nlinarith [ho.2]⟩, h⟩
        · exact fun h => h.2
    · rw [if_pos hm]
      refine ⟨fun h => (by cases h), fun iv' h t => ?_⟩
      cases h
      rw [inIval_meet, inIval_ival, caps_iff _ _ _ _ hm hm2, ray_coords hs c hc hr, hiv t]
      tauto

/-- **C52** refuted: a ray along the wall is reported to miss. -/
theorem C52_ray_refuted (hs : IsSqrt sqrt) (c : Tube K n) (hc : c.p0 ≠ c.p1) (o : Fin n → K) (k : K)
    (ho : len sqrt (c.rad o) = c.radius) : c.cylRay sqrt o (k • (c.p1 - c.p0)) = some none := by
  have h0 : c.across (k • (c.p1 - c.p0)) = 0 := by
    rw [Tube.across, show c.p1 - c.p0 = c.axis from rfl, smul_dotProduct, smul_eq_mul,
      mul_div_cancel_right₀ _ (axis_pos c hc).ne', sub_self]
  obtain ⟨e1, e2⟩ := ray_scalars c hc o (k • (c.p1 - c.p0))
  obtain ⟨f1, f2, f3⟩ := code_scalars c hc o
  have hk : c.rad o ⬝ᵥ c.rad o - c.radius * c.radius = 0 := by rw [← ho, len_mul_self hs, sub_self]
  unfold Tube.cylRay
  simp only
  rw [if_neg fun h => hc ((axis_zero c).1 h), e1, e2, f3, h0, zero_dotProduct, hk]
  simp [wallSpan]

/-! ### Examples -/

example : (⟨![0, 0], ![10, 0], 2⟩ : Tube ℚ 2).cylContains ![5, 2] = some true := by decide +kernel
example : (⟨![0, 0], ![10, 0], 2⟩ : Tube ℚ 2).cylContains ![10, 1] = some false := by decide +kernel
example : (⟨![0, 0], ![10, 0], 2⟩ : Tube ℚ 2).cylSdf toySqrt ![13, 6] = some 5 := by decide +kernel
example : (⟨![0, 0], ![10, 0], 2⟩ : Tube ℚ 2).cylSdf toySqrt ![5, 1] = some 0 := by decide +kernel
example : (⟨![0, 0], ![10, 0], 4⟩ : Tube ℚ 2).cylProject toySqrt ![8, 1] = some ![10, 1] := by decide +kernel
example : (⟨![0, 0], ![10, 0], 2⟩ : Tube ℚ 2).cylSupport toySqrt ![1, 3] = some ![10, 2] := by decide +kernel

end Geomc.Shape
