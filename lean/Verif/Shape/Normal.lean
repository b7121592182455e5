import Verif.Shape.NormalModel
import Verif.Shape.Capsule
import Verif.Shape.Cylinder
import Verif.Shape.Defaults
import Verif.Shape.Dilated

/-!
# C89: outward normals

A normal at a point is right if going back along it by the signed distance leads to a point of the solid, and the whole solid lies
behind the plane through that point across the normal.
-/

namespace Geomc.Shape

open Geomc.Vec Geomc.Rect Geomc.Util

variable {K : Type} {n : ℕ} [Field K] [LinearOrder K]

/-- `u` is an outward unit normal of the solid `S` for the point `p`. -/
def IsNormal (sqrt : K → K) (S : Set (Fin n → K)) (p u : Fin n → K) : Prop :=
  ∃ (s : K) (q : Fin n → K), IsSDist sqrt S p s ∧ q ∈ S ∧ len sqrt u = 1 ∧ p = q + s • u ∧ ∀ x ∈ S, (x - q) ⬝ᵥ u ≤ 0

variable [IsStrictOrderedRing K] {sqrt : K → K}

theorem dot_self_one (hs : IsSqrt sqrt) {u : Fin n → K} (hu : len sqrt u = 1) : u ⬝ᵥ u = 1 := by
  rw [← len_mul_self hs, hu, mul_one]

/-- Beyond the foot of a normal there are only outside points. -/
theorem past_not_mem (hs : IsSqrt sqrt) (S : Set (Fin n → K)) (q u : Fin n → K) (hu : len sqrt u = 1)
    (hb : ∀ x ∈ S, (x - q) ⬝ᵥ u ≤ 0) (s : K) (h : 0 < s) : q + s • u ∉ S := fun hm => by
  have := hb _ hm
  rw [add_sub_cancel_left, smul_dotProduct, dot_self_one hs hu, smul_eq_mul, mul_one] at this
  linarith

/-- The length from the foot. -/
theorem foot_len (hs : IsSqrt sqrt) (q u : Fin n → K) (hu : len sqrt u = 1) (s t : K) :
    len sqrt (q + s • u - (q + t • u)) = |s - t| := by
  rw [add_sub_add_left_eq_sub, ← sub_smul, len_smul hs, hu, mul_one]

theorem foot_far (hs : IsSqrt sqrt) (S : Set (Fin n → K)) (q u : Fin n → K) (hu : len sqrt u = 1)
    (hb : ∀ x ∈ S, (x - q) ⬝ᵥ u ≤ 0) (s : K) (x : Fin n → K) (hx : x ∈ S) : s ≤ len sqrt (q + s • u - x) := by
  have h1 := dot_le_len hs (q + s • u - x) u
  have e : (q + s • u - x) ⬝ᵥ u = s - (x - q) ⬝ᵥ u := by
    rw [show q + s • u - x = s • u - (x - q) by abel, sub_dotProduct, smul_dotProduct, dot_self_one hs hu, smul_eq_mul, mul_one]
  rw [e, hu, mul_one] at h1
  have := hb x hx
  linarith

/-- What has to be shown of a normal: a supporting plane, and from inside an inscribed ball. -/
theorem normal_of (hs : IsSqrt sqrt) (S : Set (Fin n → K)) (p u q : Fin n → K) (s : K) (hq : q ∈ S) (hu : len sqrt u = 1)
    (hp : p = q + s • u) (hb : ∀ x ∈ S, (x - q) ⬝ᵥ u ≤ 0) (hin : s < 0 → ∀ x, len sqrt (p - x) < -s → x ∈ S) :
    IsNormal sqrt S p u := by
  refine ⟨s, q, ⟨fun hout => ?_, fun hmem => ?_⟩, hq, hu, hp, hb⟩
  · have h0 : 0 ≤ s := by
      by_contra hcon
      push Not at hcon
      exact hout (hin hcon p (by rw [sub_self, (len_eq_zero hs).2 rfl]; linarith))
    refine ⟨⟨q, hq, ?_⟩, ?_⟩
    · have := foot_len hs q u hu s 0
      rw [zero_smul, add_zero, ← hp, sub_zero, abs_of_nonneg h0] at this
      exact this.symm
    · rintro x ⟨y, hy, rfl⟩
      rw [hp]
      exact foot_far hs S q u hu hb s y hy
  · have h0 : s ≤ 0 := by
      by_contra hcon
      push Not at hcon
      exact past_not_mem hs S q u hu hb s hcon (hp ▸ hmem)
    refine ⟨h0, fun x hx => ?_, fun ρ hρ => ?_⟩
    · rcases h0.eq_or_lt with e | e
      · rw [e, neg_zero] at hx
        exact absurd hx (not_lt.2 (len_nonneg hs _))
      · exact hin e x hx
    · refine ⟨q + ((ρ + s) / 2) • u, ?_, past_not_mem hs S q u hu hb _ (by linarith)⟩
      rw [hp, foot_len hs q u hu, abs_lt]
      constructor <;> linarith

/-- From a right normal: the point one gets back to is on the surface and nearest to the given point. -/
theorem IsNormal.nearest (hs : IsSqrt sqrt) {S : Set (Fin n → K)} {p u : Fin n → K} (h : IsNormal sqrt S p u) :
    ∃ s, IsSDist sqrt S p s ∧ IsNearest sqrt S p (p - s • u) := by
  obtain ⟨s, q, hsd, hq, hu, hp, hb⟩ := h
  have e : p - s • u = q := by rw [hp, add_sub_cancel_right]
  refine ⟨s, hsd, ?_⟩
  rw [e]
  have hl : len sqrt (p - q) = |s| := by
    have := foot_len hs q u hu s 0
    rwa [zero_smul, add_zero, ← hp, sub_zero] at this
  refine ⟨⟨hq, fun ε hε => ⟨q + (ε / 2) • u, past_not_mem hs S q u hu hb _ (by linarith), ?_⟩⟩, fun r hr => ?_⟩
  · rw [sub_add_cancel_left, len_neg hs, len_smul hs, hu, mul_one, abs_of_pos (by linarith)]
    linarith
  · rw [hl]
    rcases le_total 0 s with h0 | h0
    · rw [abs_of_nonneg h0, hp]
      exact foot_far hs S q u hu hb s r hr.1
    · rw [abs_of_nonpos h0]
      exact not_surface hs S p _ (hsd.2 ((sdist_pos hs S p s hsd).2 h0)).2.1 r hr

/-- Signed distances are unique. -/
theorem sdist_unique (hs : IsSqrt sqrt) (S : Set (Fin n → K)) (p : Fin n → K) (s t : K) (h : IsSDist sqrt S p s)
    (h' : IsSDist sqrt S p t) : s = t := by
  by_cases hp : p ∈ S
  · obtain ⟨_, a1, a2⟩ := h.2 hp
    obtain ⟨_, b1, b2⟩ := h'.2 hp
    rcases lt_trichotomy s t with e | e | e
    · obtain ⟨x, hx, hn⟩ := b2 (-s) (by linarith)
      exact absurd (a1 x hx) hn
    · exact e
    · obtain ⟨x, hx, hn⟩ := a2 (-t) (by linarith)
      exact absurd (b1 x hx) hn
  · exact (h.1 hp).unique (h'.1 hp)

/-- From outside there is at most one normal. -/
theorem normal_unique (hs : IsSqrt sqrt) (S : Set (Fin n → K)) (p u v : Fin n → K) (hp : p ∉ S) (h : IsNormal sqrt S p u)
    (h' : IsNormal sqrt S p v) : u = v := by
  obtain ⟨s, q, hsd, hq, hu, e, hb⟩ := h
  obtain ⟨t, r, htd, hr, hv, e', hb'⟩ := h'
  have hst := sdist_unique hs S p s t hsd htd
  subst hst
  have h0 : 0 < s := by
    by_contra hcon
    exact hp ((sdist_pos hs S p s hsd).2 (not_lt.1 hcon))
  have h1 := hb r hr
  have h2 := hb' q hq
  have e1 : r - q = s • u - s • v := by
    have : q + s • u = r + s • v := e ▸ e'
    rw [sub_eq_sub_iff_add_eq_add, add_comm (s • u), this]
  have e2 : q - r = s • v - s • u := by rw [← neg_sub, e1, neg_sub]
  rw [e1, ← smul_sub, smul_dotProduct, smul_eq_mul] at h1
  rw [e2, ← smul_sub, smul_dotProduct, smul_eq_mul] at h2
  have h3 : (u - v) ⬝ᵥ u ≤ 0 := by
    by_contra hcon
    push Not at hcon
    have := mul_pos h0 hcon
    linarith
  have h4 : (v - u) ⬝ᵥ v ≤ 0 := by
    by_contra hcon
    push Not at hcon
    have := mul_pos h0 hcon
    linarith
  have h5 : (u - v) ⬝ᵥ (u - v) ≤ 0 := by
    simp only [sub_dotProduct, dotProduct_sub] at *
    linarith
  exact sub_eq_zero.1 ((self_dot_eq_zero _).1 (le_antisymm h5 (self_dot_nonneg _)))

/-- The unit vector along a nonzero vector, with the vector. -/
theorem unit_split (hs : IsSqrt sqrt) {v : Fin n → K} (h : v ≠ 0) :
    ∃ u, unit sqrt v = some u ∧ len sqrt u = 1 ∧ v = len sqrt v • u ∧ u = (len sqrt v)⁻¹ • v :=
  ⟨_, (unit_eq hs h).1, (unit_eq hs h).2, by rw [smul_smul, mul_inv_cancel₀ (len_pos hs h).ne', one_smul], rfl⟩

/-- A normal from outside, given by a point from which the solid is seen at no acute angle. -/
theorem normal_out (hs : IsSqrt sqrt) (S : Set (Fin n → K)) (p q : Fin n → K) (hq : q ∈ S) (hpq : p - q ≠ 0)
    (hb : ∀ x ∈ S, (x - q) ⬝ᵥ (p - q) ≤ 0) : ∃ u, unit sqrt (p - q) = some u ∧ IsNormal sqrt S p u := by
  obtain ⟨u, e, hu, hv, huv⟩ := unit_split hs hpq
  refine ⟨u, e, normal_of hs S p u q _ hq hu (by rw [← hv, add_sub_cancel]) (fun x hx => ?_)
    fun h => absurd h (not_lt.2 (len_nonneg hs _))⟩
  rw [huv, dotProduct_smul, smul_eq_mul]
  exact mul_nonpos_of_nonneg_of_nonpos (inv_nonneg.2 (len_nonneg hs _)) (hb x hx)

/-! ### Sphere -/

/-- **C89**, sphere. -/
theorem C89_ball (hs : IsSqrt sqrt) (s : Ball K n) (hr : 0 ≤ s.r) (p : Fin n → K) :
    (s.normal sqrt p = none ↔ p = s.center) ∧ ∀ u, s.normal sqrt p = some u → IsNormal sqrt (s.pts sqrt) p u := by
  refine ⟨by rw [Ball.normal, unit_none hs, sub_eq_zero], fun u h => ?_⟩
  have h0 : p - s.center ≠ 0 := fun h0 => by
    rw [Ball.normal, (unit_none hs _).2 h0] at h
    cases h
  obtain ⟨v, e, hu, hv, _⟩ := unit_split hs h0
  rw [Ball.normal, e, Option.some.injEq] at h
  subst h
  set L := len sqrt (p - s.center)
  refine normal_of hs _ p v (s.center + s.r • v) (L - s.r) ?_ hu ?_ (fun x hx => ?_) fun _ x hx => ?_
  · show len sqrt _ ≤ _
    rw [add_sub_cancel_left, len_smul hs, hu, mul_one, abs_of_nonneg hr]
  · rw [add_assoc, ← add_smul, add_sub_cancel, ← hv, add_sub_cancel]
  · have h1 : len sqrt (x - s.center) ≤ s.r := hx
    have h2 := dot_le_len hs (x - s.center) v
    rw [hu, mul_one] at h2
    rw [← sub_sub, sub_dotProduct, smul_dotProduct, dot_self_one hs hu, smul_eq_mul, mul_one]
    linarith
  · show len sqrt _ ≤ _
    have := len_tri hs x p s.center
    rw [len_sub_comm hs x p] at this
    linarith

/-! ### Capsule -/

/-- **C89**, capsule: right off the axis segment, undefined on it. -/
theorem C89_cap (hs : IsSqrt sqrt) (c : Tube K n) (hc : c.p0 ≠ c.p1) (hr : 0 ≤ c.radius) (p : Fin n → K) :
    (c.capNormal sqrt p = none ↔ ∃ t : K, 0 ≤ t ∧ t ≤ 1 ∧ p = c.p0 + t • (c.p1 - c.p0)) ∧
    ∀ u, c.capNormal sqrt p = some u → IsNormal sqrt (c.capPts sqrt) p u := by
  have ha : c.axis ≠ 0 := sub_ne_zero.2 (Ne.symm hc)
  have ha2 : mag2 c.axis ≠ 0 := by
    rw [mag2_eq]
    exact (self_dot_pos ha).ne'
  have e0 : c.capNormal sqrt p = unit sqrt (p - c.foot p) := by
    rw [Tube.capNormal, Tube.nearestAxis, if_neg ha2]
    rfl
  rw [e0]
  constructor
  · rw [unit_none hs]
    constructor
    · intro h
      exact ⟨_, (frac_mem c p).1, (frac_mem c p).2, sub_eq_zero.1 h⟩
    · rintro ⟨t, h0, h1, e⟩
      have h2 := dseg_le hs c hc p h0 h1
      rw [← e, sub_self, (len_eq_zero hs).2 rfl] at h2
      exact (len_eq_zero hs).1 (le_antisymm h2 (len_nonneg hs _))
  · intro u h
    have h0 : p - c.foot p ≠ 0 := fun h0 => by
      rw [(unit_none hs _).2 h0] at h
      cases h
    obtain ⟨v, e, hu, hv, hvu⟩ := unit_split hs h0
    rw [e, Option.some.injEq] at h
    subst h
    refine normal_of hs _ p v (c.foot p + c.radius • v) (c.dseg sqrt p - c.radius) ?_ hu ?_ (fun x hx => ?_) fun _ x hx => ?_
    · refine ⟨_, (frac_mem c p).1, (frac_mem c p).2, ?_⟩
      show len sqrt (c.foot p + c.radius • v - c.foot p) ≤ _
      rw [add_sub_cancel_left, len_smul hs, hu, mul_one, abs_of_nonneg hr]
    · rw [add_assoc, ← add_smul, add_sub_cancel, Tube.dseg, ← hv, add_sub_cancel]
    · obtain ⟨t, h0, h1, h2⟩ := hx
      have h3 := foot_cone c hc p h0 h1
      have h4 := dot_le_len hs (x - (c.p0 + t • (c.p1 - c.p0))) v
      rw [hu, mul_one] at h4
      have h5 : (c.p0 + t • (c.p1 - c.p0) - c.foot p) ⬝ᵥ v ≤ 0 := by
        rw [hvu, dotProduct_smul, smul_eq_mul, dotProduct_comm]
        exact mul_nonpos_of_nonneg_of_nonpos (inv_nonneg.2 (len_nonneg hs _)) h3
      have e : x - (c.foot p + c.radius • v) =
          (x - (c.p0 + t • (c.p1 - c.p0))) + (c.p0 + t • (c.p1 - c.p0) - c.foot p) - c.radius • v := by abel
      rw [e, sub_dotProduct, add_dotProduct, smul_dotProduct, dot_self_one hs hu, smul_eq_mul, mul_one]
      linarith
    · rw [mem_cap hs c hc]
      have := dseg_lip hs c hc x p
      rw [len_sub_comm hs x p] at this
      linarith

/-! ### Cylinder -/

theorem cylNormal_eq (hs : IsSqrt sqrt) (c : Tube K n) (hc : c.p0 ≠ c.p1) (p : Fin n → K) :
    c.cylNormal sqrt p =
      (c.cylOut (len sqrt c.axis) (c.ax p) (len sqrt (c.rad p))
        (if len sqrt (c.rad p) = 0 then none else some ((len sqrt (c.rad p))⁻¹ • c.rad p)) p).bind (unit sqrt) := by
  obtain ⟨h1, h2, h3⟩ := code_scalars c hc p
  have ha2 : mag2 c.axis ≠ 0 := by
    rw [mag2_eq]
    exact (axis_pos c hc).ne'
  have e : len sqrt (c.rad p) = sqrt (mag2 (p - c.p0) - dot c.axis (p - c.p0) * (dot c.axis (p - c.p0) / mag2 c.axis)) := by
    rw [h3, len, mag2_eq]
  have e2 : (fun i => (p i - c.p0 i - c.ax p * c.axis i) / len sqrt (c.rad p)) = (len sqrt (c.rad p))⁻¹ • c.rad p := by
    ext i
    rw [div_eq_inv_mul]
    rfl
  rw [Tube.cylNormal]
  simp only
  rw [if_neg ha2, ← e, h1, e2]
  rfl

/-- The axial direction of the cap a normal is for. -/
theorem cyl_axial (hs : IsSqrt sqrt) (c : Tube K n) (hc : c.p0 ≠ c.p1) (p : Fin n → K) (hin : len sqrt (c.rad p) ≤ c.radius)
    (up : Prop) [Decidable up]
    (hball : (up → c.ax p < 1) → (¬up → 0 < c.ax p) → 
      ∀ x, len sqrt (p - x) < len sqrt c.axis * (if up then 1 - c.ax p else c.ax p) → x ∈ c.cylPts sqrt) :
    ∃ u, unit sqrt (if up then c.axis else -c.axis) = some u ∧ IsNormal sqrt (c.cylPts sqrt) p u := by
  have hA : 0 < len sqrt c.axis := len_pos hs (sub_ne_zero.2 (Ne.symm hc))
  have hax : c.axis ≠ 0 := sub_ne_zero.2 (Ne.symm hc)
  by_cases h : up
  · rw [if_pos h]
    obtain ⟨u, e, hu, hv, huv⟩ := unit_split hs hax
    obtain ⟨k1, k2⟩ := coords c hc 1 _ (rad_perp c hc p)
    refine ⟨u, e, normal_of hs _ p u (c.p0 + (1 : K) • c.axis + c.rad p) ((c.ax p - 1) * len sqrt c.axis) ?_ hu ?_ ?_ ?_⟩
    · rw [mem_cyl c hc, k1, k2]
      exact ⟨zero_le_one, le_refl _, hin⟩
    · rw [mul_smul, ← hv, sub_smul, Tube.rad]
      abel
    · intro x hx
      obtain ⟨_, x1, _⟩ := (mem_cyl c hc x).1 hx
      have e3 : x - (c.p0 + (1 : K) • c.axis + c.rad p) = (c.ax x - 1) • c.axis + (c.rad x - c.rad p) := by
        rw [sub_smul, show c.rad x = x - c.p0 - c.ax x • c.axis from rfl]
        abel
      rw [e3, huv, dotProduct_smul, add_dotProduct, sub_dotProduct, rad_perp c hc, rad_perp c hc, smul_dotProduct, sub_self, add_zero,
        smul_eq_mul, smul_eq_mul]
      exact mul_nonpos_of_nonneg_of_nonpos (inv_nonneg.2 hA.le)
        (mul_nonpos_of_nonpos_of_nonneg (by linarith) (self_dot_nonneg _))
    · intro hneg x hx
      refine hball (fun _ => ?_) (fun h' => absurd h h') x ?_
      · by_contra hcon
        push Not at hcon
        exact absurd hneg (not_lt.2 (mul_nonneg (by linarith) hA.le))
      · rw [if_pos h]
        linarith
  · rw [if_neg h]
    obtain ⟨u, e, hu, hv, huv⟩ := unit_split hs (neg_ne_zero.2 hax)
    rw [len_neg hs] at hv huv
    obtain ⟨k1, k2⟩ := coords c hc 0 _ (rad_perp c hc p)
    refine ⟨u, e, normal_of hs _ p u (c.p0 + (0 : K) • c.axis + c.rad p) ((-c.ax p) * len sqrt c.axis) ?_ hu ?_ ?_ ?_⟩
    · rw [mem_cyl c hc, k1, k2]
      exact ⟨le_refl _, zero_le_one, hin⟩
    · rw [mul_smul, ← hv, zero_smul, smul_neg, neg_smul, neg_neg, Tube.rad]
      abel
    · intro x hx
      obtain ⟨x0, _, _⟩ := (mem_cyl c hc x).1 hx
      have e3 : x - (c.p0 + (0 : K) • c.axis + c.rad p) = c.ax x • c.axis + (c.rad x - c.rad p) := by
        rw [zero_smul, show c.rad x = x - c.p0 - c.ax x • c.axis from rfl]
        abel
      rw [e3, huv, dotProduct_smul, dotProduct_neg, add_dotProduct, sub_dotProduct, rad_perp c hc, rad_perp c hc, smul_dotProduct,
        sub_self, add_zero, smul_eq_mul, smul_eq_mul]
      exact mul_nonpos_of_nonneg_of_nonpos (inv_nonneg.2 hA.le) (neg_nonpos.2 (mul_nonneg x0 (self_dot_nonneg _)))
    · intro hneg x hx
      refine hball (fun h' => absurd h' h) (fun _ => ?_) x ?_
      · by_contra hcon
        push Not at hcon
        exact absurd hneg (not_lt.2 (mul_nonneg (by linarith) hA.le))
      · rw [if_neg h]
        linarith

/-- A ball in the cylinder. -/
theorem cyl_ball (hs : IsSqrt sqrt) (c : Tube K n) (hc : c.p0 ≠ c.p1) (p x : Fin n → K) (ρ : K)
    (h0 : ρ ≤ len sqrt c.axis * c.ax p) (h1 : ρ ≤ len sqrt c.axis * (1 - c.ax p)) (h2 : ρ ≤ c.radius - len sqrt (c.rad p))
    (hx : len sqrt (p - x) < ρ) : x ∈ c.cylPts sqrt := by
  have hA : 0 < len sqrt c.axis := len_pos hs (sub_ne_zero.2 (Ne.symm hc))
  rw [mem_cyl c hc]
  have b1 := axial_le hs c hc p x
  have b2 := radial_le hs c hc p x
  have b3 := radial_le' hs c hc x p
  rw [len_sub_comm hs (c.rad x)] at b3
  have b4 : |c.ax p - c.ax x| * len sqrt c.axis < c.ax p * len sqrt c.axis := by linarith
  have b5 : |c.ax p - c.ax x| * len sqrt c.axis < (1 - c.ax p) * len sqrt c.axis := by linarith
  have b6 := lt_of_mul_lt_mul_right b4 hA.le
  have b7 := lt_of_mul_lt_mul_right b5 hA.le
  rw [abs_lt] at b6 b7
  exact ⟨by linarith, by linarith, by linarith⟩

/-- The radial direction. -/
theorem rad_dir (hs : IsSqrt sqrt) (c : Tube K n) (hc : c.p0 ≠ c.p1) (p : Fin n → K) (hp : c.rad p ≠ 0) :
    ∃ r, (if len sqrt (c.rad p) = 0 then none else some ((len sqrt (c.rad p))⁻¹ • c.rad p)) = some r ∧ len sqrt r = 1 ∧
      c.rad p = len sqrt (c.rad p) • r ∧ r ⬝ᵥ c.axis = 0 := by
  have hℓ := len_pos hs hp
  refine ⟨_, if_neg hℓ.ne', (unit_eq hs hp).2, ?_, ?_⟩
  · rw [smul_smul, mul_inv_cancel₀ hℓ.ne', one_smul]
  · rw [smul_dotProduct, rad_perp c hc, smul_zero]

theorem rim_dot (hs : IsSqrt sqrt) (c : Tube K n) (hc : c.p0 ≠ c.p1) (r x : Fin n → K) (hr : len sqrt r = 1)
    (hra : r ⬝ᵥ c.axis = 0) (s κ t : K) :
    (x - (c.p0 + t • c.axis + c.radius • r)) ⬝ᵥ (s • c.axis + κ • r) =
      s * (c.ax x - t) * (c.axis ⬝ᵥ c.axis) + κ * (c.rad x ⬝ᵥ r - c.radius) := by
  have e3 : x - (c.p0 + t • c.axis + c.radius • r) = (c.ax x - t) • c.axis + (c.rad x - c.radius • r) := by
    rw [sub_smul, show c.rad x = x - c.p0 - c.ax x • c.axis from rfl]
    abel
  have h1 := rad_perp c hc x
  have h2 := dot_self_one hs hr
  rw [e3]
  simp only [add_dotProduct, sub_dotProduct, dotProduct_add, smul_dotProduct, dotProduct_smul, dotProduct_comm c.axis r, h1, h2, hra,
    smul_eq_mul]
  ring

/-- The rim of a cap, outside of which a normal points away from. -/
theorem cyl_rim (hs : IsSqrt sqrt) (c : Tube K n) (hc : c.p0 ≠ c.p1) (hr : 0 ≤ c.radius) (p r : Fin n → K)
    (hr1 : len sqrt r = 1) (hrp : c.rad p = len sqrt (c.rad p) • r) (hra : r ⬝ᵥ c.axis = 0) (hout : c.radius < len sqrt (c.rad p))
    (t : K) (ht : t = 0 ∧ c.ax p ≤ 0 ∨ t = 1 ∧ 1 ≤ c.ax p) :
    p - (c.p0 + t • c.axis + c.radius • r) = (c.ax p - t) • c.axis + (len sqrt (c.rad p) - c.radius) • r ∧
    ∃ u, unit sqrt (p - (c.p0 + t • c.axis + c.radius • r)) = some u ∧ IsNormal sqrt (c.cylPts sqrt) p u := by
  have hv : (c.radius • r) ⬝ᵥ c.axis = 0 := by rw [smul_dotProduct, hra, smul_zero]
  obtain ⟨k1, k2⟩ := coords c hc t _ hv
  have e : p - (c.p0 + t • c.axis + c.radius • r) = (c.ax p - t) • c.axis + (len sqrt (c.rad p) - c.radius) • r := by
    rw [sub_smul, sub_smul, ← hrp, Tube.rad]
    abel
  refine ⟨e, normal_out hs _ p _ ?_ ?_ ?_⟩
  · rw [mem_cyl c hc, k1, k2, len_smul hs, hr1, mul_one, abs_of_nonneg hr]
    rcases ht with ⟨rfl, _⟩ | ⟨rfl, _⟩
    · exact ⟨le_refl _, zero_le_one, le_refl _⟩
    · exact ⟨zero_le_one, le_refl _, le_refl _⟩
  · intro h0
    have : (p - (c.p0 + t • c.axis + c.radius • r)) ⬝ᵥ r = 0 := by rw [h0, zero_dotProduct]
    rw [e, add_dotProduct, smul_dotProduct, smul_dotProduct, dotProduct_comm, hra, dot_self_one hs hr1, smul_zero, zero_add,
      smul_eq_mul, mul_one] at this
    linarith
  · intro x hx
    obtain ⟨x0, x1, x2⟩ := (mem_cyl c hc x).1 hx
    rw [e, rim_dot hs c hc r x hr1 hra]
    have h1 := dot_le_len hs (c.rad x) r
    rw [hr1, mul_one] at h1
    have h2 : (len sqrt (c.rad p) - c.radius) * (c.rad x ⬝ᵥ r - c.radius) ≤ 0 :=
      mul_nonpos_of_nonneg_of_nonpos (by linarith) (by linarith)
    have h3 : (c.ax p - t) * (c.ax x - t) ≤ 0 := by
      rcases ht with ⟨rfl, h⟩ | ⟨rfl, h⟩
      · exact mul_nonpos_of_nonpos_of_nonneg (by linarith) (by linarith)
      · exact mul_nonpos_of_nonneg_of_nonpos (by linarith) (by linarith)
    have h4 := mul_nonpos_of_nonpos_of_nonneg h3 (axis_pos c hc).le
    linarith

/-- **C89**, cylinder: the normal is defined unless the point is on the axis with the wall no farther than the caps, and right unless
the point is outside the rim of the far cap. -/
theorem C89_cyl (hs : IsSqrt sqrt) (c : Tube K n) (hc : c.p0 ≠ c.p1) (hr : 0 ≤ c.radius) (p : Fin n → K)
    (hfar : ¬(1 < c.ax p ∧ c.radius < len sqrt (c.rad p)))
    (haxis : c.rad p = 0 → c.ax p < 0 ∨ 1 < c.ax p ∨ len sqrt c.axis * min (c.ax p) (1 - c.ax p) < c.radius) :
    ∃ u, c.cylNormal sqrt p = some u ∧ IsNormal sqrt (c.cylPts sqrt) p u := by
  have hA : 0 < len sqrt c.axis := len_pos hs (sub_ne_zero.2 (Ne.symm hc))
  rw [cylNormal_eq hs c hc, Tube.cylOut, stdMin_eq]
  by_cases h1 : c.ax p < 0 ∨ 1 < c.ax p
  · rw [if_pos h1]
    by_cases h2 : c.radius < len sqrt (c.rad p)
    · have hrad : c.rad p ≠ 0 := fun h => by
        rw [(len_eq_zero hs).2 h] at h2
        linarith
      obtain ⟨r, e, hr1, hrp, hra⟩ := rad_dir hs c hc p hrad
      rw [if_pos h2, e, Option.map_some, Option.bind_some]
      have h0 : c.ax p ≤ 0 := (h1.resolve_right fun h => hfar ⟨h, h2⟩).le
      obtain ⟨_, u, eu, hu⟩ := cyl_rim hs c hc hr p r hr1 hrp hra h2 0 (Or.inl ⟨rfl, h0⟩)
      refine ⟨u, ?_, hu⟩
      rw [← eu]
      congr 1
      ext i
      simp only [Pi.sub_apply, Pi.add_apply, Pi.smul_apply, smul_eq_mul]
      ring
    · rw [if_neg h2, Option.bind_some]
      have h3 := cyl_axial hs c hc p (not_lt.1 h2) (¬c.ax p < 0) fun ha hb => by
        rcases h1 with h | h
        · exact absurd (hb (not_not.2 h)) (by linarith)
        · exact absurd (ha (by linarith)) (by linarith)
      rwa [ite_not] at h3
  · rw [if_neg h1]
    push Not at h1
    by_cases h2 : len sqrt (c.rad p) < c.radius ∧ len sqrt c.axis * min (c.ax p) (1 - c.ax p) < c.radius - len sqrt (c.rad p)
    · rw [if_pos h2, Option.bind_some]
      have h3 := cyl_axial hs c hc p h2.1.le (¬c.ax p < 1 / 2) fun _ _ x hx => by
        have e : (if ¬c.ax p < 1 / 2 then 1 - c.ax p else c.ax p) = min (c.ax p) (1 - c.ax p) := by
          by_cases h : c.ax p < 1 / 2
          · rw [if_neg (not_not.2 h), min_eq_left (by linarith)]
          · rw [if_pos h, min_eq_right (by linarith)]
        rw [e] at hx
        exact cyl_ball hs c hc p x _ (mul_le_mul_of_nonneg_left (min_le_left _ _) hA.le)
          (mul_le_mul_of_nonneg_left (min_le_right _ _) hA.le) h2.2.le hx
      rwa [ite_not] at h3
    · rw [if_neg h2]
      have hrad : c.rad p ≠ 0 := fun h => by
        have h3 := haxis h
        rw [(len_eq_zero hs).2 h, sub_zero] at h2
        rcases h3 with h3 | h3 | h3
        · linarith
        · linarith
        · refine h2 ⟨?_, h3⟩
          exact lt_of_le_of_lt (mul_nonneg hA.le (le_min h1.1 (by linarith))) h3
      obtain ⟨r, e, hr1, hrp, hra⟩ := rad_dir hs c hc p hrad
      have hr0 : r ≠ 0 := fun h => by
        rw [(len_eq_zero hs).2 h] at hr1
        exact zero_ne_one hr1
      rw [e, Option.bind_some]
      obtain ⟨u, eu, hu, hv, _⟩ := unit_split hs hr0
      rw [hr1, one_smul] at hv
      subst hv
      refine ⟨r, eu, normal_of hs _ p r (c.p0 + c.ax p • c.axis + c.radius • r) (len sqrt (c.rad p) - c.radius) ?_ hr1 ?_ ?_ ?_⟩
      · have hv : (c.radius • r) ⬝ᵥ c.axis = 0 := by rw [smul_dotProduct, hra, smul_zero]
        obtain ⟨k1, k2⟩ := coords c hc (c.ax p) _ hv
        rw [mem_cyl c hc, k1, k2, len_smul hs, hr1, mul_one, abs_of_nonneg hr]
        exact ⟨h1.1, h1.2, le_refl _⟩
      · rw [sub_smul, ← hrp, Tube.rad]
        abel
      · intro x hx
        obtain ⟨x0, x1, x2⟩ := (mem_cyl c hc x).1 hx
        have := rim_dot hs c hc r x hr1 hra 0 1 (c.ax p)
        rw [zero_smul, zero_add, one_smul] at this
        rw [this, zero_mul, zero_mul, zero_add, one_mul]
        have h1 := dot_le_len hs (c.rad x) r
        rw [hr1, mul_one] at h1
        linarith
      · intro hneg x hx
        have h4 : c.radius - len sqrt (c.rad p) ≤ len sqrt c.axis * min (c.ax p) (1 - c.ax p) := by
          by_contra hcon
          exact h2 ⟨by linarith, not_le.1 hcon⟩
        refine cyl_ball hs c hc p x (c.radius - len sqrt (c.rad p)) (h4.trans (mul_le_mul_of_nonneg_left (min_le_left _ _) hA.le))
          (h4.trans (mul_le_mul_of_nonneg_left (min_le_right _ _) hA.le)) (le_refl _) ?_
        linarith

/-- **C89** refuted for a cylinder and every point outside the rim of its far cap: the rim of the near cap is taken, and the result is
not a normal. -/
theorem C89_cyl_far_refuted (hs : IsSqrt sqrt) (c : Tube K n) (hc : c.p0 ≠ c.p1) (hr : 0 ≤ c.radius) (p : Fin n → K)
    (h1 : 1 < c.ax p) (h2 : c.radius < len sqrt (c.rad p)) :
    ∃ u, c.cylNormal sqrt p = some u ∧ ¬IsNormal sqrt (c.cylPts sqrt) p u := by
  have hrad : c.rad p ≠ 0 := fun h => by
    rw [(len_eq_zero hs).2 h] at h2
    linarith
  obtain ⟨r, e, hr1, hrp, hra⟩ := rad_dir hs c hc p hrad
  rw [cylNormal_eq hs c hc, Tube.cylOut, if_pos (Or.inr h1), if_pos h2, e, Option.map_some, Option.bind_some]
  set κ := len sqrt (c.rad p) - c.radius with hκ
  have hκ0 : 0 < κ := by linarith
  have e1 : (fun i => p i - (r i * c.radius + c.p0 i)) = c.ax p • c.axis + κ • r := by
    ext i
    have := congrFun (recon c p) i
    rw [hrp] at this
    simp only [Pi.add_apply, Pi.smul_apply, smul_eq_mul] at this ⊢
    rw [this, hκ]
    ring
  rw [e1]
  obtain ⟨e2, v, ev, hv⟩ := cyl_rim hs c hc hr p r hr1 hrp hra h2 1 (Or.inr ⟨rfl, h1.le⟩)
  rw [e2, ← hκ] at ev
  have dr : ∀ a : K, (a • c.axis + κ • r) ⬝ᵥ r = κ := fun a => by
    rw [add_dotProduct, smul_dotProduct, smul_dotProduct, dotProduct_comm, hra, dot_self_one hs hr1, smul_zero, zero_add,
      smul_eq_mul, mul_one]
  have da : ∀ a : K, (a • c.axis + κ • r) ⬝ᵥ c.axis = a * (c.axis ⬝ᵥ c.axis) := fun a => by
    rw [add_dotProduct, smul_dotProduct, smul_dotProduct, hra, smul_zero, add_zero, smul_eq_mul]
  have hne : ∀ a : K, a • c.axis + κ • r ≠ 0 := fun a h => by
    have := dr a
    rw [h, zero_dotProduct] at this
    linarith
  obtain ⟨u, eu, hu, huv, _⟩ := unit_split hs (hne (c.ax p))
  obtain ⟨v', ev', hv1, hvv, _⟩ := unit_split hs (hne (c.ax p - 1))
  rw [ev', Option.some.injEq] at ev
  subst ev
  refine ⟨u, eu, fun hn => ?_⟩
  have hout : p ∉ c.cylPts sqrt := fun h => by
    have := ((mem_cyl c hc p).1 h).2.1
    linarith
  have huv' := normal_unique hs _ p u v' hout hn hv
  subst huv'
  have d1 := dr (c.ax p)
  have d2 := dr (c.ax p - 1)
  have d3 := da (c.ax p)
  have d4 := da (c.ax p - 1)
  rw [huv, smul_dotProduct, smul_eq_mul] at d1 d3
  rw [hvv, smul_dotProduct, smul_eq_mul] at d2 d4
  have hur : u ⬝ᵥ r ≠ 0 := fun h => by
    rw [h, mul_zero] at d1
    linarith
  have d5 := mul_right_cancel₀ hur (d1.trans d2.symm)
  rw [d5] at d3
  have d6 := d3.symm.trans d4
  have := axis_pos c hc
  nlinarith

/-- **C89** refuted for a cylinder at the points of its axis where the wall is no farther than the caps: the normal is undefined. -/
theorem C89_cyl_axis_refuted (hs : IsSqrt sqrt) (c : Tube K n) (hc : c.p0 ≠ c.p1) (p : Fin n → K) (hp : c.rad p = 0)
    (h0 : 0 ≤ c.ax p) (h1 : c.ax p ≤ 1) (h2 : c.radius ≤ len sqrt c.axis * min (c.ax p) (1 - c.ax p)) :
    c.cylNormal sqrt p = none := by
  rw [cylNormal_eq hs c hc, Tube.cylOut, stdMin_eq, if_neg (by push Not; exact ⟨h0, h1⟩), (len_eq_zero hs).2 hp, sub_zero,
    if_neg (fun h => not_lt.2 h2 h.2), if_pos rfl]
  rfl

end Geomc.Shape
