import Verif.Shape.Frustum

/-!
# C53: dilated shapes
-/

namespace Geomc.Shape

open Geomc.Vec Geomc.Rect

variable {K : Type} {n : ℕ} [Field K] [LinearOrder K] [IsStrictOrderedRing K] {sqrt : K → K}

/-- The points within a distance of a set. -/
def dilPts (sqrt : K → K) (S : Set (Fin n → K)) (r : K) : Set (Fin n → K) := {p | ∃ q ∈ S, len sqrt (p - q) ≤ r}

/-- Convex sets of points. -/
def Convexe (S : Set (Fin n → K)) : Prop := ∀ x ∈ S, ∀ y ∈ S, ∀ t : K, 0 ≤ t → t ≤ 1 → x + t • (y - x) ∈ S

/-- The surface is where the signed distance is zero. -/
theorem sdist_surface (hs : IsSqrt sqrt) (T : Set (Fin n → K)) (p : Fin n → K) (s : K) (h : IsSDist sqrt T p s) :
    p ∈ surface sqrt T ↔ s = 0 := by
  constructor
  · rintro ⟨hp, hε⟩
    obtain ⟨h0, h1, _⟩ := h.2 hp
    by_contra hne
    obtain ⟨r, hr, hd⟩ := hε (-s) (by have := lt_of_le_of_ne h0 hne; linarith)
    exact hr (h1 r hd)
  · rintro rfl
    have hp := (sdist_pos hs T p 0 h).2 (le_refl _)
    refine ⟨hp, fun ε hε => ?_⟩
    obtain ⟨q, hq, hqT⟩ := (h.2 hp).2.2 ε (by linarith)
    exact ⟨q, hqT, hq⟩

/-- A convex set lies behind the plane through the nearest point. -/
theorem obtuse (hs : IsSqrt sqrt) (S : Set (Fin n → K)) (hS : Convexe S) (p q : Fin n → K) (hq : q ∈ S)
    (hmin : ∀ x ∈ S, len sqrt (p - q) ≤ len sqrt (p - x)) (x : Fin n → K) (hx : x ∈ S) : (x - q) ⬝ᵥ (p - q) ≤ 0 := by
  by_contra hcon
  push Not at hcon
  have hxq : x - q ≠ 0 := fun h => by rw [h, zero_dotProduct] at hcon; exact lt_irrefl _ hcon
  have he := self_dot_pos hxq
  set c := (x - q) ⬝ᵥ (p - q) with hc
  set e := (x - q) ⬝ᵥ (x - q) with hee
  set t := min 1 (c / e) with ht
  have ht0 : 0 < t := lt_min one_pos (div_pos hcon he)
  have ht1 : t ≤ 1 := min_le_left _ _
  have hte : t * e ≤ c := by
    have := mul_le_mul_of_nonneg_right (min_le_right 1 (c / e)) he.le
    rwa [div_mul_cancel₀ _ he.ne'] at this
  have h1 := hmin _ (hS q hq x hx t ht0.le ht1)
  rw [len_le_iff hs (len_nonneg hs _), len_mul_self hs] at h1
  have e1 : p - (q + t • (x - q)) = (p - q) - t • (x - q) := by abel
  rw [e1] at h1
  have e2 : ((p - q) - t • (x - q)) ⬝ᵥ ((p - q) - t • (x - q)) = (p - q) ⬝ᵥ (p - q) - 2 * t * c + t * (t * e) := by
    rw [hc, hee]
    generalize p - q = a
    generalize x - q = b
    simp only [sub_dotProduct, dotProduct_sub, smul_dotProduct, dotProduct_smul, dotProduct_comm a b, smul_eq_mul]
    ring
  rw [e2] at h1
  nlinarith

/-- Beyond the nearest point the distance grows at unit rate, so the ray leaves the dilated set. -/
theorem beyond (hs : IsSqrt sqrt) (S : Set (Fin n → K)) (q u : Fin n → K) (hu : len sqrt u = 1)
    (hb : ∀ x ∈ S, (x - q) ⬝ᵥ u ≤ 0) (r s : K) (hrs : r < s) : q + s • u ∉ dilPts sqrt S r := by
  rintro ⟨x, hx, hd⟩
  have h1 := dot_le_len hs (q + s • u - x) u
  have huu : u ⬝ᵥ u = 1 := by rw [← len_mul_self hs, hu, mul_one]
  have e : (q + s • u - x) ⬝ᵥ u = s - (x - q) ⬝ᵥ u := by
    rw [show q + s • u - x = s • u - (x - q) by abel, sub_dotProduct, smul_dotProduct, huu, smul_eq_mul, mul_one]
  rw [e, hu, mul_one] at h1
  have := hb x hx
  linarith

/-- Outside points have a nearest point and an outer direction. -/
theorem outer (hs : IsSqrt sqrt) (S : Set (Fin n → K)) (hS : Convexe S) (p q : Fin n → K) (hp : p ∉ S) (hq : q ∈ S)
    (hmin : ∀ x ∈ S, len sqrt (p - q) ≤ len sqrt (p - x)) :
    ∃ u, len sqrt u = 1 ∧ p = q + len sqrt (p - q) • u ∧ u = (len sqrt (p - q))⁻¹ • (p - q) ∧ ∀ x ∈ S, (x - q) ⬝ᵥ u ≤ 0 := by
  have h0 : p - q ≠ 0 := fun h => hp (sub_eq_zero.1 h ▸ hq)
  have hl := len_pos hs h0
  refine ⟨_, (unit_eq hs h0).2, ?_, rfl, fun x hx => ?_⟩
  · rw [smul_smul, mul_inv_cancel₀ hl.ne', one_smul, add_sub_cancel]
  · rw [dotProduct_smul, smul_eq_mul]
    exact mul_nonpos_of_nonneg_of_nonpos (inv_nonneg.2 hl.le) (obtuse hs S hS p q hq hmin x hx)

omit [IsStrictOrderedRing K] in
/-- Signed distances give nearest points. -/
theorem sdist_nearest (S : Set (Fin n → K)) (p : Fin n → K) (s : K) (h : IsSDist sqrt S p s) (hp : p ∉ S) :
    ∃ q ∈ S, s = len sqrt (p - q) ∧ ∀ x ∈ S, len sqrt (p - q) ≤ len sqrt (p - x) := by
  obtain ⟨⟨q, hq, e⟩, hl⟩ := h.1 hp
  exact ⟨q, hq, e, fun x hx => e ▸ hl ⟨x, hx, rfl⟩⟩

/-- A point at a distance, along a segment. -/
theorem split_at (hs : IsSqrt sqrt) (p x : Fin n → K) (a : K) (ha : 0 ≤ a) (h : a < len sqrt (p - x)) :
    ∃ y, len sqrt (p - y) = len sqrt (p - x) - a ∧ len sqrt (x - y) = a := by
  set L := len sqrt (p - x) with hL
  have hL0 : 0 < L := lt_of_le_of_lt ha h
  refine ⟨p + ((L - a) / L) • (x - p), ?_, ?_⟩
  · rw [sub_add_cancel_left, len_neg hs, len_smul hs, len_sub_comm hs x p, ← hL, abs_of_nonneg (div_nonneg (by linarith) hL0.le),
      div_mul_cancel₀ _ hL0.ne']
  · have e : x - (p + ((L - a) / L) • (x - p)) = (a / L) • (x - p) := by
      have : a / L = 1 - (L - a) / L := by
        field_simp
        ring
      rw [this, sub_smul, one_smul]
      abel
    rw [e, len_smul hs, len_sub_comm hs x p, ← hL, abs_of_nonneg (div_nonneg ha hL0.le), div_mul_cancel₀ _ hL0.ne']

/-- Everything within the sum of the depth and the dilation is in the dilated set. -/
theorem dil_ball (hs : IsSqrt sqrt) (S : Set (Fin n → K)) (r : K) (hr : 0 ≤ r) (p : Fin n → K) (hp : p ∈ S) (δ : K)
    (hδ : ∀ x, len sqrt (p - x) < δ → x ∈ S) (hδ0 : 0 ≤ δ) (x : Fin n → K) (hx : len sqrt (p - x) < δ + r) :
    x ∈ dilPts sqrt S r := by
  rcases le_or_gt (len sqrt (p - x)) r with h | h
  · exact ⟨p, hp, by rw [len_sub_comm hs]; exact h⟩
  · obtain ⟨y, h1, h2⟩ := split_at hs p x r hr h
    exact ⟨y, hδ y (by linarith), h2.le⟩

/-- **C53**, dilation: the signed distance of a dilated convex shape. -/
theorem C53_dil_sdf (hs : IsSqrt sqrt) (S : Set (Fin n → K)) (hS : Convexe S) (sdf : (Fin n → K) → K) (r : K) (hr : 0 ≤ r)
    (hb : ∀ p, IsSDist sqrt S p (sdf p)) (p : Fin n → K) : IsSDist sqrt (dilPts sqrt S r) p (dilSdf sdf r p) := by
  rw [dilSdf]
  constructor
  · intro hp
    have hpS : p ∉ S := fun h => hp ⟨p, h, by rw [sub_self, (len_eq_zero hs).2 rfl]; exact hr⟩
    obtain ⟨q, hq, e, hmin⟩ := sdist_nearest S p _ (hb p) hpS
    obtain ⟨u, hu, hpu, _, _⟩ := outer hs S hS p q hpS hq hmin
    have hgt : r < len sqrt (p - q) := not_le.1 fun h => hp ⟨q, hq, h⟩
    rw [e]
    constructor
    · refine ⟨q + r • u, ⟨q, hq, ?_⟩, ?_⟩
      · rw [add_sub_cancel_left, len_smul hs, hu, mul_one, abs_of_nonneg hr]
      · conv_rhs => rw [hpu]
        rw [add_sub_add_left_eq_sub, ← sub_smul, len_smul hs, hu, mul_one, abs_of_pos (by linarith)]
    · rintro _ ⟨y, ⟨x, hx, hd⟩, rfl⟩
      have := hmin x hx
      have h2 := len_tri hs p y x
      linarith
  · rintro ⟨q₀, hq₀, hd₀⟩
    by_cases hpS : p ∈ S
    · obtain ⟨h0, h1, h2⟩ := (hb p).2 hpS
      refine ⟨by linarith, fun x hx => dil_ball hs S r hr p hpS (-sdf p) h1 (by linarith) x (by linarith), fun ε hε => ?_⟩
      obtain ⟨y, hy, hyS⟩ := h2 (-sdf p + (ε - r + sdf p) / 4) (by linarith)
      obtain ⟨q, hq, _, hmin⟩ := sdist_nearest S y _ (hb y) hyS
      obtain ⟨u, hu, hyu, _, hbeh⟩ := outer hs S hS y q hyS hq hmin
      set L := len sqrt (y - q) with hL
      rcases le_or_gt L (r + (ε - r + sdf p) / 4) with h | h
      · refine ⟨q + (r + (ε - r + sdf p) / 4) • u, ?_, beyond hs S q u hu hbeh r _ (by linarith)⟩
        have h3 := len_tri hs p y (q + (r + (ε - r + sdf p) / 4) • u)
        have h4 : len sqrt (y - (q + (r + (ε - r + sdf p) / 4) • u)) = r + (ε - r + sdf p) / 4 - L := by
          conv_lhs => rw [hyu]
          rw [add_sub_add_left_eq_sub, ← sub_smul, len_smul hs, hu, mul_one, abs_of_nonpos (by linarith)]
          ring
        have h5 : 0 ≤ L := len_nonneg hs _
        linarith
      · refine ⟨y, by linarith, ?_⟩
        have := beyond hs S q u hu hbeh r L (by linarith)
        rwa [← hyu] at this
    · obtain ⟨q, hq, e, hmin⟩ := sdist_nearest S p _ (hb p) hpS
      obtain ⟨u, hu, hpu, _, hbeh⟩ := outer hs S hS p q hpS hq hmin
      have h0 := hmin q₀ hq₀
      rw [e]
      generalize hℓ : len sqrt (p - q) = ℓ at *
      refine ⟨by linarith, fun x hx => ⟨q, hq, ?_⟩, fun ε hε => ?_⟩
      · have := len_tri hs x p q
        rw [len_sub_comm hs x p, hℓ] at this
        linarith
      · refine ⟨q + ((r + (ε + ℓ)) / 2) • u, ?_, beyond hs S q u hu hbeh r _ (by linarith)⟩
        conv_lhs => rw [hpu]
        rw [add_sub_add_left_eq_sub, ← sub_smul, len_smul hs, hu, mul_one, abs_of_nonpos]
        · linarith
        · linarith

/-- **C53**, dilation: containment, exactly: points of the surface are left out. -/
theorem C53_dil_contains_iff (hs : IsSqrt sqrt) (S : Set (Fin n → K)) (hS : Convexe S) (sdf : (Fin n → K) → K) (r : K) (hr : 0 ≤ r)
    (hb : ∀ p, IsSDist sqrt S p (sdf p)) (p : Fin n → K) :
    dilContains sdf r p = true ↔ p ∈ dilPts sqrt S r ∧ p ∉ surface sqrt (dilPts sqrt S r) := by
  have h := C53_dil_sdf hs S hS sdf r hr hb p
  rw [sdist_surface hs _ _ _ h, sdist_pos hs _ _ _ h, dilContains, decide_eq_true_eq]
  exact lt_iff_le_and_ne

/-- **C53** refuted: surface points of a dilated shape are not contained; a point dilated by 2 does not contain `(2)`. -/
theorem C53_dil_contains_refuted :
    (![2] : Fin 1 → ℚ) ∈ dilPts toySqrt {(0 : Fin 1 → ℚ)} 2 ∧
    IsSDist toySqrt {(0 : Fin 1 → ℚ)} ![2] 2 ∧
    dilContains (fun p : Fin 1 → ℚ => |p 0|) 2 ![2] = false := by
  have e : len toySqrt (![2] - (0 : Fin 1 → ℚ)) = 2 := by
    rw [sub_zero]
    decide +kernel
  refine ⟨⟨0, rfl, e.le⟩, ⟨fun _ => ⟨⟨0, rfl, e.symm⟩, ?_⟩, fun h => absurd h ?_⟩, by decide +kernel⟩
  · rintro _ ⟨q, rfl, rfl⟩
    exact e.ge
  · intro h
    have := congrFun (Set.mem_singleton_iff.1 h) 0
    simp at this

/-- **C53**, dilation: support. -/
theorem C53_dil_support (hs : IsSqrt sqrt) (S : Set (Fin n → K)) (support : (Fin n → K) → Fin n → K) (r : K) (hr : 0 ≤ r)
    (d : Fin n → K) (hb : d ≠ 0 → IsSupport S d (support d)) :
    (dilSupport sqrt support r d = none ↔ d = 0) ∧
    ∀ x, dilSupport sqrt support r d = some x → IsSupport (dilPts sqrt S r) d x := by
  refine ⟨by rw [dilSupport, Option.map_eq_none_iff, unit_none hs], fun x hx => ?_⟩
  by_cases h0 : d = 0
  · rw [dilSupport, (unit_none hs _).2 h0] at hx
    cases hx
  obtain ⟨e1, e2⟩ := unit_eq hs h0
  rw [dilSupport, e1, Option.map_some, Option.some.injEq] at hx
  subst hx
  obtain ⟨b1, b2⟩ := hb h0
  have e : (fun i => support d i + ((len sqrt d)⁻¹ • d) i * r) = support d + r • ((len sqrt d)⁻¹ • d) := by
    ext i
    simp only [Pi.add_apply, Pi.smul_apply, smul_eq_mul]
    ring
  rw [e]
  constructor
  · exact ⟨_, b1, by rw [add_sub_cancel_left, len_smul hs, e2, mul_one, abs_of_nonneg hr]⟩
  · rintro y ⟨q, hq, hd⟩
    have h1 := b2 q hq
    rw [dot_eq, dot_eq] at *
    rw [add_dotProduct, smul_dotProduct, unit_dot hs h0, smul_eq_mul]
    have h2 := dot_le_len hs (y - q) d
    rw [sub_dotProduct] at h2
    have h3 := mul_le_mul_of_nonneg_right hd (len_nonneg hs d)
    linarith

/-- **C53**, dilation: bounds. -/
theorem C53_dil_bounds (hs : IsSqrt sqrt) (S : Set (Fin n → K)) (b : Box K n) (r : K) (hr : 0 ≤ r) (hS : S.Nonempty)
    (hb : IsHull S b) : IsHull (dilPts sqrt S r) (dilBounds b r) := by
  constructor
  · rintro p ⟨q, hq, hd⟩
    have h1 := mem_pts.1 (hb.1 hq)
    rw [mem_pts]
    intro i
    have h2 := len_coord hs (p - q) i
    rw [Pi.sub_apply] at h2
    have h3 := abs_le.1 (h2.trans hd)
    have h4 := h1 i
    simp only [dilBounds, Box.dilated, Pi.sub_apply, Pi.add_apply]
    constructor <;> linarith
  · intro c hc p hp
    -- the box shrunk by the dilation still holds the shape
    have hsub : S ⊆ (⟨fun i => c.lo i + r, fun i => c.hi i - r⟩ : Box K n).pts := by
      intro q hq
      rw [mem_pts]
      intro i
      have h1 := mem_pts.1 (hc (⟨q, hq, by rw [add_sub_cancel_left, len_single hs, abs_of_nonneg hr]⟩ :
        q + Pi.single i r ∈ dilPts sqrt S r)) i
      have h2 := mem_pts.1 (hc (⟨q, hq, by rw [add_sub_cancel_left, len_single hs, abs_neg, abs_of_nonneg hr]⟩ :
        q + Pi.single i (-r) ∈ dilPts sqrt S r)) i
      rw [Pi.add_apply, Pi.single_eq_same] at h1 h2
      constructor <;> simp only <;> linarith
    have hne : ∀ i, b.lo i ≤ b.hi i := by
      obtain ⟨s, hsS⟩ := hS
      exact fun i => (mem_pts.1 (hb.1 hsS) i).1.trans (mem_pts.1 (hb.1 hsS) i).2
    have h1 := mem_pts.1 (hb.2 _ hsub (mem_pts.2 fun i => ⟨le_refl _, hne i⟩ : b.lo ∈ b.pts))
    have h2 := mem_pts.1 (hb.2 _ hsub (mem_pts.2 fun i => ⟨hne i, le_refl _⟩ : b.hi ∈ b.pts))
    rw [mem_pts] at hp ⊢
    intro i
    have h3 := hp i
    have h4 := h1 i
    have h5 := h2 i
    simp only [dilBounds, Box.dilated, Pi.sub_apply, Pi.add_apply] at h3 h4 h5
    constructor <;> linarith

/-- Points within an open ball that lies in a set are not on its surface. -/
theorem not_surface (hs : IsSqrt sqrt) (T : Set (Fin n → K)) (p : Fin n → K) (a : K) (hball : ∀ x, len sqrt (p - x) < a → x ∈ T)
    (y : Fin n → K) (hy : y ∈ surface sqrt T) : a ≤ len sqrt (p - y) := by
  by_contra hcon
  push Not at hcon
  obtain ⟨x, hx, hd⟩ := hy.2 (a - len sqrt (p - y)) (by linarith)
  exact hx (hball x (by have := len_tri hs p y x; linarith))

/-- **C53**, dilation: projection of points off the surface of the wrapped shape.  The hypotheses say that the wrapped projection is
right: from outside to the nearest point, and from inside no farther than the shape extends; over the reals both follow from its
being to the nearest surface point (`nearest_outside`, `nearest_inside`). -/
theorem C53_dil_project (hs : IsSqrt sqrt) (S : Set (Fin n → K)) (hS : Convexe S) (sdf : (Fin n → K) → K)
    (hb : ∀ p, IsSDist sqrt S p (sdf p)) (contains : (Fin n → K) → Bool) (project : (Fin n → K) → Fin n → K) (r : K) (hr : 0 ≤ r)
    (p : Fin n → K) (hc : contains p = true ↔ p ∈ S) (hq : IsNearest sqrt S p (project p))
    (hout : p ∉ S → ∀ x ∈ S, len sqrt (p - project p) ≤ len sqrt (p - x))
    (hin : p ∈ S → ∀ x, len sqrt (p - x) < len sqrt (p - project p) → x ∈ S) (hne : project p ≠ p) :
    ∃ y, dilProject sqrt contains project r p = some y ∧ IsNearest sqrt (dilPts sqrt S r) p y := by
  set q := project p with hqd
  have hpq : q - p ≠ 0 := sub_ne_zero.2 hne
  obtain ⟨e1, e2⟩ := unit_eq hs hpq
  have hL := len_pos hs hpq
  set L := len sqrt (q - p) with hLd
  have hLc : len sqrt (p - q) = L := len_sub_comm hs _ _
  have hqS : q ∈ S := hq.1.1
  by_cases hp : p ∈ S
  · -- from inside
    set u := L⁻¹ • (q - p) with hu
    have hqu : q = p + L • u := by rw [hu, smul_smul, mul_inv_cancel₀ hL.ne', one_smul, add_sub_cancel]
    have hcode : dilProject sqrt contains project r p = some (q + r • u) := by
      unfold dilProject
      simp only
      rw [← hqd, e1, Option.map_some]
      simp only [if_pos (hc.2 hp)]
      rfl
    refine ⟨_, hcode, ⟨⟨q, hqS, ?_⟩, fun ε hε => ?_⟩, fun y hy => ?_⟩
    · rw [add_sub_cancel_left, len_smul hs, e2, mul_one, abs_of_nonneg hr]
    · set η := min (ε / 7) (ε * ε * L / (16 * (r * r + 1))) with hη
      have hrr : 0 < 16 * (r * r + 1) := by nlinarith [mul_self_nonneg r]
      have hη0 : 0 < η := lt_min (by linarith) (div_pos (mul_pos (mul_pos hε hε) hL) hrr)
      obtain ⟨x, hxS, hxd⟩ := hq.1.2 η hη0
      obtain ⟨z, hz, _, hmin⟩ := sdist_nearest S x _ (hb x) hxS
      obtain ⟨w, hw, hxw, _, hbeh⟩ := outer hs S hS x z hxS hz hmin
      refine ⟨z + (r + η) • w, beyond hs S z w hw hbeh r _ (by linarith), ?_⟩
      have hww : w ⬝ᵥ w = 1 := by rw [← len_mul_self hs, hw, mul_one]
      have huu : u ⬝ᵥ u = 1 := by rw [← len_mul_self hs, e2, mul_one]
      -- the nearest point to `x` is near `q`
      have hqz : len sqrt (q - z) < 2 * η := by
        have h1 := hmin q hqS
        rw [len_sub_comm hs x q] at h1
        have h2 := len_tri hs q x z
        linarith
      -- its outer direction is near that of `q`
      have hzp : L ≤ (z - p) ⬝ᵥ w := by
        by_contra hcon
        push Not at hcon
        set θ := (max 0 ((z - p) ⬝ᵥ w) + L) / 2 with hθ
        have hm : max 0 ((z - p) ⬝ᵥ w) < L := max_lt hL hcon
        have hm0 : 0 ≤ max 0 ((z - p) ⬝ᵥ w) := le_max_left _ _
        have hm1 : (z - p) ⬝ᵥ w ≤ max 0 ((z - p) ⬝ᵥ w) := le_max_right _ _
        have h3 := hbeh (p + θ • w) (hin hp _ (by
          rw [sub_add_cancel_left, len_neg hs, len_smul hs, hw, mul_one, hLc, abs_of_nonneg (by linarith)]
          linarith))
        rw [show p + θ • w - z = θ • w - (z - p) by abel, sub_dotProduct, smul_dotProduct, hww, smul_eq_mul, mul_one] at h3
        linarith
      have huw : (L - 2 * η) ≤ L * (u ⬝ᵥ w) := by
        have h4 := dot_le_len hs (z - q) w
        rw [hw, mul_one, len_sub_comm hs z q] at h4
        have h5 : L * (u ⬝ᵥ w) = (q - p) ⬝ᵥ w := by
          rw [hu, smul_dotProduct, smul_eq_mul, ← mul_assoc, mul_inv_cancel₀ hL.ne', one_mul]
        rw [h5, show q - p = (z - p) - (z - q) by abel, sub_dotProduct]
        linarith
      have hdist : len sqrt (u - w) * len sqrt (u - w) * L ≤ 4 * η := by
        rw [len_mul_self hs, sub_dotProduct, dotProduct_sub, dotProduct_sub, huu, hww, dotProduct_comm w u]
        nlinarith
      have hρ : r * len sqrt (u - w) < ε / 2 := by
        refine lt_of_mul_self_lt_mul_self₀ (by linarith) ?_
        have h6 : η * (16 * (r * r + 1)) ≤ ε * ε * L := by
          have := mul_le_mul_of_nonneg_right (min_le_right (ε / 7) (ε * ε * L / (16 * (r * r + 1)))) hrr.le
          rwa [div_mul_cancel₀ _ hrr.ne'] at this
        have h7 : (r * len sqrt (u - w) * (r * len sqrt (u - w))) * L < ε / 2 * (ε / 2) * L := by
          have h8 := mul_le_mul_of_nonneg_left hdist (mul_self_nonneg r)
          nlinarith
        exact lt_of_mul_lt_mul_right h7 hL.le
      have hη7 : η ≤ ε / 7 := min_le_left _ _
      have e : q + r • u - (z + (r + η) • w) = (q - z) + (r • (u - w) + (-η) • w) := by
        rw [smul_sub, add_smul, neg_smul]
        abel
      rw [e]
      have t1 := len_add_le hs (q - z) (r • (u - w) + (-η) • w)
      have t2 := len_add_le hs (r • (u - w)) ((-η) • w)
      rw [len_smul hs r, len_smul hs (-η), hw, mul_one, abs_of_nonneg hr, abs_neg, abs_of_pos hη0] at t2
      linarith
    · have h1 := not_surface hs _ p (L + r) (fun x hx => dil_ball hs S r hr p hp L (fun x hx => hin hp x (by rw [hLc]; exact hx))
        hL.le x hx) y hy
      refine le_trans (le_of_eq ?_) h1
      rw [hqu, add_assoc, ← add_smul, sub_add_cancel_left, len_neg hs, len_smul hs, e2, mul_one, abs_of_nonneg (by linarith)]
  · -- from outside
    obtain ⟨u, hu, hpu, hud, hbeh⟩ := outer hs S hS p q hp hqS (hout hp)
    rw [hLc] at hpu hud
    have hcode : dilProject sqrt contains project r p = some (q + r • u) := by
      unfold dilProject
      simp only
      rw [← hqd, e1, Option.map_some]
      simp only [if_neg fun h => hp (hc.1 h)]
      congr 1
      rw [hud]
      ext i
      simp only [Pi.add_apply, Pi.smul_apply, Pi.sub_apply, smul_eq_mul]
      ring
    refine ⟨_, hcode, ⟨⟨q, hqS, ?_⟩, fun ε hε => ⟨q + (r + ε / 2) • u, beyond hs S q u hu hbeh r _ (by linarith), ?_⟩⟩,
      fun y hy => ?_⟩
    · rw [add_sub_cancel_left, len_smul hs, hu, mul_one, abs_of_nonneg hr]
    · rw [add_sub_add_left_eq_sub, ← sub_smul, len_smul hs, hu, mul_one, sub_add_cancel_left, abs_neg, abs_of_pos (by linarith)]
      linarith
    · have hd : len sqrt (p - (q + r • u)) = |L - r| := by
        conv_lhs => rw [hpu]
        rw [add_sub_add_left_eq_sub, ← sub_smul, len_smul hs, hu, mul_one]
      rw [hd]
      rcases le_total r L with h | h
      · rw [abs_of_nonneg (by linarith)]
        obtain ⟨x, hx, hxd⟩ := hy.1
        have h1 := hout hp x hx
        have h2 := len_tri hs p y x
        rw [hLc] at h1
        linarith
      · rw [abs_of_nonpos (by linarith), neg_sub]
        refine not_surface hs (dilPts sqrt S r) p (r - L) (fun x hx => ⟨q, hqS, ?_⟩) y hy
        have := len_tri hs x p q
        rw [len_sub_comm hs x p, hLc] at this
        linarith

/-- **C53** refuted for points on the surface of the wrapped shape, which have no projection. -/
theorem C53_dil_project_refuted (hs : IsSqrt sqrt) (contains : (Fin n → K) → Bool) (project : (Fin n → K) → Fin n → K) (r : K)
    (p : Fin n → K) (h : project p = p) : dilProject sqrt contains project r p = none := by
  unfold dilProject
  simp only
  rw [h, sub_self, (unit_none hs _).2 rfl, Option.map_none]

/-- **C53**: a rounded rectangle is bounded by the rectangle, its core is a rectangle with points, and its radius is not negative. -/
theorem C53_roundrect (b : Box K n) (m radius : K) (hm : ∀ i, m ≤ b.hi i - b.lo i) (hm0 : 0 ≤ m) (hr : 0 ≤ radius) :
    dilBounds (roundrect b m radius).1 (roundrect b m radius).2 = b ∧
    (roundrect b m radius).1.isEmpty = false ∧
    0 ≤ (roundrect b m radius).2 ∧ (roundrect b m radius).2 ≤ radius := by
  have e : stdMin radius (m / 2) = min radius (m / 2) := stdMin_eq _ _
  refine ⟨?_, ?_, ?_, ?_⟩
  · simp only [dilBounds, roundrect, Box.dilated]
    congr 1
    · ext i
      simp
    · ext i
      simp
  · rw [not_empty_iff]
    intro i
    simp only [roundrect, Box.dilated, Pi.sub_apply, Pi.add_apply, e]
    have h1 := min_le_right radius (m / 2)
    have h2 := hm i
    linarith
  · simp only [roundrect, e]
    exact le_min hr (by linarith)
  · simp only [roundrect, e]
    exact min_le_left _ _

example : dilSupport toySqrt (fun d => (⟨![0, 0], ![4, 4]⟩ : Box ℚ 2).support d) 5 ![3, 4] = some ![7, 8] := by decide +kernel
example : dilBounds (⟨![0, 0], ![4, 4]⟩ : Box ℚ 2) 5 = ⟨![-5, -5], ![9, 9]⟩ := by decide +kernel
example : roundrect (⟨![0, 0], ![4, 6]⟩ : Box ℚ 2) 4 1 = (⟨![1, 1], ![3, 5]⟩, 1) := by decide +kernel
example : roundrect (⟨![0, 0], ![4, 6]⟩ : Box ℚ 2) 4 9 = (⟨![2, 2], ![2, 4]⟩, 2) := by decide +kernel

end Geomc.Shape
