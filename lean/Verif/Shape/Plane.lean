import Verif.Orthog.Props
import Verif.Shape.PlaneModel
import Verif.Shape.Dilated
import Verif.Shape.Oriented

/-!
# C55: planes

A plane bounds the half space on the side away from its normal.
-/

namespace Geomc.Shape

open Geomc.Vec Geomc.Rect Geomc.Affine

variable {K : Type} {n : ℕ} [Field K] [LinearOrder K] [IsStrictOrderedRing K] {sqrt : K → K}

/-- The points on a plane, and the half space below it. -/
def Plane.on (P : Plane K n) : Set (Fin n → K) := {p | P.normal ⬝ᵥ p + P.d = 0}
def Plane.below (P : Plane K n) : Set (Fin n → K) := {p | P.normal ⬝ᵥ p + P.d ≤ 0}

omit [LinearOrder K] [IsStrictOrderedRing K] in
theorem distance_eq (P : Plane K n) (p : Fin n → K) : P.distance p = P.normal ⬝ᵥ p + P.d := by
  rw [Plane.distance, dot_eq]

/-- **C55**: a plane made from a normal and a point goes through the point, bounds the half space away from the normal, and its
normal has unit length; a zero normal is undefined. -/
theorem C55_through (hs : IsSqrt sqrt) (v pt : Fin n → K) :
    (v = 0 → Plane.through sqrt v pt = none ∧ Plane.ofNormal sqrt v = none) ∧
    (v ≠ 0 → ∃ P Q, Plane.through sqrt v pt = some P ∧ Plane.ofNormal sqrt v = some Q ∧
      P.normal ⬝ᵥ P.normal = 1 ∧ (∀ p, p ∈ P.on ↔ (p - pt) ⬝ᵥ v = 0) ∧ (∀ p, p ∈ P.below ↔ (p - pt) ⬝ᵥ v ≤ 0) ∧
      Q.normal ⬝ᵥ Q.normal = 1 ∧ (∀ p, p ∈ Q.on ↔ p ⬝ᵥ v = 0) ∧ (∀ p, p ∈ Q.below ↔ p ⬝ᵥ v ≤ 0)) := by
  constructor
  · rintro rfl
    have := (unit_none hs (0 : Fin n → K)).2 rfl
    simp [Plane.through, Plane.ofNormal, this]
  · intro hv
    have hl := len_pos hs hv
    have hu := (unit_eq hs hv).1
    have h1 : ((len sqrt v)⁻¹ • v) ⬝ᵥ ((len sqrt v)⁻¹ • v) = 1 := by
      rw [smul_dotProduct, dotProduct_smul, smul_eq_mul, smul_eq_mul, ← len_mul_self hs v]
      field_simp
    have e : ∀ p, ((len sqrt v)⁻¹ • v) ⬝ᵥ p + -(pt ⬝ᵥ ((len sqrt v)⁻¹ • v)) = (len sqrt v)⁻¹ * ((p - pt) ⬝ᵥ v) := by
      intro p
      rw [smul_dotProduct, dotProduct_smul, smul_eq_mul, smul_eq_mul, sub_dotProduct, dotProduct_comm v p]
      ring
    have e0 : ∀ p, ((len sqrt v)⁻¹ • v) ⬝ᵥ p + 0 = (len sqrt v)⁻¹ * (p ⬝ᵥ v) := by
      intro p
      rw [smul_dotProduct, smul_eq_mul, dotProduct_comm v p, add_zero]
    have hi : 0 < (len sqrt v)⁻¹ := inv_pos.2 hl
    have hsign : ∀ x : K, (len sqrt v)⁻¹ * x ≤ 0 ↔ x ≤ 0 := fun x =>
      ⟨fun h => by by_contra hx; push Not at hx; linarith [mul_pos hi hx], fun h => mul_nonpos_of_nonneg_of_nonpos hi.le h⟩
    refine ⟨_, _, by rw [Plane.through, hu, Option.map_some], by rw [Plane.ofNormal, hu, Option.map_some], h1, ?_, ?_, h1, ?_, ?_⟩
    · intro p
      change _ + -dot pt _ = 0 ↔ _
      rw [dot_eq, e, mul_eq_zero]
      exact ⟨fun h => h.resolve_left hi.ne', Or.inr⟩
    · intro p
      change _ + -dot pt _ ≤ 0 ↔ _
      rw [dot_eq, e]
      exact hsign _
    · intro p
      change _ + 0 = 0 ↔ _
      rw [e0, mul_eq_zero]
      exact ⟨fun h => h.resolve_left hi.ne', Or.inr⟩
    · intro p
      change _ + 0 ≤ 0 ↔ _
      rw [e0]
      exact hsign _

/-- The foot of the perpendicular. -/
theorem foot_on (P : Plane K n) (hn : P.normal ⬝ᵥ P.normal = 1) (p : Fin n → K) (s : K) :
    P.normal ⬝ᵥ (p + s • P.normal) + P.d = P.normal ⬝ᵥ p + P.d + s := by
  rw [dotProduct_add, dotProduct_smul, hn, smul_eq_mul]
  ring

theorem unit_len (hs : IsSqrt sqrt) (P : Plane K n) (hn : P.normal ⬝ᵥ P.normal = 1) : len sqrt P.normal = 1 :=
  len_eq hs zero_le_one (by rw [hn, one_mul])

theorem drop_le (hs : IsSqrt sqrt) (P : Plane K n) (hn : P.normal ⬝ᵥ P.normal = 1) (p q : Fin n → K) :
    P.normal ⬝ᵥ p - P.normal ⬝ᵥ q ≤ len sqrt (p - q) := by
  have := dot_le_len hs P.normal (p - q)
  rw [unit_len hs P hn, one_mul, dotProduct_sub] at this
  exact this

/-- **C55**: the distance is the signed distance to the half space, and its size is the least distance to a point on the
plane. -/
theorem C55_distance (hs : IsSqrt sqrt) (P : Plane K n) (hn : P.normal ⬝ᵥ P.normal = 1) (p : Fin n → K) :
    IsSDist sqrt P.below p (P.sdf p) ∧ IsLeast {x | ∃ q ∈ P.on, x = len sqrt (p - q)} |P.distance p| := by
  have hl := unit_len hs P hn
  rw [Plane.sdf, distance_eq]
  have hfoot : ∀ s : K, len sqrt (p - (p + s • P.normal)) = |s| := by
    intro s
    rw [sub_add_cancel_left, len_neg hs, len_smul hs, hl, mul_one]
  refine ⟨⟨fun hp => ?_, fun hp => ?_⟩, ?_⟩
  · change ¬ _ ≤ _ at hp
    push Not at hp
    refine ⟨⟨p + (-(P.normal ⬝ᵥ p + P.d)) • P.normal, ?_, ?_⟩, ?_⟩
    · change _ ≤ _
      rw [foot_on P hn]
      linarith
    · rw [hfoot, abs_neg, abs_of_pos hp]
    · rintro _ ⟨q, hq, rfl⟩
      change _ ≤ _ at hq
      have := drop_le hs P hn p q
      linarith
  · change _ ≤ _ at hp
    refine ⟨hp, fun q hq => ?_, fun ρ hρ => ?_⟩
    · change _ ≤ _
      have := drop_le hs P hn q p
      rw [len_sub_comm hs] at this
      linarith
    · obtain ⟨m, hm1, hm2⟩ := exists_between hρ
      refine ⟨p + m • P.normal, ?_, ?_⟩
      · rw [hfoot, abs_of_pos (by linarith)]
        exact hm2
      · change ¬ _ ≤ _
        rw [foot_on P hn]
        linarith
  · refine ⟨⟨p + (-(P.normal ⬝ᵥ p + P.d)) • P.normal, ?_, ?_⟩, ?_⟩
    · change _ = _
      rw [foot_on P hn]
      ring
    · rw [hfoot, abs_neg]
    · rintro _ ⟨q, hq, rfl⟩
      change _ = _ at hq
      have h1 := drop_le hs P hn p q
      have h2 := drop_le hs P hn q p
      rw [len_sub_comm hs] at h2
      exact abs_le.2 ⟨by linarith, by linarith⟩

omit [IsStrictOrderedRing K] in
/-- **C55**: containment is the half space below. -/
theorem C55_contains (P : Plane K n) (p : Fin n → K) : P.contains p = true ↔ p ∈ P.below := by
  rw [Plane.contains, decide_eq_true_iff, distance_eq]
  rfl

/-- **C55**: projection is the nearest point of the plane, and the only one. -/
theorem C55_project (hs : IsSqrt sqrt) (P : Plane K n) (hn : P.normal ⬝ᵥ P.normal = 1) (p : Fin n → K) :
    P.project p ∈ P.on ∧ (∀ q ∈ P.on, len sqrt (p - P.project p) ≤ len sqrt (p - q)) ∧
    (∀ q ∈ P.on, len sqrt (p - q) ≤ len sqrt (p - P.project p) → q = P.project p) ∧ P.origin = P.project 0 := by
  have e : P.project p = p + (-(P.normal ⬝ᵥ p + P.d)) • P.normal := by
    ext i
    rw [Plane.project, dot_eq, dotProduct_comm]
    simp only [Pi.add_apply, Pi.smul_apply, smul_eq_mul]
    ring
  have hon : P.project p ∈ P.on := by
    change _ = _
    rw [e, foot_on P hn]
    ring
  -- the two legs
  have hleg : ∀ q ∈ P.on, (p - q) ⬝ᵥ (p - q) = (p - P.project p) ⬝ᵥ (p - P.project p) + (P.project p - q) ⬝ᵥ (P.project p - q) := by
    intro q hq
    have hz : (p - P.project p) ⬝ᵥ (P.project p - q) = 0 := by
      have h1 : P.normal ⬝ᵥ (P.project p - q) = 0 := by
        change _ = _ at hon
        change _ = _ at hq
        rw [dotProduct_sub]
        linarith
      nth_rw 1 [e]
      rw [sub_add_cancel_left, ← neg_smul, smul_dotProduct, h1, smul_zero]
    have e2 : p - q = (p - P.project p) + (P.project p - q) := by abel
    generalize p - P.project p = a at *
    generalize P.project p - q = b at *
    rw [e2, add_dotProduct, dotProduct_add, dotProduct_add, dotProduct_comm b a, hz]
    ring
  have h0 : ∀ u : Fin n → K, 0 ≤ u ⬝ᵥ u := self_dot_nonneg
  refine ⟨hon, fun q hq => ?_, fun q hq hle => ?_, ?_⟩
  · rw [len_le_iff hs (len_nonneg hs _), len_mul_self hs, hleg q hq]
    linarith [h0 (P.project p - q)]
  · rw [len_le_iff hs (len_nonneg hs _), len_mul_self hs, hleg q hq] at hle
    have := (self_dot_eq_zero _).1 (le_antisymm (by linarith) (h0 (P.project p - q)))
    exact (sub_eq_zero.1 this).symm
  · ext i
    simp [Plane.origin, Plane.project, dot_eq]

/-! ### Planes through simplexes -/

theorem spans {w : Fin n → K} (hs : IsSqrt sqrt) (hw : w ≠ 0) (points : ℕ → Fin n → K) (m : ℕ)
    (h : ∀ i < m, edges points i ⬝ᵥ w = 0) :
    ∃ P, Plane.fromBasisAt sqrt w (points 0) = some P ∧ P.normal ⬝ᵥ P.normal = 1 ∧ ∀ i ≤ m, points i ∈ P.on := by
  obtain ⟨P, -, h1, -, h2, h3, -⟩ := (C55_through hs w (points 0)).2 hw
  refine ⟨P, h1, h2, fun i hi => (h3 _).2 ?_⟩
  rcases i with _ | i
  · rw [sub_self, zero_dotProduct]
  · exact h i (by omega)

/-- **C55**: in two and three dimensions the plane through a simplex contains its vertices, for every simplex that spans a
plane. -/
theorem C55_simplex_2_3 (hs : IsSqrt sqrt) (a : ℕ → Fin 2 → K) (b : ℕ → Fin 3 → K) :
    (a 0 ≠ a 1 → ∃ P, Plane.fromSimplex2 sqrt a = some P ∧ P.normal ⬝ᵥ P.normal = 1 ∧ ∀ i ≤ 1, a i ∈ P.on) ∧
    ((∀ s t : K, s • (b 1 - b 0) + t • (b 2 - b 0) = 0 → s = 0 ∧ t = 0) →
      ∃ P, Plane.fromSimplex3 sqrt b = some P ∧ P.normal ⬝ᵥ P.normal = 1 ∧ ∀ i ≤ 2, b i ∈ P.on) := by
  constructor
  · intro h
    obtain ⟨h1, h2⟩ := LU.C36_orthogonal2 (edges a 0)
    refine spans hs (fun h0 => h ?_) a 1 (fun i hi => ?_)
    · exact (sub_eq_zero.1 (h2.1 h0)).symm
    · obtain rfl : i = 0 := by omega
      exact h1
  · intro h
    obtain ⟨h1, h2, h3⟩ := LU.C36_orthogonal3 (edges b 0) (edges b 1)
    refine spans hs (fun h0 => ?_) b 2 (fun i hi => ?_)
    · obtain ⟨s, t, hst, e⟩ := h3.1 h0
      obtain ⟨rfl, rfl⟩ := h s t e
      simp at hst
    · have : i = 0 ∨ i = 1 := by omega
      rcases this with rfl | rfl
      · exact h1
      · exact h2

/-- **C55**: in higher dimensions a plane that comes out contains the vertices.  (For which simplexes one comes out is C36.) -/
theorem C55_simplex (hs : IsSqrt sqrt) (hn : 1 ≤ n) (a : ℕ → Fin n → K) (P : Plane K n)
    (h : Plane.fromSimplex sqrt a = some P) : P.normal ⬝ᵥ P.normal = 1 ∧ ∀ i < n, a i ∈ P.on := by
  rw [Plane.fromSimplex, Option.bind_eq_some_iff] at h
  obtain ⟨w, hw, hP⟩ := h
  have hsound := LU.C36_orthogonal_sound _ hn w hw
  have hperp : ∀ i < n - 1, edges a i ⬝ᵥ (fun c : Fin n => w c) = 0 := by
    intro i hi
    have := hsound i hi
    rw [Finset.sum_range] at this
    rw [← this, dotProduct]
    exact Finset.sum_congr rfl fun c _ => by rw [dif_pos c.2]
  have hne : (fun c : Fin n => w c) ≠ 0 := by
    intro h0
    rw [Plane.fromBasisAt, ((C55_through hs _ (a 0)).1 h0).1] at hP
    cases hP
  obtain ⟨Q, hQ, h1, h2⟩ := spans hs hne a (n - 1) hperp
  rw [hQ, Option.some.injEq] at hP
  subst hP
  exact ⟨h1, fun i hi => h2 i (by omega)⟩

/-! ### Shapes against planes -/

/-- **C55**: a shape is below the plane iff all of its points are. -/
theorem C55_contains_shape (S : Set (Fin n → K)) (support : (Fin n → K) → Fin n → K) (P : Plane K n)
    (hb : IsSupport S P.normal (support P.normal)) : P.containsShape support = true ↔ S ⊆ P.below := by
  obtain ⟨h1, h2⟩ := hb
  simp only [dot_eq] at h2
  rw [Plane.containsShape, decide_eq_true_iff, dot_eq]
  constructor
  · intro h p hp
    change _ ≤ _
    have := h2 p hp
    rw [dotProduct_comm] at this
    linarith
  · intro h
    have := h h1
    change _ ≤ _ at this
    rw [dotProduct_comm] at this
    linarith

/-- **C55**: what the test against a convex shape decides is whether the plane goes through the shape with points of the shape
above it. -/
theorem C55_intersects_iff (S : Set (Fin n → K)) (hS : Convexe S) (support : (Fin n → K) → Fin n → K) (P : Plane K n)
    (hb : IsSupport S P.normal (support P.normal)) (hb' : IsSupport S (-P.normal) (support (-P.normal))) :
    P.intersects support = true ↔ (∃ p ∈ S, p ∈ P.on) ∧ ∃ p ∈ S, p ∉ P.below := by
  obtain ⟨h1, h2⟩ := hb
  obtain ⟨h1', h2'⟩ := hb'
  simp only [dot_eq, dotProduct_neg, neg_le_neg_iff] at h2 h2'
  rw [Plane.intersects, Bool.and_eq_true, decide_eq_true_iff, decide_eq_true_iff, dot_eq, dot_eq]
  generalize support P.normal = a at *
  generalize support (-P.normal) = b at *
  constructor
  · rintro ⟨ha, hb⟩
    refine ⟨?_, a, h1, fun h => ?_⟩
    · have hne : 0 < a ⬝ᵥ P.normal - b ⬝ᵥ P.normal := by linarith
      refine ⟨_, hS b h1' a h1 (-(b ⬝ᵥ P.normal + P.d) / (a ⬝ᵥ P.normal - b ⬝ᵥ P.normal)) ?_ ?_, ?_⟩
      · exact div_nonneg (by linarith) hne.le
      · rw [div_le_one hne]
        linarith
      · change _ = _
        rw [dotProduct_add, dotProduct_smul, dotProduct_sub, dotProduct_comm _ a, dotProduct_comm _ b, smul_eq_mul,
          div_mul_cancel₀ _ hne.ne']
        ring
    · change _ ≤ _ at h
      rw [dotProduct_comm] at h
      linarith
  · rintro ⟨⟨p, hp, hon⟩, q, hq, hab⟩
    change _ = _ at hon
    change ¬ _ ≤ _ at hab
    push Not at hab
    rw [dotProduct_comm] at hon hab
    exact ⟨by linarith [h2 q hq], by linarith [h2' p hp]⟩

/-- **C55** refuted: a shape that touches the plane from below, or lies in it, is reported as apart from it. -/
theorem C55_intersects_refuted (S : Set (Fin n → K)) (support : (Fin n → K) → Fin n → K) (P : Plane K n)
    (hb : IsSupport S P.normal (support P.normal)) (hin : S ⊆ P.below) : P.intersects support = false := by
  have := hin hb.1
  change _ ≤ _ at this
  rw [Plane.intersects, Bool.and_eq_false_iff, decide_eq_false_iff_not, dot_eq, dotProduct_comm]
  exact .inl (not_lt.2 this)

/-- A sphere meets the plane iff the centre is within a radius of it. -/
theorem sphere_meets (hs : IsSqrt sqrt) (P : Plane K n) (hn : P.normal ⬝ᵥ P.normal = 1) (s : Ball K n) :
    (∃ p ∈ s.pts sqrt, p ∈ P.on) ↔ |P.distance s.center| ≤ s.r := by
  obtain ⟨⟨q, hq, e⟩, hmin⟩ := (C55_distance hs P hn s.center).2
  constructor
  · rintro ⟨p, hp, hon⟩
    have h1 := hmin ⟨p, hon, rfl⟩
    rw [mem_ball, len_sub_comm hs] at hp
    exact h1.trans hp
  · intro h
    refine ⟨q, ?_, hq⟩
    rw [mem_ball, len_sub_comm hs, ← e]
    exact h

/-- **C55**: for a sphere the test decides whether the centre is at least a radius above; it agrees with the sphere meeting
the plane only if the sphere touches it from above or lies strictly below. -/
theorem C55_sphere_iff (hs : IsSqrt sqrt) (P : Plane K n) (hn : P.normal ⬝ᵥ P.normal = 1) (s : Ball K n) (hr : 0 ≤ s.r) :
    (P.intersectsSphere s = true ↔ ∃ p ∈ s.pts sqrt, p ∈ P.on) ↔ P.distance s.center = s.r ∨ P.distance s.center < -s.r := by
  rw [sphere_meets hs P hn, Plane.intersectsSphere, decide_eq_true_iff, abs_le]
  generalize P.distance s.center = x
  generalize s.r = r at *
  constructor
  · intro h
    by_contra hc
    push Not at hc
    obtain ⟨h1, h2⟩ := hc
    rcases lt_or_ge x r with h3 | h3
    · exact absurd (h.2 ⟨h2, h3.le⟩) (not_le.2 h3)
    · exact h1 (le_antisymm (h.1 h3).2 h3)
  · rintro (rfl | h)
    · exact ⟨fun _ => ⟨by linarith, le_rfl⟩, fun _ => le_rfl⟩
    · exact ⟨fun h' => by linarith, fun h' => by linarith [h'.1]⟩

/-- **C55** refuted: a sphere centred on the plane is reported as apart from it. -/
theorem C55_sphere_refuted (hs : IsSqrt sqrt) (P : Plane K n) (s : Ball K n) (hr : 0 < s.r) (hc : s.center ∈ P.on) :
    P.intersectsSphere s = false ∧ s.center ∈ s.pts sqrt := by
  constructor
  · rw [Plane.intersectsSphere, decide_eq_false_iff_not, distance_eq, show _ = (0 : K) from hc, not_le]
    exact hr
  · rw [mem_ball, sub_self, (len_eq_zero hs).2 rfl]
    exact hr.le

omit [IsStrictOrderedRing K] in
/-- **C55** refuted: the test against the hull of a set of points never reports an intersection. -/
theorem C55_hull_refuted (P : Plane K n) (hull : ℕ → Fin n → K) (npts : ℕ) : P.intersectsHull hull npts = false := by
  have : ∀ (l : List ℕ) (s : Option Bool × Option Bool), s.2 ≠ some true →
      (l.foldl (P.hullStep hull) s).2 ≠ some true := by
    intro l
    induction l with
    | nil => exact fun s h => h
    | cons i l ih =>
      intro s h
      apply ih
      unfold Plane.hullStep
      simp only
      split_ifs <;> simp_all
  have h := this (List.range npts) (none, none) (by simp)
  unfold Plane.intersectsHull
  generalize ((List.range npts).foldl (P.hullStep hull) (none, none)).2 = r at h
  rcases r with _ | _ | _ <;> simp_all

/-! ### Transformed planes -/

theorem below_inj {u : Fin n → K} (hu : u ⬝ᵥ u = 1) {a b : K} :
    (⟨u, a⟩ : Plane K n).below = (⟨u, b⟩ : Plane K n).below ↔ a = b := by
  constructor
  · intro h
    have key : ∀ a b : K, (⟨u, a⟩ : Plane K n).below ⊆ (⟨u, b⟩ : Plane K n).below → b ≤ a := by
      intro a b h
      have h1 : (-a) • u ∈ (⟨u, a⟩ : Plane K n).below := by
        change u ⬝ᵥ _ + a ≤ 0
        rw [dotProduct_smul, hu, smul_eq_mul]
        linarith
      have h2 := h h1
      change u ⬝ᵥ _ + b ≤ 0 at h2
      rw [dotProduct_smul, hu, smul_eq_mul] at h2
      linarith
    exact le_antisymm (key b a h.ge) (key a b h.le)
  · rintro rfl
    rfl

/-- The image of the half space below a plane. -/
theorem placed_below (hs : IsSqrt sqrt) (P : Plane K n) (hn : P.normal ⬝ᵥ P.normal = 1) {x : XF K n} (hx : Wf x) :
    ∃ u : Fin n → K, ∃ c : K, unit sqrt (x.applyNormal P.normal) = some u ∧ u ⬝ᵥ u = 1 ∧ 0 < c ∧
      (∀ p q, u ⬝ᵥ x.apply p - u ⬝ᵥ x.apply q = c * (P.normal ⬝ᵥ (p - q))) ∧
      placed x P.below = (⟨u, c * P.d - u ⬝ᵥ x.apply 0⟩ : Plane K n).below := by
  have hne : x.applyNormal P.normal ≠ 0 := by
    intro h
    have := (wf_undo hx P.normal).2.2.1
    rw [h, (vector_eq _).2.2.2, Matrix.mulVec_zero] at this
    rw [← this, zero_dotProduct] at hn
    exact zero_ne_one hn
  have hl := len_pos hs hne
  obtain ⟨hu, hu1⟩ := unit_eq hs hne
  have hdiff : ∀ p q, ((len sqrt (x.applyNormal P.normal))⁻¹ • x.applyNormal P.normal) ⬝ᵥ x.apply p -
      ((len sqrt (x.applyNormal P.normal))⁻¹ • x.applyNormal P.normal) ⬝ᵥ x.apply q =
      (len sqrt (x.applyNormal P.normal))⁻¹ * (P.normal ⬝ᵥ (p - q)) := by
    intro p q
    rw [← dotProduct_sub, apply_sub, smul_dotProduct, smul_eq_mul, dotProduct_comm, applyVector_dot, (wf_undo hx P.normal).2.2.1,
      dotProduct_comm]
  refine ⟨_, (len sqrt (x.applyNormal P.normal))⁻¹, hu, ?_, inv_pos.2 hl, hdiff, ?_⟩
  · rw [← len_mul_self hs, hu1, one_mul]
  · ext q
    rw [placed_inverse hx]
    have h := hdiff (x.applyInverse q) 0
    rw [(wf_undo hx q).1.2, sub_zero] at h
    change P.normal ⬝ᵥ _ + P.d ≤ 0 ↔ _ ⬝ᵥ q + (_ - _) ≤ 0
    have e : ((len sqrt (x.applyNormal P.normal))⁻¹ • x.applyNormal P.normal) ⬝ᵥ q +
        ((len sqrt (x.applyNormal P.normal))⁻¹ * P.d - ((len sqrt (x.applyNormal P.normal))⁻¹ • x.applyNormal P.normal) ⬝ᵥ x.apply 0) =
        (len sqrt (x.applyNormal P.normal))⁻¹ * (P.normal ⬝ᵥ x.applyInverse q + P.d) := by
      rw [mul_add, ← h]
      ring
    rw [e]
    have hi := inv_pos.2 hl
    exact ⟨fun h => mul_nonpos_of_nonneg_of_nonpos hi.le h,
      fun h => by by_contra hx; push Not at hx; linarith [mul_pos hi hx]⟩

/-- **C55**: exactly the transforms whose translation is along the new plane are applied rightly. -/
theorem C55_apply_iff (hs : IsSqrt sqrt) (P : Plane K n) (hn : P.normal ⬝ᵥ P.normal = 1) {x : XF K n} (hx : Wf x) :
    ∃ Q, P.apply sqrt x = some Q ∧ Q.normal ⬝ᵥ Q.normal = 1 ∧
      (Q.below = placed x P.below ↔ Q.normal ⬝ᵥ x.apply 0 = 0) := by
  obtain ⟨u, c, hu, h1, hc, hd, hp⟩ := placed_below hs P hn hx
  refine ⟨⟨u, dot (x.apply fun i => P.normal i * P.d) u⟩, by rw [Plane.apply, hu, Option.map_some], h1, ?_⟩
  rw [hp, below_inj h1, dot_eq, dotProduct_comm]
  have h := hd (fun i => P.normal i * P.d) 0
  have e : (fun i => P.normal i * P.d) = P.d • P.normal := by ext i; simp [mul_comm]
  rw [sub_zero, e, dotProduct_smul, hn, smul_eq_mul, mul_one] at h
  rw [e]
  constructor
  · intro h'
    change u ⬝ᵥ _ = 0
    linarith
  · intro h'
    change u ⬝ᵥ _ = 0 at h'
    linarith

/-- **C55**: likewise for the inverse. -/
theorem C55_apply_inverse_iff (hs : IsSqrt sqrt) (P : Plane K n) (hn : P.normal ⬝ᵥ P.normal = 1) {x : XF K n} (hx : Wf x) :
    ∃ Q, P.applyInverse sqrt x = some Q ∧ Q.normal ⬝ᵥ Q.normal = 1 ∧
      (Q.below = {p | x.apply p ∈ P.below} ↔ Q.normal ⬝ᵥ x.applyInverse 0 = 0) := by
  obtain ⟨Q, h1, h2, h3⟩ := C55_apply_iff hs P hn (inverse_wf hx)
  rw [placed_undo hx] at h3
  exact ⟨Q, h1, h2, h3⟩

/-- **C55** refuted: translating a plane moves it the opposite way. -/
theorem C55_apply_refuted (hs : IsSqrt sqrt) (P : Plane K n) (hn : P.normal ⬝ᵥ P.normal = 1) (t : Fin n → K) :
    ∃ Q, P.apply sqrt (translation t) = some Q ∧ Q.below = placed (translation (-t)) P.below := by
  have same : ∀ t : Fin n → K, unit sqrt ((translation t).applyNormal P.normal) = some P.normal ∧
      placed (translation t) P.below = (⟨P.normal, P.d - P.normal ⬝ᵥ t⟩ : Plane K n).below := by
    intro t
    obtain ⟨u, c, hu, h1, hc, hd, hp⟩ := placed_below hs P hn (translation_wf t)
    have hlin : ∀ p, u ⬝ᵥ p = c * (P.normal ⬝ᵥ p) := by
      intro p
      have := hd p 0
      rw [(translation_apply t p).1, (translation_apply t 0).1, zero_add, sub_zero, dotProduct_add, add_sub_cancel_right] at this
      exact this
    have hcc : c * c = 1 := by
      have e1 := hlin u
      have e2 := hlin P.normal
      rw [hn, mul_one] at e2
      rw [h1, dotProduct_comm, e2] at e1
      exact e1.symm
    have hc1 : c = 1 := by nlinarith
    have huN : u = P.normal := by
      ext i
      have := hlin (Pi.single i 1)
      rwa [hc1, one_mul, dotProduct_single, dotProduct_single, mul_one, mul_one] at this
    rw [huN, hc1, one_mul, (translation_apply t 0).1, zero_add] at hp
    exact ⟨huN ▸ hu, hp⟩
  refine ⟨_, by rw [Plane.apply, (same t).1, Option.map_some], ?_⟩
  rw [(same (-t)).2, below_inj hn, dot_eq, (translation_apply t _).1]
  have e : (fun i => P.normal i * P.d) = P.d • P.normal := by ext i; simp [mul_comm]
  rw [e, add_dotProduct, smul_dotProduct, hn, dotProduct_neg, dotProduct_comm t, smul_eq_mul]
  ring

/-- **C55** refuted: dilating a plane moves it against its normal, into the half space. -/
theorem C55_dilate_refuted (P : Plane K n) (hn : P.normal ⬝ᵥ P.normal = 1) (r : K) :
    (P.dilate r).below = {p | P.distance p ≤ -r} ∧ ((P.dilate r).below = {p | P.distance p ≤ r} ↔ r = 0) := by
  have h1 : ∀ s : K, {p | P.distance p ≤ s} = (⟨P.normal, P.d - s⟩ : Plane K n).below := by
    intro s
    ext p
    change P.distance p ≤ s ↔ P.normal ⬝ᵥ p + (P.d - s) ≤ 0
    rw [distance_eq]
    constructor <;> intro h <;> linarith
  constructor
  · rw [h1, sub_neg_eq_add]
    rfl
  · rw [h1]
    change (⟨P.normal, P.d + r⟩ : Plane K n).below = _ ↔ _
    rw [below_inj hn]
    constructor <;> intro h <;> linarith

omit [IsStrictOrderedRing K] in
/-- **C55**: the default plane goes through the origin; the points below it are those without a positive first coordinate. -/
theorem C55_default (p : Fin (n + 1) → K) :
    (p ∈ (Plane.default : Plane K (n + 1)).below ↔ p 0 ≤ 0) ∧ (Plane.default : Plane K (n + 1)).distance p = p 0 := by
  have h : (Plane.default : Plane K (n + 1)).distance p = p 0 := by
    rw [distance_eq, Plane.default, single_one_dotProduct, add_zero]
  refine ⟨?_, h⟩
  rw [← h, distance_eq]
  rfl

/-! ### Concrete instances -/

example : (Plane.through toySqrt ![3, 4] ![1, 1] : Option (Plane ℚ 2)) = some ⟨![3/5, 4/5], -7/5⟩ := by decide +kernel
example : (⟨![3/5, 4/5], -7/5⟩ : Plane ℚ 2).distance ![4, 5] = 5 := by decide +kernel
example : (⟨![3/5, 4/5], -7/5⟩ : Plane ℚ 2).project ![4, 5] = ![1, 1] := by decide +kernel
example : (⟨![0, 1], 0⟩ : Plane ℚ 2).intersects square.support = true := by decide +kernel
example : (⟨![0, 1], -1⟩ : Plane ℚ 2).intersects square.support = false := by decide +kernel
example : (⟨![0, 1], -1⟩ : Plane ℚ 2).apply toySqrt (translation ![0, 3]) = some ⟨![0, 1], 2⟩ := by decide +kernel
example : Plane.fromSimplex3 toySqrt (fun i => if i = 0 then ![0, 0, 5] else if i = 1 then ![1, 0, 5] else ![0, 2, (5 : ℚ)]) =
    some ⟨![0, 0, 1], -5⟩ := by decide +kernel

end Geomc.Shape
