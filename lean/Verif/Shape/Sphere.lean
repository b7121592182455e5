import Verif.Shape.Basic
import Verif.Shape.Model
import Verif.Rect.Dist

/-!
# C50: spheres
-/

namespace Geomc.Shape

open Geomc.Vec Geomc.Rect

variable {K : Type} {n : ℕ} [Field K] [LinearOrder K] [IsStrictOrderedRing K] {sqrt : K → K}

/-! ### Quadratics -/

theorem between_iff (x y t : K) : (min x y ≤ t ∧ t ≤ max x y) ↔ (t - x) * (t - y) ≤ 0 := by
  rcases le_total x y with h | h
  · rw [min_eq_left h, max_eq_right h]
    constructor
    · rintro ⟨h1, h2⟩
      exact mul_nonpos_of_nonneg_of_nonpos (by linarith) (by linarith)
    · intro h1
      constructor
      · by_contra h2
        push Not at h2
        nlinarith [mul_pos_of_neg_of_neg (show t - x < 0 by linarith) (show t - y < 0 by linarith)]
      · by_contra h2
        push Not at h2
        nlinarith [mul_pos (show 0 < t - x by linarith) (show 0 < t - y by linarith)]
  · rw [min_eq_right h, max_eq_left h]
    constructor
    · rintro ⟨h1, h2⟩
      exact mul_nonpos_of_nonpos_of_nonneg (by linarith) (by linarith)
    · intro h1
      constructor
      · by_contra h2
        push Not at h2
        nlinarith [mul_pos_of_neg_of_neg (show t - x < 0 by linarith) (show t - y < 0 by linarith)]
      · by_contra h2
        push Not at h2
        nlinarith [mul_pos (show 0 < t - x by linarith) (show 0 < t - y by linarith)]

/-- The quadratic solver finds exactly the interval where an upward parabola is not positive. -/
theorem quad_nonpos (hs : IsSqrt sqrt) {a b c : K} (ha : 0 < a) :
    (quadSolve sqrt a b c = none → ∀ t, 0 < a * t * t + b * t + c) ∧
    ∀ r, quadSolve sqrt a b c = some r → ∀ t, (a * t * t + b * t + c ≤ 0 ↔ min r.1 r.2 ≤ t ∧ t ≤ max r.1 r.2) := by
  unfold quadSolve
  simp only
  by_cases hd : b * b - 4 * a * c < 0
  · rw [if_pos (Or.inl hd)]
    refine ⟨fun _ t => ?_, fun r h => by cases h⟩
    have h1 : 0 < 4 * a * (a * t * t + b * t + c) := by nlinarith [mul_self_nonneg (2 * a * t + b)]
    exact (mul_pos_iff_of_pos_left (by linarith)).1 h1
  · rw [if_neg (fun h => h.elim hd fun h' => ha.ne' h'.1)]
    push Not at hd
    have hq2 := hs.sq _ hd
    set w := sqrt (b * b - 4 * a * c) with hw
    set q := -(1 / 2) * (b + if 0 ≤ b then w else -w) with hq
    have hqq : q * q + b * q + a * c = 0 := by
      rw [hq]
      split_ifs <;> linear_combination (1 / 4) * hq2
    refine ⟨fun h => (by cases h), fun r h t => ?_⟩
    rw [if_pos ha.ne'] at h
    cases h
    rw [between_iff]
    have key : a * t * t + b * t + c = a * ((t - q / a) * (t - if q ≠ 0 then c / q else q / a)) := by
      by_cases h0 : q = 0
      · rw [if_neg (not_not.2 h0)]
        have hc : c = 0 := by
          rw [h0] at hqq
          have : a * c = 0 := by linarith
          exact (mul_eq_zero.1 this).resolve_left ha.ne'
        have hwn : 0 ≤ w := by
          rcases hd.eq_or_lt with h1 | h1
          · rw [hw, ← h1, hs.zero]
          · exact (hs.pos _ h1).le
        have hb0 : b = 0 := by
          rw [hq] at h0
          split_ifs at h0 with hb
          · linarith
          · linarith
        rw [h0, hc, hb0]
        ring
      · rw [if_pos h0]
        field_simp
        linear_combination t * hqq
    rw [key]
    constructor
    · intro h1
      by_contra h2
      push Not at h2
      exact absurd h1 (not_le.2 (mul_pos ha h2))
    · exact fun h1 => mul_nonpos_of_nonneg_of_nonpos ha.le h1

/-- It is the solver of C06. -/
theorem quadSolve_real (a b c : ℝ) : quadSolve Real.sqrt a b c = Geomc.Util.quadraticSolve a b c := rfl

/-! ### Spheres -/

/-- The closed ball. -/
def Ball.pts (sqrt : K → K) (s : Ball K n) : Set (Fin n → K) := {p | len sqrt (p - s.center) ≤ s.r}

theorem mem_ball {s : Ball K n} {p : Fin n → K} : p ∈ s.pts sqrt ↔ len sqrt (p - s.center) ≤ s.r := Iff.rfl

/-- **C50**: containment. -/
theorem C50_contains (hs : IsSqrt sqrt) (s : Ball K n) (hr : 0 ≤ s.r) (p : Fin n → K) :
    s.contains p = true ↔ p ∈ s.pts sqrt := by
  rw [mem_ball, len_sub_comm hs, len_le_iff hs hr, Ball.contains, decide_eq_true_eq, mag2_eq]

/-- **C50**: the signed distance. -/
theorem C50_sdf (hs : IsSqrt sqrt) (hn : 0 < n) (s : Ball K n) (hr : 0 ≤ s.r) (p : Fin n → K) :
    IsSDist sqrt (s.pts sqrt) p (s.sdf sqrt p) := by
  have he : s.sdf sqrt p = len sqrt (p - s.center) - s.r := rfl
  obtain ⟨w, hw, hpw⟩ := exists_dir hs hn (p - s.center)
  set ℓ := len sqrt (p - s.center) with hℓ
  have hℓ0 : 0 ≤ ℓ := len_nonneg hs _
  have hq : ∀ t : K, len sqrt (s.center + t • w - s.center) = |t| ∧ len sqrt (p - (s.center + t • w)) = |ℓ - t| := by
    intro t
    constructor
    · rw [add_sub_cancel_left, len_smul hs, hw, mul_one]
    · rw [← sub_sub, hpw, ← sub_smul, len_smul hs, hw, mul_one]
  refine ⟨fun h => ?_, fun h => ?_⟩
  · rw [mem_ball, ← hℓ, not_le] at h
    refine ⟨⟨s.center + s.r • w, ?_, ?_⟩, ?_⟩
    · rw [mem_ball, (hq _).1, abs_of_nonneg hr]
    · rw [he, (hq _).2, abs_of_nonneg (by linarith)]
    · rintro x ⟨q, hq', rfl⟩
      rw [mem_ball] at hq'
      have := len_tri hs p q s.center
      rw [← hℓ] at this
      linarith
  · rw [mem_ball, ← hℓ] at h
    refine ⟨by linarith, fun q hq' => ?_, fun ρ hρ => ?_⟩
    · have := len_tri hs q p s.center
      rw [len_sub_comm hs q p, ← hℓ] at this
      rw [mem_ball]
      linarith
    · refine ⟨s.center + ((s.r + ℓ + ρ) / 2) • w, ?_, ?_⟩
      · rw [(hq _).2, abs_of_nonpos (by linarith)]
        linarith
      · rw [mem_ball, (hq _).1, abs_of_nonneg (by linarith)]
        intro h1
        linarith

theorem ball_surface (hs : IsSqrt sqrt) (hn : 0 < n) (s : Ball K n) (hr : 0 ≤ s.r) (q : Fin n → K) :
    q ∈ surface sqrt (s.pts sqrt) ↔ len sqrt (q - s.center) = s.r := by
  constructor
  · rintro ⟨h1, h2⟩
    rw [mem_ball] at h1
    refine le_antisymm h1 (not_lt.1 fun h3 => ?_)
    obtain ⟨r, h4, h5⟩ := h2 (s.r - len sqrt (q - s.center)) (by linarith)
    apply h4
    rw [mem_ball]
    have := len_tri hs r q s.center
    rw [len_sub_comm hs r q] at this
    linarith
  · intro h
    refine ⟨h.le, fun ε hε => ?_⟩
    obtain ⟨w, hw, hqw⟩ := exists_dir hs hn (q - s.center)
    refine ⟨s.center + (s.r + ε / 2) • w, ?_, ?_⟩
    · rw [mem_ball, add_sub_cancel_left, len_smul hs, hw, mul_one, abs_of_nonneg (by linarith)]
      intro h1
      linarith
    · rw [← sub_sub, hqw, ← sub_smul, len_smul hs, hw, mul_one, h, abs_of_nonpos (by linarith)]
      linarith

/-- **C50**: `project` gives the nearest point of the sphere and `normal` the direction to it; both are undefined at the
centre only. -/
theorem C50_project (hs : IsSqrt sqrt) (hn : 0 < n) (s : Ball K n) (hr : 0 ≤ s.r) (p : Fin n → K) :
    (s.project sqrt p = none ↔ p = s.center) ∧ (s.normal sqrt p = none ↔ p = s.center) ∧
    ∀ q, s.project sqrt p = some q → IsNearest sqrt (s.pts sqrt) p q ∧
      ∃ u, s.normal sqrt p = some u ∧ len sqrt u = 1 ∧ q = s.center + s.r • u := by
  refine ⟨?_, ?_, fun q hq => ?_⟩
  · rw [Ball.project, Option.map_eq_none_iff, unit_none hs, sub_eq_zero]
  · rw [Ball.normal, unit_none hs, sub_eq_zero]
  · by_cases h0 : p - s.center = 0
    · rw [Ball.project, (unit_none hs _).2 h0] at hq
      cases hq
    obtain ⟨h1, h2⟩ := unit_eq hs h0
    rw [Ball.project, h1, Option.map_some, Option.some.injEq] at hq
    subst hq
    set ℓ := len sqrt (p - s.center) with hℓ
    have hℓ0 : 0 < ℓ := len_pos hs h0
    have e1 : (fun i => (ℓ⁻¹ • (p - s.center)) i * s.r + s.center i) = s.center + s.r • (ℓ⁻¹ • (p - s.center)) := by
      ext i
      simp only [Pi.smul_apply, Pi.add_apply, smul_eq_mul]
      ring
    refine ⟨⟨?_, fun r hr' => ?_⟩, _, h1, h2, e1⟩
    · rw [ball_surface hs hn s hr, e1, add_sub_cancel_left, len_smul hs, h2, mul_one, abs_of_nonneg hr]
    · rw [ball_surface hs hn s hr] at hr'
      rw [e1, ← sub_sub]
      have e2 : p - s.center - s.r • (ℓ⁻¹ • (p - s.center)) = (ℓ - s.r) • (ℓ⁻¹ • (p - s.center)) := by
        rw [sub_smul, smul_smul ℓ, mul_inv_cancel₀ hℓ0.ne', one_smul]
      rw [e2, len_smul hs, h2, mul_one, abs_le]
      have h3 := len_tri hs p r s.center
      have h4 := len_tri hs r p s.center
      rw [len_sub_comm hs r p] at h4
      constructor <;> linarith

/-- **C50**: the support function. -/
theorem C50_support (hs : IsSqrt sqrt) (s : Ball K n) (hr : 0 ≤ s.r) (d : Fin n → K) :
    (s.support sqrt d = none ↔ d = 0) ∧ ∀ x, s.support sqrt d = some x → IsSupport (s.pts sqrt) d x := by
  refine ⟨by rw [Ball.support, Option.map_eq_none_iff, unit_none hs], fun x hx => ?_⟩
  by_cases h0 : d = 0
  · rw [Ball.support, (unit_none hs _).2 h0] at hx
    cases hx
  obtain ⟨h1, h2⟩ := unit_eq hs h0
  rw [Ball.support, h1, Option.map_some, Option.some.injEq] at hx
  subst hx
  have e1 : (fun i => s.center i + ((len sqrt d)⁻¹ • d) i * s.r) = s.center + s.r • ((len sqrt d)⁻¹ • d) := by
    ext i
    simp only [Pi.smul_apply, Pi.add_apply, smul_eq_mul]
    ring
  refine ⟨?_, fun q hq => ?_⟩
  · rw [mem_ball, e1, add_sub_cancel_left, len_smul hs, h2, mul_one, abs_of_nonneg hr]
  · rw [e1, dot_eq, dot_eq, add_dotProduct, smul_dotProduct, unit_dot hs h0, smul_eq_mul]
    rw [mem_ball] at hq
    have h3 := dot_le_len hs (q - s.center) d
    rw [sub_dotProduct] at h3
    have h4 := mul_le_mul_of_nonneg_right hq (len_nonneg hs d)
    linarith

/-- **C50**: the bounds are the smallest box around the ball. -/
theorem C50_bounds (hs : IsSqrt sqrt) (s : Ball K n) (hr : 0 ≤ s.r) : IsHull (s.pts sqrt) s.bounds := by
  constructor
  · intro p hp
    rw [mem_ball] at hp
    rw [mem_pts]
    intro i
    have := (len_coord hs (p - s.center) i).trans hp
    rw [Pi.sub_apply, abs_le] at this
    simp only [Ball.bounds]
    constructor <;> linarith
  · intro c hc p hp
    rw [mem_pts] at hp ⊢
    intro i
    have key : ∀ x : K, |x| = s.r → s.center + Pi.single i x ∈ c.pts := by
      intro x hx
      apply hc
      rw [mem_ball, add_sub_cancel_left, len_single hs, hx]
    have h1 := mem_pts.1 (key s.r (abs_of_nonneg hr)) i
    have h2 := mem_pts.1 (key (-s.r) (by rw [abs_neg, abs_of_nonneg hr])) i
    rw [Pi.add_apply, Pi.single_eq_same] at h1 h2
    have h3 := hp i
    simp only [Ball.bounds] at h3
    constructor <;> linarith

/-- **C50**: for a ray with a direction, the returned interval is exactly the set of parameters in the ball. -/
theorem C50_ray (hs : IsSqrt sqrt) (s : Ball K n) (hr : 0 ≤ s.r) (o d : Fin n → K) (hd : d ≠ 0) (t : K) :
    (s.ray sqrt o d = none → o + t • d ∉ s.pts sqrt) ∧
    ∀ iv, s.ray sqrt o d = some iv → (iv.1 ≤ t ∧ t ≤ iv.2 ↔ o + t • d ∈ s.pts sqrt) := by
  have ha : 0 < mag2 d := by
    rw [mag2_eq]
    exact self_dot_pos hd
  have hm : o + t • d ∈ s.pts sqrt ↔ mag2 d * t * t + (-2 * dot d (s.center - o)) * t + (mag2 (s.center - o) - s.r * s.r) ≤ 0 := by
    rw [mem_ball, len_le_iff hs hr]
    have e : o + t • d - s.center = t • d - (s.center - o) := by abel
    rw [e, mag2_eq, mag2_eq, dot_eq]
    generalize s.center - o = x
    simp only [sub_dotProduct, dotProduct_sub, smul_dotProduct, dotProduct_smul, dotProduct_comm x d, smul_eq_mul]
    constructor <;> intro h <;> linarith
  obtain ⟨h1, h2⟩ := quad_nonpos hs (b := -2 * dot d (s.center - o)) (c := mag2 (s.center - o) - s.r * s.r) ha
  unfold Ball.ray
  simp only [Option.map_eq_none_iff, Option.map_eq_some_iff]
  refine ⟨fun h h' => ?_, ?_⟩
  · rw [hm] at h'
    exact absurd h' (not_le.2 (h1 h t))
  · rintro iv ⟨r, hr', rfl⟩
    rw [hm, h2 r hr' t, stdMin_eq, stdMax_eq]

omit [IsStrictOrderedRing K] in
/-- **C50** refuted for rays without direction: a miss is reported even from inside. -/
theorem C50_ray_refuted [IsStrictOrderedRing K] (s : Ball K n) (o : Fin n → K) : s.ray sqrt o 0 = none := by
  have h1 : mag2 (0 : Fin n → K) = 0 := by rw [mag2_eq, zero_dotProduct]
  have h2 : dot (0 : Fin n → K) (s.center - o) = 0 := by rw [dot_eq, zero_dotProduct]
  simp only [Ball.ray, h1, h2, mul_zero, quadSolve, and_self, or_true, if_true, Option.map_none]

/-- **C50**, sphere with sphere: a reported intersection is real; a real one is missed exactly when the other centre is
outside this sphere (the other radius is ignored). -/
theorem C50_spheres_partial (hs : IsSqrt sqrt) (s o : Ball K n) (hr : 0 ≤ s.r) (ho : 0 ≤ o.r) :
    ((s.pts sqrt ∩ o.pts sqrt).Nonempty ↔ len sqrt (s.center - o.center) ≤ s.r + o.r) ∧
    (s.intersectsBall o = true ↔ o.center ∈ s.pts sqrt) ∧
    (s.intersectsBall o = true → (s.pts sqrt ∩ o.pts sqrt).Nonempty) ∧
    ((s.intersectsBall o = false ∧ (s.pts sqrt ∩ o.pts sqrt).Nonempty) ↔
      s.r < len sqrt (s.center - o.center) ∧ len sqrt (s.center - o.center) ≤ s.r + o.r) := by
  set ℓ := len sqrt (s.center - o.center) with hℓ
  have h1 : (s.pts sqrt ∩ o.pts sqrt).Nonempty ↔ ℓ ≤ s.r + o.r := by
    constructor
    · rintro ⟨p, hp1, hp2⟩
      rw [mem_ball] at hp1 hp2
      have := len_tri hs s.center p o.center
      rw [len_sub_comm hs s.center p] at this
      linarith
    · intro h
      by_cases h0 : s.r + o.r = 0
      · have hs0 : s.r = 0 := by linarith
        have : ℓ = 0 := le_antisymm (by linarith) (len_nonneg hs _)
        refine ⟨s.center, ?_, ?_⟩
        · rw [mem_ball, sub_self, (len_eq_zero hs).2 rfl]
          exact hr
        · rw [mem_ball, ← hℓ, this]
          exact ho
      · have hpos : 0 < s.r + o.r := lt_of_le_of_ne (by linarith) (Ne.symm h0)
        refine ⟨s.center + (s.r / (s.r + o.r)) • (o.center - s.center), ?_, ?_⟩
        · rw [mem_ball, add_sub_cancel_left, len_smul hs, len_sub_comm hs, ← hℓ, abs_of_nonneg (div_nonneg hr hpos.le),
            div_mul_eq_mul_div, div_le_iff₀ hpos]
          exact mul_le_mul_of_nonneg_left h hr
        · rw [mem_ball]
          have e : s.center + (s.r / (s.r + o.r)) • (o.center - s.center) - o.center =
              (o.r / (s.r + o.r)) • (s.center - o.center) := by
            have : o.r / (s.r + o.r) = 1 - s.r / (s.r + o.r) := by
              field_simp
              ring
            rw [this, sub_smul, one_smul, smul_sub, smul_sub]
            abel
          rw [e, len_smul hs, ← hℓ, abs_of_nonneg (div_nonneg ho hpos.le), div_mul_eq_mul_div, div_le_iff₀ hpos]
          exact mul_le_mul_of_nonneg_left h ho
  have h2 : s.intersectsBall o = true ↔ ℓ ≤ s.r := by
    rw [hℓ, len_le_iff hs hr, Ball.intersectsBall, decide_eq_true_eq, mag2_eq]
  refine ⟨h1, ?_, ?_, ?_⟩
  · rw [h2, mem_ball, len_sub_comm hs]
  · rw [h1, h2]
    intro h
    linarith
  · rw [h1, ← Bool.not_eq_true, h2, not_le]

/-- **C50** refuted: unit circles one and a half apart overlap but are reported not to. -/
theorem C50_spheres_refuted :
    ∃ s o : Ball ℚ 2, s.contains ![3/4, 0] = true ∧ o.contains ![3/4, 0] = true ∧ s.intersectsBall o = false :=
  ⟨⟨![0, 0], 1⟩, ⟨![3/2, 0], 1⟩, by decide +kernel⟩

/-- **C50**, sphere with box: the answer is that for the sphere of the same radius around (r, …, r), whatever the centre. -/
theorem C50_box_partial (hs : IsSqrt sqrt) (s : Ball K n) (hr : 0 ≤ s.r) (b : Box K n) (hb : b.isEmpty = false) :
    (s.intersectsBox b = true ↔ ((⟨fun _ => s.r, s.r⟩ : Ball K n).pts sqrt ∩ b.pts).Nonempty) ∧
    (s.center = (fun _ => s.r) → (s.intersectsBox b = true ↔ (s.pts sqrt ∩ b.pts).Nonempty)) := by
  have h1 : s.intersectsBox b = true ↔ ((⟨fun _ => s.r, s.r⟩ : Ball K n).pts sqrt ∩ b.pts).Nonempty := by
    obtain ⟨h2, h3, -⟩ := C47_clip b hb (fun _ => s.r)
    rw [Ball.intersectsBox, decide_eq_true_eq]
    constructor
    · intro h
      refine ⟨b.clip (fun _ => s.r), ?_, h2⟩
      rw [mem_ball, len_sub_comm hs]
      rw [len_le_iff hs hr, ← mag2_eq]
      exact h
    · rintro ⟨q, h4, h5⟩
      rw [mem_ball, len_sub_comm hs, len_le_iff hs hr, ← mag2_eq] at h4
      exact (h3 q h5).trans h4
  refine ⟨h1, fun hc => ?_⟩
  rw [h1]
  have : (⟨fun _ => s.r, s.r⟩ : Ball K n) = s := by
    cases s
    simp only at hc
    rw [hc]
  rw [this]

/-- **C50** refuted: the centre is ignored, so a sphere far away is reported to intersect, and one inside not to. -/
theorem C50_box_refuted :
    (∀ (c c' : Fin n → K) (r : K) (b : Box K n), (⟨c, r⟩ : Ball K n).intersectsBox b = (⟨c', r⟩ : Ball K n).intersectsBox b) ∧
    (∃ (s : Ball ℚ 2) (b : Box ℚ 2), b.contains s.center = true ∧ s.intersectsBox b = false) ∧
    ∃ (s : Ball ℚ 2) (b : Box ℚ 2), s.intersectsBox b = true ∧ (s.bounds).intersects b = false :=
  ⟨fun _ _ _ _ => rfl, ⟨⟨![10, 10], 1⟩, ⟨![9, 9], ![11, 11]⟩, by decide +kernel⟩,
    ⟨⟨![10, 10], 1⟩, ⟨![0, 0], ![2, 2]⟩, by decide +kernel⟩⟩

/-! ### Examples: with an exact root of the squares used -/

/-- A root of the squares 1, 25 and 0 (for evaluating examples). -/
def toySqrt (x : ℚ) : ℚ := (Nat.sqrt x.num.toNat : ℚ) / (Nat.sqrt x.den : ℚ)

example : (⟨![1, 1], 2⟩ : Ball ℚ 2).sdf toySqrt ![4, 5] = 3 := by decide +kernel
example : (⟨![1, 1], 10⟩ : Ball ℚ 2).project toySqrt ![4, 5] = some ![7, 9] := by decide +kernel
example : (⟨![0, 0], 1⟩ : Ball ℚ 2).ray toySqrt ![-3, 0] ![1, 0] = some (2, 4) := by decide +kernel
example : (⟨![0, 0], 1⟩ : Ball ℚ 2).ray toySqrt ![-3, 2] ![1, 0] = none := by decide +kernel

end Geomc.Shape
