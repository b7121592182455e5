import Verif.Float.WrapModel
import Verif.Float.Box
import Verif.Float.Dist
import Verif.Shape.Extruded

/-! # Property C147: distances to extruded and dilated shapes in floating point -/

namespace Geomc.Flt

open Geomc.Vec (IsSqrt stdMax)
open Geomc.Shape (Height extSdf dilSdf)

variable {K : Type} [Field K] [LinearOrder K] [IsStrictOrderedRing K] [FloorRing K] {n p : ℕ} {rnd sqrt : K → K}

/-! ## The length of the hypotenuse -/

/-- The hypotenuse computed from the squares of the sides. -/
theorem hyp_near (hp : 1 ≤ p) (h : IsRound p rnd) (hs : IsSqrt sqrt) (b s : K) :
    |rnd (sqrt (rnd (rnd (b * b) + rnd (s * s)))) - sqrt (b * b + s * s)| ≤ ((1 + eps K p) ^ 2 - 1) * sqrt (b * b + s * s) := by
  have e0 := eps_pos (K := K) p
  have e1 := eps_le (K := K) hp
  have hrel : ∀ x, |rnd x - x| ≤ eps K p * |x| := fun x => h.rel hp x
  have hb := mul_self_nonneg b
  have hc := mul_self_nonneg s
  obtain ⟨L0, L2⟩ := sqrt_spec hs (b * b + s * s) (by linarith)
  generalize sqrt (b * b + s * s) = L at L0 L2
  have r1 := hrel (b * b)
  have r2 := hrel (s * s)
  have r3 := hrel (rnd (b * b) + rnd (s * s))
  rw [abs_of_nonneg hb] at r1
  rw [abs_of_nonneg hc] at r2
  obtain ⟨r1a, r1b⟩ := abs_le.1 r1
  obtain ⟨r2a, r2b⟩ := abs_le.1 r2
  generalize eps K p = e at *
  have q0 : (1 - e) * (L * L) ≤ rnd (b * b) + rnd (s * s) := by rw [L2]; linarith
  have q1 : rnd (b * b) + rnd (s * s) ≤ (1 + e) * (L * L) := by rw [L2]; linarith
  have LL : 0 ≤ L * L := mul_self_nonneg L
  have qn : 0 ≤ rnd (b * b) + rnd (s * s) := (mul_nonneg (by linarith) LL).trans q0
  generalize rnd (b * b) + rnd (s * s) = Q at *
  rw [abs_of_nonneg qn] at r3
  obtain ⟨r3a, r3b⟩ := abs_le.1 r3
  have Q0 : (1 - e) * Q ≤ rnd Q := by linarith
  have Q1 : rnd Q ≤ (1 + e) * Q := by linarith
  have Qn : 0 ≤ rnd Q := (mul_nonneg (by linarith) qn).trans Q0
  obtain ⟨t0, t2⟩ := sqrt_spec hs (rnd Q) Qn
  generalize sqrt (rnd Q) = t at *
  have u1 : t ≤ (1 + e) * L := by
    refine abs_le_of_sq_le_sq' ?_ (mul_nonneg (by linarith) L0) |>.2
    have := mul_le_mul_of_nonneg_left q1 (show 0 ≤ 1 + e by linarith)
    nlinarith
  have u0 : (1 - e) * L ≤ t := by
    refine abs_le_of_sq_le_sq' ?_ t0 |>.2
    have := mul_le_mul_of_nonneg_left q0 (show 0 ≤ 1 - e by linarith)
    nlinarith
  have r4 := hrel t
  rw [abs_of_nonneg t0] at r4
  obtain ⟨r4a, r4b⟩ := abs_le.1 r4
  have v1 := mul_le_mul_of_nonneg_left u1 (show 0 ≤ 1 + e by linarith)
  have v0 := mul_le_mul_of_nonneg_left u0 (show 0 ≤ 1 - e by linarith)
  have ee := mul_nonneg (mul_nonneg e0.le e0.le) L0
  rw [abs_le]
  constructor <;> nlinarith

/-- The hypotenuse changes no more than the sides. -/
theorem hyp_close (hs : IsSqrt sqrt) (b s B S : K) : sqrt (b * b + s * s) ≤ sqrt (B * B + S * S) + (|b - B| + |s - S|) := by
  obtain ⟨l0, l2⟩ := sqrt_spec hs (b * b + s * s) (add_nonneg (mul_self_nonneg b) (mul_self_nonneg s))
  obtain ⟨L0, L2⟩ := sqrt_spec hs (B * B + S * S) (add_nonneg (mul_self_nonneg B) (mul_self_nonneg S))
  generalize sqrt (b * b + s * s) = l at *
  generalize sqrt (B * B + S * S) = L at *
  have d1 : |b| ≤ |B| + |b - B| := by have := abs_sub_abs_le_abs_sub b B; linarith
  have d2 : |s| ≤ |S| + |s - S| := by have := abs_sub_abs_le_abs_sub s S; linarith
  have hB : |B| ≤ L := abs_le_of_sq_le_sq (by nlinarith [mul_self_nonneg S]) L0
  have hS : |S| ≤ L := abs_le_of_sq_le_sq (by nlinarith [mul_self_nonneg B]) L0
  have n1 := abs_nonneg (b - B)
  have n2 := abs_nonneg (s - S)
  rw [← abs_mul_abs_self b, ← abs_mul_abs_self s] at l2
  rw [← abs_mul_abs_self B, ← abs_mul_abs_self S] at L2
  have k1 := mul_self_le_mul_self (abs_nonneg b) d1
  have k2 := mul_self_le_mul_self (abs_nonneg s) d2
  generalize |b - B| = x at *
  generalize |s - S| = y at *
  refine abs_le_of_sq_le_sq' ?_ (by linarith) |>.2
  nlinarith [mul_le_mul_of_nonneg_right hB n1, mul_le_mul_of_nonneg_right hS n2, mul_nonneg n1 n2, mul_nonneg L0 n1, mul_nonneg L0 n2]

/-! ## Extruded shapes -/

/-- The distance to the slab is computed with one rounding. -/
theorem slab_round (h : IsRound p rnd) (x lo hi : K) : stdMax (rnd (x - hi)) (rnd (lo - x)) = rnd (max (x - hi) (lo - x)) := by
  rw [Vec.stdMax_eq, h.mono.map_max]

omit [FloorRing K] in
theorem slab_sign {lo hi x : K} : (max (x - hi) (lo - x) ≤ 0 ↔ lo ≤ x ∧ x ≤ hi) ∧ (max (x - hi) (lo - x) < 0 ↔ lo < x ∧ x < hi) := by
  rw [max_le_iff, max_lt_iff, sub_nonpos, sub_nonpos, sub_neg, sub_neg]
  exact ⟨and_comm, and_comm⟩

/-- Beyond the caps the result is the hypotenuse, up to rounding, of the distance to the base where it is positive. -/
theorem beyond_near (hp : 1 ≤ p) (h : IsRound p rnd) (hs : IsSqrt sqrt) (b : K) {s : K} (s0 : 0 ≤ s) :
    |(if b < 0 then s else rnd (sqrt (rnd (rnd (b * b) + rnd (s * s))))) - sqrt (max b 0 * max b 0 + s * s)| ≤
      ((1 + eps K p) ^ 2 - 1) * sqrt (max b 0 * max b 0 + s * s) := by
  have e0 := eps_pos (K := K) p
  split_ifs with hb
  · obtain ⟨l0, l2⟩ := sqrt_spec hs (s * s) (mul_self_nonneg s)
    rw [max_eq_right hb.le, mul_zero, zero_add, (mul_self_inj l0 s0).1 l2, sub_self, abs_zero]
    exact mul_nonneg (by nlinarith) s0
  · rw [max_eq_left (not_lt.1 hb)]
    exact hyp_near hp h hs b s

/-- **C147.** The signed distance to an extruded shape is right up to rounding, if that to the base is: within `(1 + ε)^3 - 1` of the exact one or of the
distance to the nearer cap plane, and the error in the base. -/
theorem C147_extruded (hp : 1 ≤ p) (h : IsRound p rnd) (hs : IsSqrt sqrt) (sdf sdf' : (Fin n → K) → K) (g : Height K) (x : Fin (n + 1) → K) {δ : K}
    (hd : |sdf' (Fin.init x) - sdf (Fin.init x)| ≤ δ) :
    |extrudedSdf rnd sqrt sdf' g x - extSdf sqrt sdf g x| ≤
      (1 + eps K p) ^ 2 * δ + ((1 + eps K p) ^ 3 - 1) * max |extSdf sqrt sdf g x| |max (x (Fin.last n) - g.hi) (g.lo - x (Fin.last n))| := by
  have e0 := eps_pos (K := K) p
  have δ0 := (abs_nonneg _).trans hd
  rw [extrudedSdf, extSdf]
  simp only [slab_round h]
  rw [Vec.stdMax_eq (x (Fin.last n) - g.hi)]
  have hr := h.rel hp (max (x (Fin.last n) - g.hi) (g.lo - x (Fin.last n)))
  have hsig := (slab_sign (lo := g.lo) (hi := g.hi) (x := x (Fin.last n))).1
  have hpos := h.pos_iff hp (max (x (Fin.last n) - g.hi) (g.lo - x (Fin.last n)))
  have far := fun b : K => beyond_near hp h hs b (s := rnd (max (x (Fin.last n) - g.hi) (g.lo - x (Fin.last n))))
  generalize max (x (Fin.last n) - g.hi) (g.lo - x (Fin.last n)) = S at *
  generalize sdf' (Fin.init x) = b at *
  generalize sdf (Fin.init x) = B at *
  generalize rnd S = s at *
  generalize eps K p = e at *
  have c2 : (1 : K) ≤ (1 + e) ^ 2 := one_le_pow₀ (by linarith)
  have c3 : e ≤ (1 + e) ^ 3 - 1 := by nlinarith [mul_pos e0 e0, mul_pos (mul_pos e0 e0) e0]
  by_cases hc : g.contains (x (Fin.last n)) = true
  · rw [if_pos hc, if_pos hc, Vec.stdMax_eq, Vec.stdMax_eq]
    have h1 := abs_max_sub_max_le_max b s B S
    have h2 : |b - B| ≤ (1 + e) ^ 2 * δ := hd.trans (le_mul_of_one_le_left δ0 c2)
    have h3 : e * |S| ≤ ((1 + e) ^ 3 - 1) * max |max B S| |S| := mul_le_mul c3 (le_max_right _ _) (abs_nonneg _) (by linarith)
    have h4 : 0 ≤ (1 + e) ^ 2 * δ := (abs_nonneg _).trans h2
    have h5 : 0 ≤ ((1 + e) ^ 3 - 1) * max |max B S| |S| := (mul_nonneg e0.le (abs_nonneg _)).trans h3
    refine h1.trans (max_le ?_ ?_) <;> linarith
  · rw [if_neg hc, if_neg hc]
    have hS : 0 < S := by
      rw [← not_le, hsig]
      rwa [Shape.height_contains] at hc
    have s0 := hpos.2 hS
    have f1 := far b s0.le
    have E : (if B < 0 then S else sqrt (B * B + S * S)) = sqrt (max B 0 * max B 0 + S * S) := by
      split_ifs with hB
      · obtain ⟨l0, l2⟩ := sqrt_spec hs (S * S) (mul_self_nonneg S)
        rw [max_eq_right hB.le, mul_zero, zero_add, (mul_self_inj l0 hS.le).1 l2]
      · rw [max_eq_left (not_lt.1 hB)]
    rw [E]
    have k1 := hyp_close hs (max b 0) s (max B 0) S
    have k2 := hyp_close hs (max B 0) S (max b 0) s
    rw [abs_sub_comm (max B 0), abs_sub_comm S] at k2
    have k3 : |max b 0 - max B 0| ≤ δ := by
      refine (abs_max_sub_max_le_max b 0 B 0).trans (max_le hd ?_)
      rw [sub_zero, abs_zero]
      exact δ0
    obtain ⟨L0, L2⟩ := sqrt_spec hs (max B 0 * max B 0 + S * S) (add_nonneg (mul_self_nonneg _) (mul_self_nonneg _))
    have k4 : |S| ≤ sqrt (max B 0 * max B 0 + S * S) := abs_le_of_sq_le_sq (by nlinarith [mul_self_nonneg (max B 0)]) L0
    generalize sqrt (max B 0 * max B 0 + S * S) = L at *
    generalize sqrt (max b 0 * max b 0 + s * s) = l at *
    rw [abs_of_nonneg L0, max_eq_left k4]
    generalize (if b < 0 then s else rnd (sqrt (rnd (rnd (b * b) + rnd (s * s))))) = R at *
    have k5 := mul_le_mul_of_nonneg_left k4 e0.le
    have m1 : |l - L| ≤ δ + e * L := by
      rw [abs_le]
      constructor <;> linarith
    have m2 : ((1 + e) ^ 2 - 1) * l ≤ ((1 + e) ^ 2 - 1) * (L + (δ + e * L)) := mul_le_mul_of_nonneg_left (by linarith [(abs_le.1 m1).2]) (by linarith)
    have m3 := abs_sub_le R l L
    nlinarith

/-- **C147.** Its sign is right: it is negative exactly between the caps where the computed distance to the base is negative, and positive exactly beyond the
caps or where that distance is positive. -/
theorem C147_extruded_sign (hp : 1 ≤ p) (h : IsRound p rnd) (hs : IsSqrt sqrt) (sdf : (Fin n → K) → K) (g : Height K) (x : Fin (n + 1) → K) :
    (extrudedSdf rnd sqrt sdf g x < 0 ↔ g.lo < x (Fin.last n) ∧ x (Fin.last n) < g.hi ∧ sdf (Fin.init x) < 0) ∧
    (extrudedSdf rnd sqrt sdf g x ≤ 0 ↔ g.lo ≤ x (Fin.last n) ∧ x (Fin.last n) ≤ g.hi ∧ sdf (Fin.init x) ≤ 0) := by
  rw [extrudedSdf]
  simp only [slab_round h]
  obtain ⟨g1, g2⟩ := slab_sign (lo := g.lo) (hi := g.hi) (x := x (Fin.last n))
  have p1 := h.pos_iff hp (max (x (Fin.last n) - g.hi) (g.lo - x (Fin.last n)))
  have p2 := h.zero_iff hp (max (x (Fin.last n) - g.hi) (g.lo - x (Fin.last n)))
  have hc := Shape.height_contains g (x (Fin.last n))
  have q1 : rnd (max (x (Fin.last n) - g.hi) (g.lo - x (Fin.last n))) ≤ 0 ↔ g.lo ≤ x (Fin.last n) ∧ x (Fin.last n) ≤ g.hi := by
    rw [← g1, ← not_lt, ← not_lt, p1]
  have q2 : rnd (max (x (Fin.last n) - g.hi) (g.lo - x (Fin.last n))) < 0 ↔ g.lo < x (Fin.last n) ∧ x (Fin.last n) < g.hi := by
    rw [← g2, lt_iff_le_and_ne, lt_iff_le_and_ne, q1, g1, Ne, Ne, p2]
  generalize sdf (Fin.init x) = b at *
  generalize rnd (max (x (Fin.last n) - g.hi) (g.lo - x (Fin.last n))) = s at *
  by_cases hx : g.contains (x (Fin.last n)) = true
  · rw [if_pos hx, Vec.stdMax_eq, max_lt_iff, max_le_iff, q1, q2]
    exact ⟨⟨fun a => ⟨a.2.1, a.2.2, a.1⟩, fun a => ⟨a.2.2, a.1, a.2.1⟩⟩, ⟨fun a => ⟨a.2.1, a.2.2, a.1⟩, fun a => ⟨a.2.2, a.1, a.2.1⟩⟩⟩
  · rw [if_neg hx]
    rw [hc] at hx
    have s0 : 0 < s := by
      rw [← not_le, q1]
      exact hx
    have R0 : 0 < if b < 0 then s else rnd (sqrt (rnd (rnd (b * b) + rnd (s * s)))) := by
      split_ifs
      · exact s0
      · have b0 : 0 ≤ rnd (b * b) := by
          have := h.mono (mul_self_nonneg b)
          rwa [h.fix (float_zero p)] at this
        exact (h.pos_iff hp _).2 (hs.pos _ ((h.pos_iff hp _).2 (add_pos_of_nonneg_of_pos b0 ((h.pos_iff hp _).2 (mul_pos s0 s0)))))
    exact ⟨⟨fun a => absurd a R0.le.not_gt, fun a => absurd ⟨a.1.le, a.2.1.le⟩ hx⟩, ⟨fun a => absurd a R0.not_ge, fun a => absurd ⟨a.1, a.2.1⟩ hx⟩⟩

/-! ## Dilated shapes -/

/-- **C147.** The signed distance to a dilated shape is right up to one rounding and the error in the shape; a point is reported to be in it exactly if the
computed distance to the shape is less than the dilation. -/
theorem C147_dilated (hp : 1 ≤ p) (h : IsRound p rnd) (sdf sdf' : (Fin n → K) → K) (r : K) (x : Fin n → K) {δ : K} (hd : |sdf' x - sdf x| ≤ δ) :
    |dilatedSdf rnd sdf' r x - dilSdf sdf r x| ≤ (1 + eps K p) * δ + eps K p * |dilSdf sdf r x| ∧
    (dilatedContains rnd sdf' r x = true ↔ sdf' x < r) ∧ (IsFloat p (sdf' x) → dilatedSdf rnd sdf' 0 x = sdf' x) := by
  have e0 := eps_pos (K := K) p
  refine ⟨?_, ?_, fun hf => by rw [dilatedSdf, sub_zero, h.fix hf]⟩
  · rw [dilatedSdf, dilSdf]
    have h1 := h.rel hp (sdf' x - r)
    have h2 := abs_sub_le (rnd (sdf' x - r)) (sdf' x - r) (sdf x - r)
    rw [show sdf' x - r - (sdf x - r) = sdf' x - sdf x by ring] at h2
    have h3 : |sdf' x - r| ≤ δ + |sdf x - r| := by
      have := abs_sub_abs_le_abs_sub (sdf' x - r) (sdf x - r)
      rw [show sdf' x - r - (sdf x - r) = sdf' x - sdf x by ring] at this
      linarith
    have h4 := mul_le_mul_of_nonneg_left h3 e0.le
    linarith
  · rw [dilatedContains, decide_eq_true_eq, dilatedSdf, lt_iff_le_and_ne, ← not_lt, h.pos_iff hp, Ne, h.zero_iff hp, not_lt, ← Ne, ← lt_iff_le_and_ne, sub_neg]

omit [IsStrictOrderedRing K] [FloorRing K] in
/-- **C147.** Without rounding the model is that of C53. -/
theorem C147_exact (sdf : (Fin n → K) → K) (g : Height K) (r : K) (x : Fin (n + 1) → K) (y : Fin n → K) :
    extrudedSdf (fun x => x) sqrt sdf g x = extSdf sqrt sdf g x ∧ dilatedSdf (fun x => x) sdf r y = dilSdf sdf r y ∧
    dilatedContains (fun x => x) sdf r y = Shape.dilContains sdf r y := ⟨rfl, rfl, rfl⟩

/-- **C147.** A disk drawn out between two heights: the distance is that of a cylinder along the axis, up to rounding. -/
theorem C147_disk (hp : 1 ≤ p) (h : IsRound p rnd) (hs : IsSqrt sqrt) (s : Shape.Ball K n) (g : Height K) (x : Fin (n + 1) → K) :
    |extrudedSdf rnd sqrt (ballSdf rnd sqrt s) g x - extSdf sqrt (s.sdf sqrt) g x| ≤
      (1 + eps K p) ^ 2 * (((1 + eps K p) ^ (n + 4) - 1) * (Shape.len sqrt (Fin.init x - s.center) + |s.r|)) +
      ((1 + eps K p) ^ 3 - 1) * max |extSdf sqrt (s.sdf sqrt) g x| |max (x (Fin.last n) - g.hi) (g.lo - x (Fin.last n))| :=
  C147_extruded hp h hs _ _ g x (C126_sphere hp h hs s (Fin.init x))

/-- In `double`, with a table for the roots: a disk of radius one from height zero to height two, from the inside, beside, above and beyond the rim. -/
example :
    let root : ℚ → ℚ := fun x => if x = 25 then 5 else if x = 16 then 4 else if x = 1/4 then 1/2 else 0
    let disk := extrudedSdf (nearest 53) root (ballSdf (nearest 53) root (⟨![0, 0], 1⟩ : Shape.Ball ℚ 2)) ⟨0, 2⟩
    disk ![1/2, 0, 1] = -1/2 ∧ disk ![4, 0, 1] = 3 ∧ disk ![0, 1/2, 5] = 3 ∧ disk ![0, 4, 6] = 5 ∧
    dilatedSdf (nearest 53) (ballSdf (nearest 53) root (⟨![0, 0], 1⟩ : Shape.Ball ℚ 2)) (1/2) ![4, 0] = 5/2 ∧
    dilatedContains (nearest 53) (ballSdf (nearest 53) root (⟨![0, 0], 1⟩ : Shape.Ball ℚ 2)) 3 ![4, 0] = false ∧
    dilatedContains (nearest 53) (ballSdf (nearest 53) root (⟨![0, 0], 1⟩ : Shape.Ball ℚ 2)) 4 ![4, 0] = true := by
  decide +kernel

end Geomc.Flt
