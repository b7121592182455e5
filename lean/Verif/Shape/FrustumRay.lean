import Verif.Shape.Frustum

/-!
# C53: rays and frusta

The ray `o + t v` and the tip span a plane; it meets the plane of height one in the line `e + s w`.  In the coordinates of that
plane the ray is `(g + t) w + (a + t b) e`, with `a` and `b` the heights of `o` and `v`.
-/

namespace Geomc.Shape

open Geomc.Vec Geomc.Rect

/-! ### The line arithmetic -/

section scalar

variable {K : Type} [Field K] [LinearOrder K] [IsStrictOrderedRing K]

/-- Where the ray meets the multiples of the point `s` of the base line. -/
def meetAt (a b g s : K) : K := s * (a - g * b) / (1 - s * b) - g

theorem meet_height {a b g s : K} (hs : 1 - s * b ≠ 0) : a + meetAt a b g s * b = (a - g * b) / (1 - s * b) := by
  rw [meetAt]
  field_simp
  ring

/-- Which side of a wall. -/
theorem side (a b g s t : K) (hs : 1 - s * b ≠ 0) :
    (g + t) - s * (a + t * b) = (1 - s * b) * (t - meetAt a b g s) := by
  rw [meetAt]
  field_simp
  ring

theorem between_same {a b g s0 s1 t : K} (hd : a - g * b ≠ 0) (hs : s0 ≤ s1) (h0 : 0 < (1 - s0 * b) * (1 - s1 * b)) :
    (min (meetAt a b g s0) (meetAt a b g s1) ≤ t ∧ t ≤ max (meetAt a b g s0) (meetAt a b g s1)) ↔
      a + t * b ≠ 0 ∧ s0 ≤ (g + t) / (a + t * b) ∧ (g + t) / (a + t * b) ≤ s1 := by
  have n0 : 1 - s0 * b ≠ 0 := fun h => by rw [h, zero_mul] at h0; exact lt_irrefl _ h0
  have n1 : 1 - s1 * b ≠ 0 := fun h => by rw [h, mul_zero] at h0; exact lt_irrefl _ h0
  have e0 := side a b g s0 t n0
  have e1 := side a b g s1 t n1
  rw [between_iff]
  set x := meetAt a b g s0
  set y := meetAt a b g s1
  set z := a + t * b with hz
  have hprod : ((g + t) - s0 * z) * ((g + t) - s1 * z) = ((1 - s0 * b) * (1 - s1 * b)) * ((t - x) * (t - y)) := by
    rw [e0, e1]
    ring
  constructor
  · intro h
    have h2 : ((g + t) - s0 * z) * ((g + t) - s1 * z) ≤ 0 := by
      rw [hprod]
      exact mul_nonpos_of_nonneg_of_nonpos h0.le h
    have hz0 : z ≠ 0 := by
      intro h3
      rw [h3, mul_zero, mul_zero, sub_zero] at h2
      have h4 : g + t = 0 := mul_self_eq_zero.1 (le_antisymm h2 (mul_self_nonneg _))
      apply hd
      have : t = -g := by linarith
      rw [this] at hz
      rw [← h3, hz]
      ring
    refine ⟨hz0, ?_⟩
    have hzz : 0 < z * z := mul_self_pos.2 hz0
    have h3 : ((g + t) / z - s0) * ((g + t) / z - s1) ≤ 0 := by
      have : ((g + t) / z - s0) * ((g + t) / z - s1) = ((g + t) - s0 * z) * ((g + t) - s1 * z) / (z * z) := by
        field_simp
      rw [this]
      exact div_nonpos_of_nonpos_of_nonneg h2 hzz.le
    constructor
    · by_contra h5
      push Not at h5
      nlinarith
    · by_contra h5
      push Not at h5
      nlinarith
  · rintro ⟨hz0, h3, h4⟩
    have h2 : ((g + t) - s0 * z) * ((g + t) - s1 * z) ≤ 0 := by
      have : ((g + t) - s0 * z) * ((g + t) - s1 * z) = (((g + t) / z - s0) * ((g + t) / z - s1)) * (z * z) := by
        field_simp
      rw [this]
      exact mul_nonpos_of_nonpos_of_nonneg (mul_nonpos_of_nonneg_of_nonpos (by linarith) (by linarith)) (mul_self_nonneg _)
    rw [hprod] at h2
    by_contra h5
    push Not at h5
    exact absurd h2 (not_le.2 (mul_pos h0 h5))

/-- Walls met on both sides of the tip: from above, the parameters from the farther hit on, if the ray rises. -/
theorem between_mixed_up {a b g s0 s1 t : K} (hd : a - g * b ≠ 0) (hb : 0 < b) (h0 : 0 < 1 - s0 * b) (h1 : 1 - s1 * b < 0)
    (hz : 0 ≤ a + t * b) : max (meetAt a b g s0) (meetAt a b g s1) ≤ t ↔
      a + t * b ≠ 0 ∧ s0 ≤ (g + t) / (a + t * b) ∧ (g + t) / (a + t * b) ≤ s1 := by
  have e0 := side a b g s0 t h0.ne'
  have e1 := side a b g s1 t h1.ne
  have k0 := meet_height (a := a) (g := g) h0.ne'
  have k1 := meet_height (a := a) (g := g) h1.ne
  rw [max_le_iff]
  set x := meetAt a b g s0
  set y := meetAt a b g s1
  constructor
  · rintro ⟨hx, hy⟩
    have hz0 : a + t * b ≠ 0 := by
      intro h
      rcases lt_or_gt_of_ne hd with h2 | h2
      · have : 0 < a + y * b := by rw [k1]; exact div_pos_of_neg_of_neg h2 h1
        nlinarith
      · have : 0 < a + x * b := by rw [k0]; exact div_pos h2 h0
        nlinarith
    have hzp : 0 < a + t * b := lt_of_le_of_ne hz (Ne.symm hz0)
    refine ⟨hz0, ?_, ?_⟩
    · rw [le_div_iff₀ hzp]
      nlinarith
    · rw [div_le_iff₀ hzp]
      nlinarith
  · rintro ⟨hz0, h3, h4⟩
    have hzp : 0 < a + t * b := lt_of_le_of_ne hz (Ne.symm hz0)
    rw [le_div_iff₀ hzp] at h3
    rw [div_le_iff₀ hzp] at h4
    constructor
    · by_contra h5
      push Not at h5
      nlinarith
    · by_contra h5
      push Not at h5
      nlinarith

theorem meetAt_neg (a b g s : K) : meetAt (-a) b (-g) s = -meetAt a b g s := by
  rw [meetAt, meetAt]
  ring

theorem meetAt_flip (a b g s : K) : meetAt a (-b) (-g) (-s) = -meetAt a b g s := by
  rw [meetAt, meetAt, show 1 - -s * -b = 1 - s * b by ring]
  ring

/-- Walls met on both sides of the tip: the parameters beyond both hits, on the side of the wanted heights. -/
theorem between_mixed {a b g s0 s1 t : K} (hd : a - g * b ≠ 0) (hs : s0 ≤ s1) (h0 : (1 - s0 * b) * (1 - s1 * b) < 0) :
    b ≠ 0 ∧
    (0 ≤ (a + t * b) * b → (max (meetAt a b g s0) (meetAt a b g s1) ≤ t ↔
      a + t * b ≠ 0 ∧ s0 ≤ (g + t) / (a + t * b) ∧ (g + t) / (a + t * b) ≤ s1)) ∧
    ((a + t * b) * b ≤ 0 → (t ≤ min (meetAt a b g s0) (meetAt a b g s1) ↔
      a + t * b ≠ 0 ∧ s0 ≤ (g + t) / (a + t * b) ∧ (g + t) / (a + t * b) ≤ s1)) := by
  have hb : b ≠ 0 := by
    rintro rfl
    norm_num at h0
  have hlt : s0 < s1 := lt_of_le_of_ne hs fun h => by
    rw [h] at h0
    exact absurd h0 (not_lt.2 (mul_self_nonneg _))
  -- upward rays first
  have up : ∀ {a b g s0 s1 : K}, a - g * b ≠ 0 → s0 < s1 → (1 - s0 * b) * (1 - s1 * b) < 0 → 0 < b → ∀ t : K,
      (0 ≤ a + t * b → (max (meetAt a b g s0) (meetAt a b g s1) ≤ t ↔
        a + t * b ≠ 0 ∧ s0 ≤ (g + t) / (a + t * b) ∧ (g + t) / (a + t * b) ≤ s1)) ∧
      (a + t * b ≤ 0 → (t ≤ min (meetAt a b g s0) (meetAt a b g s1) ↔
        a + t * b ≠ 0 ∧ s0 ≤ (g + t) / (a + t * b) ∧ (g + t) / (a + t * b) ≤ s1)) := by
    clear hd hs h0 hb hlt
    intro a b g s0 s1 hd hlt h0 hb t
    have h1 : 0 < 1 - s0 * b ∧ 1 - s1 * b < 0 := by
      rcases mul_neg_iff.1 h0 with h | h
      · exact h
      · nlinarith [h.1, h.2, mul_lt_mul_of_pos_right hlt hb]
    refine ⟨between_mixed_up hd hb h1.1 h1.2, fun hz => ?_⟩
    have := between_mixed_up (a := -a) (g := -g) (t := -t) (b := b) (s0 := s0) (s1 := s1)
      (fun h => hd (by linarith)) hb h1.1 h1.2 (by linarith)
    rw [meetAt_neg, meetAt_neg, max_neg_neg, neg_le_neg_iff, show -a + -t * b = -(a + t * b) by ring,
      show -g + -t = -(g + t) by ring, neg_div_neg_eq, neg_ne_zero] at this
    exact this
  refine ⟨hb, ?_⟩
  rcases lt_or_gt_of_ne hb with hneg | hpos
  · have := up (a := a) (b := -b) (g := -g) (s0 := -s1) (s1 := -s0) (by rwa [neg_mul_neg]) (neg_lt_neg hlt)
      (by rw [neg_mul_neg, neg_mul_neg, mul_comm]; exact h0) (by linarith) (-t)
    rw [meetAt_flip, meetAt_flip, max_neg_neg, min_neg_neg, neg_le_neg_iff, neg_le_neg_iff, neg_mul_neg,
      show -g + -t = -(g + t) by ring, neg_div, neg_le_neg_iff, neg_le_neg_iff, min_comm, max_comm] at this
    constructor
    · intro h
      rw [this.2 (by nlinarith [h, hneg, sq_nonneg b, mul_self_nonneg b] : a + t * b ≤ 0)]
      tauto
    · intro h
      rw [this.1 (by nlinarith : 0 ≤ a + t * b)]
      tauto
  · have := up hd hlt h0 hpos t
    exact ⟨fun h => this.1 (nonneg_of_mul_nonneg_left h hpos), fun h => this.2 (nonpos_of_mul_nonpos_left h hpos)⟩

end scalar

/-! ### The plane of the ray and the tip -/

variable {K : Type} {n : ℕ} [Field K] [LinearOrder K] [IsStrictOrderedRing K]

/-- The point of the line nearest the tip. -/
def foot (o v : Fin n → K) : Fin n → K := o - ((o ⬝ᵥ v) / (v ⬝ᵥ v)) • v

theorem foot_perp (o v : Fin n → K) (hv : v ≠ 0) : foot o v ⬝ᵥ v = 0 := by
  rw [foot, sub_dotProduct, smul_dotProduct, smul_eq_mul, div_mul_cancel₀ _ (self_dot_pos hv).ne', sub_self]

/-- The projected ray and what the code makes of it: the ray in the coordinates of the plane, and the hits with the walls. -/
theorem plane_coords (o v : Fin (n + 1) → K) (hv : v ≠ 0) (hf : foot o v (Fin.last n) ≠ 0) :
    ∃ oB : Fin (n + 1) → K, oB = projectOn (Pi.single (Fin.last n) 1) v + projectOn (Pi.single (Fin.last n) 1) (foot o v) ∧
    oB (Fin.last n) ≠ 0 ∧
    ∃ vB : Fin (n + 1) → K, vB = v - projectOn v oB ∧ vB ≠ 0 ∧ vB (Fin.last n) = 0 ∧
    ∃ e : Fin (n + 1) → K, e = (fun i => oB i / oB (Fin.last n)) ∧ e (Fin.last n) = 1 ∧
    ∃ g : K, o (Fin.last n) - g * v (Fin.last n) ≠ 0 ∧
      (∀ t : K, o + t • v = (o (Fin.last n) + t * v (Fin.last n)) • e + (g + t) • vB) ∧
      (∀ s : K, fruHit o v (foot o v) (e + s • vB) =
        if 1 - s * v (Fin.last n) = 0 then none else some (meetAt (o (Fin.last n)) (v (Fin.last n)) g s)) := by
  set oo := foot o v with hoo
  set vL := v (Fin.last n) with hvL
  set oL := oo (Fin.last n) with hoL
  have hperp : oo ⬝ᵥ v = 0 := foot_perp o v hv
  have hne : oo ≠ 0 := fun h => hf (by rw [hoL, h]; rfl)
  have hv2 := self_dot_pos hv
  have ho2 := self_dot_pos hne
  set V := v ⬝ᵥ v with hV
  set O := oo ⬝ᵥ oo with hO
  set m := vL * vL / V + oL * oL / O with hm
  have hmpos : 0 < m :=
    add_pos_of_nonneg_of_pos (div_nonneg (mul_self_nonneg _) hv2.le) (div_pos (mul_self_pos.2 hf) ho2)
  have hoB : projectOn (Pi.single (Fin.last n) 1) v + projectOn (Pi.single (Fin.last n) 1) oo = (vL / V) • v + (oL / O) • oo := by
    rw [projectOn_eq, projectOn_eq, single_dotProduct, single_dotProduct, one_mul, one_mul]
  set oB := projectOn (Pi.single (Fin.last n) 1) v + projectOn (Pi.single (Fin.last n) 1) oo with hoBd
  have hoBL : oB (Fin.last n) = m := by
    rw [hoB, Pi.add_apply, Pi.smul_apply, Pi.smul_apply, smul_eq_mul, smul_eq_mul, ← hvL, ← hoL, hm]
    ring
  have d1 : v ⬝ᵥ oB = vL := by
    rw [hoB, dotProduct_add, dotProduct_smul, dotProduct_smul, dotProduct_comm v oo, hperp, ← hV, smul_eq_mul, smul_zero, add_zero,
      div_mul_cancel₀ _ hv2.ne']
  have d2 : oo ⬝ᵥ oB = oL := by
    rw [hoB, dotProduct_add, dotProduct_smul, dotProduct_smul, hperp, ← hO, smul_zero, zero_add, smul_eq_mul,
      div_mul_cancel₀ _ ho2.ne']
  have d3 : oB ⬝ᵥ oB = m := by
    have : oB ⬝ᵥ oB = ((vL / V) • v + (oL / O) • oo) ⬝ᵥ oB := by rw [← hoB]
    rw [this, add_dotProduct, smul_dotProduct, smul_dotProduct, d1, d2, smul_eq_mul, smul_eq_mul, hm]
    ring
  set p := vL / (V * m) with hp
  set q := oL / (O * m) with hq
  have hq0 : q ≠ 0 := div_ne_zero hf (mul_ne_zero ho2.ne' hmpos.ne')
  have hpq : vL * p + oL * q = 1 := by
    have : vL * p + oL * q = (vL * vL / V + oL * oL / O) / m := by
      rw [hp, hq]
      have := hmpos.ne'
      clear_value m
      field_simp
    rw [this, ← hm, div_self hmpos.ne']
  refine ⟨oB, rfl, by rw [hoBL]; exact hmpos.ne', v - projectOn v oB, rfl, ?_⟩
  have hvB : v - projectOn v oB = (1 - vL * p) • v - (vL * q) • oo := by
    rw [projectOn_eq, d1, d3, hoB, smul_add, smul_smul, smul_smul, sub_smul, one_smul, hp, hq,
      show vL / m * (vL / V) = vL * (vL / (V * m)) by field_simp, show vL / m * (oL / O) = vL * (oL / (O * m)) by field_simp]
    abel
  set vB := v - projectOn v oB with hvBd
  have w1 : vB ⬝ᵥ oo = -(vL * q * O) := by
    rw [hvB, sub_dotProduct, smul_dotProduct, smul_dotProduct, dotProduct_comm v oo, hperp, ← hO, smul_zero, zero_sub, smul_eq_mul]
  have w2 : vB ⬝ᵥ v = (1 - vL * p) * V := by
    rw [hvB, sub_dotProduct, smul_dotProduct, smul_dotProduct, hperp, ← hV, smul_zero, sub_zero, smul_eq_mul]
  have hvB0 : vB ≠ 0 := by
    intro h
    rw [h, zero_dotProduct] at w1 w2
    have h1 : vL = 0 := by
      by_contra h1
      exact mul_ne_zero (mul_ne_zero h1 hq0) ho2.ne' (by linarith)
    rw [h1, zero_mul, sub_zero, one_mul] at w2
    exact hv2.ne w2
  have hvBL : vB (Fin.last n) = 0 := by
    rw [hvB, Pi.sub_apply, Pi.smul_apply, Pi.smul_apply, smul_eq_mul, smul_eq_mul, ← hvL, ← hoL]
    linear_combination (-vL) * hpq
  have he : (fun i => oB i / oB (Fin.last n)) = p • v + q • oo := by
    ext i
    rw [hoBL, hoB, Pi.add_apply, Pi.add_apply, Pi.smul_apply, Pi.smul_apply, Pi.smul_apply, Pi.smul_apply, smul_eq_mul, smul_eq_mul,
      smul_eq_mul, smul_eq_mul, hp, hq]
    field_simp
  refine ⟨hvB0, hvBL, _, rfl, div_self (by rw [hoBL]; exact hmpos.ne'), ?_⟩
  set ox := (o ⬝ᵥ v) / V with hox
  have ho : o = ox • v + oo := by
    rw [hoo, foot, ← hV, ← hox]
    abel
  have hoLast : o (Fin.last n) = ox * vL + oL := by
    conv_lhs => rw [ho]
    rfl
  have hdelta : o (Fin.last n) - (ox - p / q) * vL = 1 / q := by
    rw [hoLast]
    field_simp
    linear_combination hpq
  refine ⟨ox - p / q, by rw [hdelta]; exact one_div_ne_zero hq0, ?_, ?_⟩
  · intro t
    rw [he, hvB, hoLast]
    conv_lhs => rw [ho]
    ext i
    simp only [Pi.add_apply, Pi.sub_apply, Pi.smul_apply, smul_eq_mul]
    have h1 : (ox * vL + oL + t * vL) * p + (ox - p / q + t) * (1 - vL * p) = ox + t := by
      field_simp
      linear_combination (p) * hpq
    have h2 : (ox * vL + oL + t * vL) * q - (ox - p / q + t) * (vL * q) = 1 := by
      field_simp
      linear_combination hpq
    linear_combination (-(v i)) * h1 + (-(oo i)) * h2
  · intro s
    rw [he]
    have y1 : dot (p • v + q • oo + s • vB) oo / mag2 oo = q * (1 - s * vL) := by
      rw [dot_eq, mag2_eq, ← hO, add_dotProduct, add_dotProduct, smul_dotProduct, smul_dotProduct, smul_dotProduct, w1,
        dotProduct_comm v oo, hperp, ← hO]
      simp only [smul_eq_mul]
      field_simp
      ring
    have y2 : dot (p • v + q • oo + s • vB) v / mag2 v = p + s * (1 - vL * p) := by
      rw [dot_eq, mag2_eq, ← hV, add_dotProduct, add_dotProduct, smul_dotProduct, smul_dotProduct, smul_dotProduct, w2, hperp, ← hV]
      simp only [smul_eq_mul]
      field_simp
      ring
    unfold fruHit
    simp only
    rw [y1, y2, mag2_eq, mag2_eq, ← hV, ← hO, dot_eq, ← hox]
    by_cases hz : 1 - s * vL = 0
    · rw [if_pos hz, if_pos (Or.inr (Or.inr (by rw [hz, mul_zero])))]
    · rw [if_neg hz, if_neg (not_or.2 ⟨hv2.ne', not_or.2 ⟨ho2.ne', mul_ne_zero hq0 hz⟩⟩), meetAt, hdelta]
      congr 1
      field_simp
      ring

/-! ### From the hits to the interval -/

omit [IsStrictOrderedRing K] in
theorem slabSpan_iff [IsStrictOrderedRing K] (h : Height K) (hh : h.lo ≤ h.hi) (a b t : K) :
    InIval (slabSpan h a b) t ↔ h.lo ≤ a + t * b ∧ a + t * b ≤ h.hi := by
  unfold slabSpan
  by_cases hb : b = 0
  · rw [if_pos hb, hb, mul_zero, add_zero]
    by_cases h1 : h.contains a = true
    · rw [if_pos h1]
      exact ⟨fun _ => (height_contains h a).1 h1, fun _ => inIval_full t⟩
    · rw [if_neg h1]
      exact ⟨fun h => absurd h (inIval_void t), fun h' => absurd ((height_contains h a).2 h') h1⟩
  · rw [if_neg hb, span_slab _ _ _ _ _ hb hh]

/-- The interval between two hits on one side of the tip. -/
theorem fruClip_same (slab : Ext K × Ext K) (a b x y t : K) (h : (a + x * b < 0) ↔ (a + y * b < 0)) :
    InIval (fruClip slab a b x y) t ↔ (x ≤ t ∧ t ≤ y) ∧ InIval slab t := by
  unfold fruClip
  simp only
  rw [inIval_meet, if_neg (by simp [h])]
  simp [InIval, WithBot.coe_le_coe]

/-- The interval made of two hits on different sides of the tip. -/
theorem fruClip_mixed (slab : Ext K × Ext K) (a b x y t : K) (h : ¬ ((a + x * b < 0) ↔ (a + y * b < 0))) :
    InIval (fruClip slab a b x y) t ↔ (if slab.1 < ((0 : K) : Ext K) then t ≤ x else y ≤ t) ∧ InIval slab t := by
  unfold fruClip
  simp only
  have hd : ((decide (a + x * b < 0)) != (decide (a + y * b < 0))) = true := by
    rw [bne_iff_ne, ne_eq, decide_eq_decide]
    exact h
  rw [inIval_meet, if_pos hd]
  split_ifs <;> simp [InIval, WithBot.coe_le_coe]

/-- Rays past the tip: what the frustum is along the ray, and what the code computes. -/
theorem fru_core (S : Set (Fin n → K)) (contains : (Fin n → K) → Bool) (ray : (Fin n → K) → (Fin n → K) → Ext K × Ext K)
    (h : Height K) (hr : ∀ o v, v ≠ 0 → ∀ t : K, InIval (ray o v) t ↔ o + t • v ∈ S)
    (hfin : ∀ o v, v ≠ 0 → (ray o v).2 < (ray o v).1 ∨ ∃ x y : K, ray o v = (((x : K) : Ext K), ((y : K) : Ext K)))
    (o v : Fin (n + 1) → K) (hv : v ≠ 0) (hf : foot o v (Fin.last n) ≠ 0) :
    ∃ g : K, o (Fin.last n) - g * v (Fin.last n) ≠ 0 ∧
    ∃ e w : Fin n → K, w ≠ 0 ∧ v = v (Fin.last n) • lift e 1 + lift w 0 ∧
      (Fin.init o : Fin n → K) = o (Fin.last n) • e + g • w ∧
      (∀ t : K, o + t • v ∈ fruPts S h.lo h.hi ↔
        (h.clipped.lo ≤ o (Fin.last n) + t * v (Fin.last n) ∧ o (Fin.last n) + t * v (Fin.last n) ≤ h.clipped.hi) ∧
        o (Fin.last n) + t * v (Fin.last n) ≠ 0 ∧ e + ((g + t) / (o (Fin.last n) + t * v (Fin.last n))) • w ∈ S) ∧
      ((fruRay contains ray h o v = some void ∧ ∀ s : K, e + s • w ∉ S) ∨
        ∃ s0 s1 : K, s0 ≤ s1 ∧ (∀ s : K, e + s • w ∈ S ↔ s0 ≤ s ∧ s ≤ s1) ∧
          fruRay contains ray h o v = if 1 - s0 * v (Fin.last n) = 0 ∨ 1 - s1 * v (Fin.last n) = 0 then none else
            some (fruClip (slabSpan h.clipped (o (Fin.last n)) (v (Fin.last n))) (o (Fin.last n)) (v (Fin.last n))
              (min (meetAt (o (Fin.last n)) (v (Fin.last n)) g s0) (meetAt (o (Fin.last n)) (v (Fin.last n)) g s1))
              (max (meetAt (o (Fin.last n)) (v (Fin.last n)) g s0) (meetAt (o (Fin.last n)) (v (Fin.last n)) g s1)))) := by
  obtain ⟨oB, hoB, hoBL, vB, hvB, hvB0, hvBL, e, he, heL, g, hg, hline, hhit⟩ := plane_coords o v hv hf
  have hw0 : (Fin.init vB : Fin n → K) ≠ 0 := by
    intro h0
    apply hvB0
    rw [← lift_eta vB, h0, hvBL]
    refine funext fun i => Fin.lastCases ?_ (fun i => ?_) i
    · rw [lift_last]
      rfl
    · exact congrFun (lift_init (0 : Fin n → K) 0) i
  have hpt : ∀ s : K, lift (Fin.init e + s • Fin.init vB : Fin n → K) 1 = e + s • vB := by
    intro s
    refine funext fun i => Fin.lastCases ?_ (fun i => ?_) i
    · rw [lift_last, Pi.add_apply, Pi.smul_apply, heL, hvBL, smul_zero, add_zero]
    · exact congrFun (lift_init (Fin.init e + s • Fin.init vB : Fin n → K) 1) i
  refine ⟨g, hg, Fin.init e, Fin.init vB, hw0, ?_, ?_, ?_, ?_⟩
  · have e0 := hline 0
    have e1 := hline 1
    have e3 : v = v (Fin.last n) • e + vB := by
      have : v = (o + (1 : K) • v) - (o + (0 : K) • v) := by
        rw [one_smul, zero_smul]
        abel
      conv_lhs => rw [this, e0, e1]
      ext i
      simp only [Pi.add_apply, Pi.sub_apply, Pi.smul_apply, smul_eq_mul]
      ring
    conv_lhs => rw [e3]
    rw [← hvBL, lift_eta, ← heL, lift_eta]
  · have e0 := hline 0
    rw [zero_smul, add_zero, zero_mul, add_zero, add_zero] at e0
    conv_lhs => rw [e0]
    rfl
  · intro t
    rw [mem_fru, hline t]
    set z := o (Fin.last n) + t * v (Fin.last n) with hz
    constructor
    · rintro ⟨b, hb, z', hz0, hz1, heq⟩
      have hzz : z = z' := by
        have := congrFun heq (Fin.last n)
        rwa [smul_lift_last, Pi.add_apply, Pi.smul_apply, Pi.smul_apply, heL, hvBL, smul_eq_mul, smul_eq_mul, mul_one, mul_zero,
          add_zero] at this
      have hzne : z ≠ 0 := by
        intro h0
        rw [← hzz, h0, zero_smul, zero_smul, zero_add] at heq
        have h1 : g + t = 0 := by
          by_contra h1
          exact hvB0 (smul_eq_zero.1 heq |>.resolve_left h1)
        apply hg
        rw [show g = -t by linarith]
        rw [hz] at h0
        linarith
      refine ⟨⟨hzz ▸ hz0, hzz ▸ hz1⟩, hzne, ?_⟩
      convert hb using 1
      have h2 : e + ((g + t) / z) • vB = lift b 1 := by
        rw [← hzz] at heq
        have h3 : z • (e + ((g + t) / z) • vB) = z • lift b 1 := by
          rw [← heq, smul_add, smul_smul, mul_div_cancel₀ _ hzne]
        exact smul_right_injective _ hzne h3
      rw [← hpt] at h2
      have h3 := congrArg (fun x : Fin (n + 1) → K => (Fin.init x : Fin n → K)) h2
      simpa only [lift_init] using h3
    · rintro ⟨hz0, hzne, hb⟩
      refine ⟨_, hb, z, hz0.1, hz0.2, ?_⟩
      rw [hpt, smul_add, smul_smul, mul_div_cancel₀ _ hzne]
  · have hfoot : o - projectOn o v = foot o v := by rw [projectOn_eq, foot]
    have hcode : fruRay contains ray h o v =
        fruRayGeneral ray (slabSpan h.clipped (o (Fin.last n)) (v (Fin.last n))) o v (foot o v) oB vB := by
      unfold fruRay
      simp only
      rw [hfoot, ← hoB, ← hvB, if_neg hoBL, if_neg hvB0]
    have hmem : ∀ s : K, (Fin.init e + s • Fin.init vB : Fin n → K) ∈ S ↔ InIval (ray (Fin.init e) (Fin.init vB)) s :=
      fun s => (hr _ _ hw0 s).symm
    rw [hcode]
    unfold fruRayGeneral
    simp only
    rw [← he]
    rcases hfin (Fin.init e) (Fin.init vB) hw0 with hemp | ⟨s0, s1, hs⟩
    · left
      refine ⟨if_pos hemp, fun s hs => ?_⟩
      rw [hmem] at hs
      exact absurd (hs.1.trans hs.2) (not_le.2 hemp)
    · by_cases hlt : s1 < s0
      · left
        refine ⟨if_pos (by rw [hs]; exact WithBot.coe_lt_coe.2 (WithTop.coe_lt_coe.2 hlt)), fun s h1 => ?_⟩
        rw [hmem, hs] at h1
        have h2 := h1.1.trans h1.2
        exact absurd (WithTop.coe_le_coe.1 (WithBot.coe_le_coe.1 h2)) (not_le.2 hlt)
      · right
        refine ⟨s0, s1, not_lt.1 hlt, fun s => ?_, ?_⟩
        · rw [hmem, hs]
          simp [InIval, WithBot.coe_le_coe]
        · rw [if_neg (by rw [hs]; exact fun h1 => hlt (WithTop.coe_lt_coe.1 (WithBot.coe_lt_coe.1 h1))), hs]
          show (match fruHit o v (foot o v) (lift (Fin.init e + s0 • Fin.init vB : Fin n → K) 1),
            fruHit o v (foot o v) (lift (Fin.init e + s1 • Fin.init vB : Fin n → K) 1) with
            | some x, some y => some (fruClip (slabSpan h.clipped (o (Fin.last n)) (v (Fin.last n))) (o (Fin.last n)) (v (Fin.last n))
              (stdMin x y) (stdMax x y))
            | _, _ => none) = _
          rw [hpt, hpt, hhit, hhit]
          by_cases h0 : 1 - s0 * v (Fin.last n) = 0
          · rw [if_pos h0, if_pos (Or.inl h0)]
          · by_cases h1 : 1 - s1 * v (Fin.last n) = 0
            · rw [if_neg h0, if_pos h1, if_pos (Or.inr h1)]
            · rw [if_neg h0, if_neg h1, if_neg (not_or.2 ⟨h0, h1⟩)]
              simp only [stdMin_eq, stdMax_eq]

/-! ### The property -/

/-- A shape that answers containment and ray queries, the latter with intervals that are empty or finite: the set of its points is
bounded along every line. -/
structure Answers (S : Set (Fin n → K)) (contains : (Fin n → K) → Bool) (ray : (Fin n → K) → (Fin n → K) → Ext K × Ext K) : Prop where
  onContains : ∀ b, contains b = true ↔ b ∈ S
  onRay : ∀ o v, v ≠ 0 → ∀ t : K, InIval (ray o v) t ↔ o + t • v ∈ S
  bounded : ∀ o v, v ≠ 0 → (ray o v).2 < (ray o v).1 ∨ ∃ x y : K, ray o v = (((x : K) : Ext K), ((y : K) : Ext K))

/-- **C53**, frustum, rays that do not run to infinity inside the cone: exact, if the point of the ray's line nearest the tip is
not level with the tip. -/
theorem C53_fru_ray_partial {S : Set (Fin n → K)} {contains : (Fin n → K) → Bool} {ray : (Fin n → K) → (Fin n → K) → Ext K × Ext K}
    (hS : Answers S contains ray) (h : Height K) (hh : h.lo ≤ h.hi) (o v : Fin (n + 1) → K) (hv : v ≠ 0)
    (hf : foot o v (Fin.last n) ≠ 0) (hout : ∀ b ∈ S, ∀ k : K, v ≠ k • lift b 1) :
    ∃ iv, fruRay contains ray h o v = some iv ∧ ∀ t : K, InIval iv t ↔ o + t • v ∈ fruPts S h.lo h.hi := by
  obtain ⟨g, hg, e, w, hw, hvew, -, hmem, hcode⟩ := fru_core S contains ray h hS.onRay hS.bounded o v hv hf
  rcases hcode with ⟨hc, hno⟩ | ⟨s0, s1, hs, hseg, hc⟩
  · exact ⟨void, hc, fun t => ⟨fun h => absurd h (inIval_void t), fun h => absurd ((hmem t).1 h).2.2 (hno _)⟩⟩
  set a := o (Fin.last n)
  set b := v (Fin.last n)
  have hpos : 0 < (1 - s0 * b) * (1 - s1 * b) := by
    by_contra hle
    push Not at hle
    have hb : b ≠ 0 := by
      intro hb
      rw [hb, mul_zero, mul_zero, sub_zero, one_mul] at hle
      exact absurd hle (not_le.2 zero_lt_one)
    have hbb : 0 < b * b := mul_self_pos.2 hb
    have h1 : (1 / b - s0) * (1 / b - s1) ≤ 0 := by
      have : (1 / b - s0) * (1 / b - s1) = (1 - s0 * b) * (1 - s1 * b) / (b * b) := by field_simp
      rw [this]
      exact div_nonpos_of_nonpos_of_nonneg hle hbb.le
    have h2 : s0 ≤ 1 / b ∧ 1 / b ≤ s1 := by
      constructor
      · by_contra h5
        push Not at h5
        nlinarith
      · by_contra h5
        push Not at h5
        nlinarith
    refine hout _ ((hseg (1 / b)).2 h2) b ?_
    conv_lhs => rw [hvew]
    refine funext fun i => Fin.lastCases ?_ (fun i => ?_) i
    · rw [smul_lift_last, Pi.add_apply, smul_lift_last, lift_last, add_zero]
    · have k1 := congrFun (smul_lift_init b (e + (1 / b) • w) 1) i
      have k2 := congrFun (smul_lift_init b e 1) i
      have k3 := congrFun (lift_init w 0) i
      rw [Fin.init] at k1 k2 k3
      rw [k1, Pi.add_apply, k2, k3, smul_add, smul_smul, mul_one_div_cancel hb, one_smul, Pi.add_apply]
  have n0 : 1 - s0 * b ≠ 0 := fun h => by rw [h, zero_mul] at hpos; exact lt_irrefl _ hpos
  have n1 : 1 - s1 * b ≠ 0 := fun h => by rw [h, mul_zero] at hpos; exact lt_irrefl _ hpos
  rw [if_neg (not_or.2 ⟨n0, n1⟩)] at hc
  refine ⟨_, hc, fun t => ?_⟩
  have k0 := meet_height (a := a) (g := g) n0
  have k1 := meet_height (a := a) (g := g) n1
  have hsame : (a + meetAt a b g s0 * b < 0) ↔ (a + meetAt a b g s1 * b < 0) := by
    rw [k0, k1, div_neg_iff, div_neg_iff]
    rcases mul_pos_iff.1 hpos with ⟨p0, p1⟩ | ⟨p0, p1⟩
    · simp [p0, p1, p0.le, p1.le, not_lt.2 p0.le, not_lt.2 p1.le]
    · simp [p0, p1, not_lt.2 p0.le, not_lt.2 p1.le]
  have hmm : (a + min (meetAt a b g s0) (meetAt a b g s1) * b < 0) ↔ (a + max (meetAt a b g s0) (meetAt a b g s1) * b < 0) := by
    rcases le_total (meetAt a b g s0) (meetAt a b g s1) with hl | hl
    · rw [min_eq_left hl, max_eq_right hl]
      exact hsame
    · rw [min_eq_right hl, max_eq_left hl]
      exact hsame.symm
  rw [fruClip_same _ _ _ _ _ _ hmm, hmem, slabSpan_iff _ (clipped_le h hh), between_same hg hs hpos, hseg]
  tauto

theorem pick_pos {P A B R : Prop} (h : P) : ((P → A) ∧ (¬ P → B)) ∧ R ↔ A ∧ R :=
  ⟨fun x => ⟨x.1.1 h, x.2⟩, fun x => ⟨⟨fun _ => x.1, fun n => absurd h n⟩, x.2⟩⟩

theorem pick_neg {P A B R : Prop} (h : ¬ P) : ((P → A) ∧ (¬ P → B)) ∧ R ↔ B ∧ R :=
  ⟨fun x => ⟨x.1.2 h, x.2⟩, fun x => ⟨⟨fun n => absurd n h, fun _ => x.1⟩, x.2⟩⟩

/-- A point of a shape that is not an end of the chord through it in the direction `u`. -/
def Amid (S : Set (Fin n → K)) (c u : Fin n → K) : Prop :=
  (∃ ε : K, 0 < ε ∧ c + ε • u ∈ S) ∧ ∃ ε : K, 0 < ε ∧ c - ε • u ∈ S

omit [LinearOrder K] [IsStrictOrderedRing K] in
/-- The plane of the tip and the ray meets the base plane in a line through the point `c` that the direction points at. -/
theorem chord_coords (o : Fin (n + 1) → K) (c e w : Fin n → K) (k g : K) (hk : k ≠ 0)
    (hvew : (k • lift c 1 : Fin (n + 1) → K) = (k • lift c 1 : Fin (n + 1) → K) (Fin.last n) • lift e 1 + lift w 0)
    (ho : (Fin.init o : Fin n → K) = o (Fin.last n) • e + g • w) :
    c = e + (1 / k) • w ∧ (Fin.init o : Fin n → K) - o (Fin.last n) • c = (g - o (Fin.last n) / k) • w := by
  have hvL : (k • lift c 1 : Fin (n + 1) → K) (Fin.last n) = k := smul_lift_last k c
  have hcew : c = e + (1 / k) • w := by
    have h1 : (Fin.init (k • lift c 1) : Fin n → K) = Fin.init ((k • lift c 1 : Fin (n + 1) → K) (Fin.last n) • lift e 1 + lift w 0) :=
      congrArg (fun x : Fin (n + 1) → K => (Fin.init x : Fin n → K)) hvew
    rw [hvL, smul_lift_init] at h1
    have h2 : (Fin.init (k • lift e 1 + lift w 0) : Fin n → K) = k • e + w := by
      ext i
      have k2 := congrFun (smul_lift_init k e 1) i
      have k3 := congrFun (lift_init w 0) i
      rw [Fin.init] at k2 k3 ⊢
      rw [Pi.add_apply, k2, k3]
      rfl
    rw [h2] at h1
    have h3 := congrArg (fun x => (1 / k) • x) h1
    rwa [smul_smul, one_div_mul_cancel hk, one_smul, smul_add, smul_smul, one_div_mul_cancel hk, one_smul] at h3
  refine ⟨hcew, ?_⟩
  rw [ho, hcew]
  ext i
  simp only [Pi.sub_apply, Pi.add_apply, Pi.smul_apply, smul_eq_mul]
  field_simp
  ring

/-- Rays that run to infinity inside the cone: the code picks one of the two half lines by the sign of the parameter at which the ray
enters the height range. -/
theorem fru_inward {S : Set (Fin n → K)} {contains : (Fin n → K) → Bool} {ray : (Fin n → K) → (Fin n → K) → Ext K × Ext K}
    (hS : Answers S contains ray) (h : Height K) (hh : h.lo ≤ h.hi) (o : Fin (n + 1) → K) (c : Fin n → K) (k : K) (hk : k ≠ 0)
    (hc : Amid S c ((Fin.init o : Fin n → K) - o (Fin.last n) • c)) (hf : foot o (k • lift c 1) (Fin.last n) ≠ 0) :
    ∃ iv, fruRay contains ray h o (k • lift c 1) = some iv ∧
    ∃ x y : K, (o (Fin.last n) + x * k) * k < 0 ∧ 0 < (o (Fin.last n) + y * k) * k ∧
      (∀ t, InIval iv t ↔ ((0 < k ∧ h.clipped.lo < o (Fin.last n) ∨ k < 0 ∧ o (Fin.last n) < h.clipped.hi → t ≤ x) ∧
        (¬ (0 < k ∧ h.clipped.lo < o (Fin.last n) ∨ k < 0 ∧ o (Fin.last n) < h.clipped.hi) → y ≤ t)) ∧
        h.clipped.lo ≤ o (Fin.last n) + t * k ∧ o (Fin.last n) + t * k ≤ h.clipped.hi) ∧
      (∀ t, 0 ≤ (o (Fin.last n) + t * k) * k → (o + t • (k • lift c 1) ∈ fruPts S h.lo h.hi ↔
        y ≤ t ∧ h.clipped.lo ≤ o (Fin.last n) + t * k ∧ o (Fin.last n) + t * k ≤ h.clipped.hi)) ∧
      (∀ t, (o (Fin.last n) + t * k) * k ≤ 0 → (o + t • (k • lift c 1) ∈ fruPts S h.lo h.hi ↔
        t ≤ x ∧ h.clipped.lo ≤ o (Fin.last n) + t * k ∧ o (Fin.last n) + t * k ≤ h.clipped.hi)) := by
  have hvL : (k • lift c 1 : Fin (n + 1) → K) (Fin.last n) = k := smul_lift_last k c
  have hv : (k • lift c 1 : Fin (n + 1) → K) ≠ 0 := fun h0 => hk (by rw [← hvL, h0]; rfl)
  obtain ⟨g, hg, e, w, hw, hvew, ho, hmem, hcode⟩ := fru_core S contains ray h hS.onRay hS.bounded o _ hv hf
  rw [hvL] at hg hmem hcode
  obtain ⟨hcew, hu⟩ := chord_coords o c e w k g hk hvew ho
  have hstep : ∀ ε : K, c + ε • w = e + (1 / k + ε) • w := by
    intro ε
    rw [hcew, add_smul]
    abel
  have hm : g - o (Fin.last n) / k ≠ 0 := by
    intro h0
    apply hg
    rw [sub_eq_zero.1 h0, div_mul_cancel₀ _ hk, sub_self]
  obtain ⟨ε₁, hε₁, hin₁, ε₂, hε₂, hin₂⟩ : ∃ ε₁ : K, 0 < ε₁ ∧ c + ε₁ • w ∈ S ∧ ∃ ε₂ : K, 0 < ε₂ ∧ c + (-ε₂) • w ∈ S := by
    obtain ⟨⟨x, hx, h1⟩, y, hy, h2⟩ := hc
    rw [hu, smul_smul] at h1 h2
    rcases lt_or_gt_of_ne hm with h0 | h0
    · refine ⟨-(y * (g - o (Fin.last n) / k)), by nlinarith, by rw [neg_smul, ← sub_eq_add_neg]; exact h2,
        -(x * (g - o (Fin.last n) / k)), by nlinarith, by rw [neg_neg]; exact h1⟩
    · exact ⟨x * (g - o (Fin.last n) / k), mul_pos hx h0, h1, y * (g - o (Fin.last n) / k), mul_pos hy h0,
        by rw [neg_smul, ← sub_eq_add_neg]; exact h2⟩
  rw [hstep] at hin₁ hin₂
  rcases hcode with ⟨-, hno⟩ | ⟨s0, s1, hs, hseg, hc⟩
  · exact absurd hin₁ (hno _)
  have b1 := ((hseg _).1 hin₁).2
  have b0 := ((hseg _).1 hin₂).1
  have hneg : (1 - s0 * k) * (1 - s1 * k) < 0 := by
    have h1 : (1 - s0 * k) * (1 - s1 * k) = (1 / k - s0) * (1 / k - s1) * (k * k) := by field_simp
    rw [h1]
    exact mul_neg_of_neg_of_pos (mul_neg_of_pos_of_neg (by linarith) (by linarith)) (mul_self_pos.2 hk)
  have n0 : 1 - s0 * k ≠ 0 := fun h => by rw [h, zero_mul] at hneg; exact lt_irrefl _ hneg
  have n1 : 1 - s1 * k ≠ 0 := fun h => by rw [h, mul_zero] at hneg; exact lt_irrefl _ hneg
  rw [if_neg (not_or.2 ⟨n0, n1⟩)] at hc
  set a := o (Fin.last n)
  have k0 := meet_height (a := a) (g := g) n0
  have k1 := meet_height (a := a) (g := g) n1
  have hopp : (a + meetAt a k g s0 * k) * (a + meetAt a k g s1 * k) < 0 := by
    rw [k0, k1, div_mul_div_comm]
    exact div_neg_of_pos_of_neg (mul_self_pos.2 hg) hneg
  have hkk : 0 < k * k := mul_self_pos.2 hk
  -- the heights of the two ends
  have hends : (a + min (meetAt a k g s0) (meetAt a k g s1) * k) * k < 0 ∧
      0 < (a + max (meetAt a k g s0) (meetAt a k g s1) * k) * k := by
    have key : ∀ x y : K, x ≤ y → (a + x * k) * (a + y * k) < 0 → (a + x * k) * k < 0 ∧ 0 < (a + y * k) * k := by
      intro x y hxy hlt
      have h1 : ((a + x * k) * k) * ((a + y * k) * k) < 0 := by
        have : ((a + x * k) * k) * ((a + y * k) * k) = ((a + x * k) * (a + y * k)) * (k * k) := by ring
        rw [this]
        exact mul_neg_of_neg_of_pos hlt hkk
      have h2 : (a + x * k) * k ≤ (a + y * k) * k := by nlinarith
      rcases mul_neg_iff.1 h1 with h3 | h3
      · linarith
      · exact h3
    rcases le_total (meetAt a k g s0) (meetAt a k g s1) with hl | hl
    · rw [min_eq_left hl, max_eq_right hl]
      exact key _ _ hl hopp
    · rw [min_eq_right hl, max_eq_left hl]
      exact key _ _ hl (by rw [mul_comm]; exact hopp)
  refine ⟨_, hc, _, _, hends.1, hends.2, ?_, ?_, ?_⟩
  · intro t
    have hmm : ¬ ((a + min (meetAt a k g s0) (meetAt a k g s1) * k < 0) ↔ (a + max (meetAt a k g s0) (meetAt a k g s1) * k < 0)) := by
      intro hiff
      rcases lt_or_gt_of_ne hk with hk' | hk'
      · have h1 : 0 < a + min (meetAt a k g s0) (meetAt a k g s1) * k := by
          by_contra h2
          push Not at h2
          nlinarith [hends.1]
        have h2 : a + max (meetAt a k g s0) (meetAt a k g s1) * k < 0 := by
          by_contra h2
          push Not at h2
          nlinarith [hends.2]
        exact absurd (hiff.2 h2) (not_lt.2 h1.le)
      · have h1 : a + min (meetAt a k g s0) (meetAt a k g s1) * k < 0 := by
          by_contra h2
          push Not at h2
          nlinarith [hends.1]
        have h2 : 0 < a + max (meetAt a k g s0) (meetAt a k g s1) * k := by
          by_contra h2
          push Not at h2
          nlinarith [hends.2]
        exact absurd (hiff.1 h1) (not_lt.2 h2.le)
    rw [fruClip_mixed _ _ _ _ _ _ hmm, slabSpan_iff _ (clipped_le h hh)]
    have hslab : (slabSpan h.clipped a k).1 < ((0 : K) : Ext K) ↔ (0 < k ∧ h.clipped.lo < a ∨ k < 0 ∧ a < h.clipped.hi) := by
      have hle := clipped_le h hh
      unfold slabSpan
      rw [if_neg hk, ival]
      simp only
      rw [WithBot.coe_lt_coe, WithTop.coe_lt_coe, stdMin_eq]
      rcases lt_or_gt_of_ne hk with hk' | hk'
      · rw [min_eq_right (div_le_div_of_nonpos_of_le hk'.le (by linarith)), div_lt_iff_of_neg hk', zero_mul, sub_pos]
        simp [hk', not_lt.2 hk'.le]
      · rw [min_eq_left (div_le_div_of_nonneg_right (by linarith) hk'.le), div_lt_iff₀ hk', zero_mul, sub_neg]
        simp [hk', not_lt.2 hk'.le]
    by_cases hsl : (slabSpan h.clipped a k).1 < ((0 : K) : Ext K)
    · rw [if_pos hsl]
      rw [pick_pos (hslab.1 hsl)]
    · rw [if_neg hsl]
      rw [pick_neg fun h' => hsl (hslab.2 h')]
  · intro t ht
    rw [hmem, hseg, ((between_mixed hg hs hneg).2.1 ht)]
    exact and_comm
  · intro t ht
    rw [hmem, hseg, ((between_mixed hg hs hneg).2.2 ht)]
    exact and_comm

/-- **C53**, frustum, rays that run to infinity inside the cone: exact for the rays that start outside the heights on the side of the
tip, or inside or beyond them and run towards the tip. -/
theorem C53_fru_ray_inward_partial {S : Set (Fin n → K)} {contains : (Fin n → K) → Bool}
    {ray : (Fin n → K) → (Fin n → K) → Ext K × Ext K} (hS : Answers S contains ray) (h : Height K) (hh : h.lo ≤ h.hi)
    (o : Fin (n + 1) → K) (c : Fin n → K) (k : K) (hk : k ≠ 0) (hc : Amid S c ((Fin.init o : Fin n → K) - o (Fin.last n) • c)) (hf : foot o (k • lift c 1) (Fin.last n) ≠ 0)
    (hstart : if 0 ≤ h.clipped.lo then (if 0 < k then o (Fin.last n) ≤ h.clipped.lo else o (Fin.last n) < h.clipped.hi)
      else (if 0 < k then h.clipped.lo < o (Fin.last n) else h.clipped.hi ≤ o (Fin.last n))) :
    ∃ iv, fruRay contains ray h o (k • lift c 1) = some iv ∧
      ∀ t : K, InIval iv t ↔ o + t • (k • lift c 1) ∈ fruPts S h.lo h.hi := by
  obtain ⟨iv, hiv, x, y, hx, hy, hin, hup, hdn⟩ := fru_inward hS h hh o c k hk hc hf
  refine ⟨iv, hiv, fun t => ?_⟩
  rw [hin]
  set a := o (Fin.last n)
  set v := k • lift c 1
  -- outside the heights there is nothing to show
  have hcl := hup t
  have hout : o + t • v ∈ fruPts S h.lo h.hi → h.clipped.lo ≤ a + t * k ∧ a + t * k ≤ h.clipped.hi := by
    intro hm
    rcases le_total 0 ((a + t * k) * k) with h0 | h0
    · exact ((hup t h0).1 hm).2
    · exact ((hdn t h0).1 hm).2
  by_cases hr : h.clipped.lo ≤ a + t * k ∧ a + t * k ≤ h.clipped.hi
  · have hsign := clipped_sign h
    by_cases hlo : 0 ≤ h.clipped.lo
    · rw [if_pos hlo] at hstart
      have hz : 0 ≤ a + t * k := hlo.trans hr.1
      by_cases hk' : 0 < k
      · rw [if_pos hk'] at hstart
        have hpick : ¬ (0 < k ∧ h.clipped.lo < a ∨ k < 0 ∧ a < h.clipped.hi) := by
          rintro (h1 | h1)
          · exact absurd h1.2 (not_lt.2 hstart)
          · exact absurd h1.1 (not_lt.2 hk'.le)
        rw [pick_neg hpick, hup t (mul_nonneg hz hk'.le)]
      · rw [if_neg hk'] at hstart
        have hpick : 0 < k ∧ h.clipped.lo < a ∨ k < 0 ∧ a < h.clipped.hi :=
          Or.inr ⟨lt_of_le_of_ne (not_lt.1 hk') hk, hstart⟩
        rw [pick_pos hpick, hdn t (mul_nonpos_of_nonneg_of_nonpos hz (not_lt.1 hk'))]
    · rw [if_neg hlo] at hstart
      have hz : a + t * k ≤ 0 := hr.2.trans (not_lt.1 fun h' => hsign ⟨not_le.1 hlo, h'⟩)
      by_cases hk' : 0 < k
      · rw [if_pos hk'] at hstart
        have hpick : 0 < k ∧ h.clipped.lo < a ∨ k < 0 ∧ a < h.clipped.hi := Or.inl ⟨hk', hstart⟩
        rw [pick_pos hpick, hdn t (mul_nonpos_of_nonpos_of_nonneg hz hk'.le)]
      · rw [if_neg hk'] at hstart
        have hpick : ¬ (0 < k ∧ h.clipped.lo < a ∨ k < 0 ∧ a < h.clipped.hi) := by
          rintro (h1 | h1)
          · exact hk' h1.1
          · exact absurd h1.2 (not_lt.2 hstart)
        rw [pick_neg hpick, hup t (mul_nonneg_of_nonpos_of_nonpos hz (not_lt.1 hk'))]
  · exact ⟨fun h' => absurd h'.2 hr, fun h' => absurd (hout h') hr⟩

/-- **C53** refuted for rays and frusta: a ray that starts inside the frustum, above its lower end, and runs upward and to infinity
inside the cone is reported to miss. -/
theorem C53_fru_ray_inward_refuted {S : Set (Fin n → K)} {contains : (Fin n → K) → Bool}
    {ray : (Fin n → K) → (Fin n → K) → Ext K × Ext K} (hS : Answers S contains ray) (h : Height K) (h0 : 0 ≤ h.lo) (hh : h.lo ≤ h.hi)
    (o : Fin (n + 1) → K) (ho : o ∈ fruPts S h.lo h.hi) (hlo : h.lo < o (Fin.last n)) (c : Fin n → K) (k : K) (hk : 0 < k)
    (hc : Amid S c ((Fin.init o : Fin n → K) - o (Fin.last n) • c)) (hf : foot o (k • lift c 1) (Fin.last n) ≠ 0) :
    o + (0 : K) • (k • lift c 1) ∈ fruPts S h.lo h.hi ∧
    ∃ iv, fruRay contains ray h o (k • lift c 1) = some iv ∧ ∀ t : K, ¬ InIval iv t := by
  refine ⟨by rwa [zero_smul, add_zero], ?_⟩
  obtain ⟨iv, hiv, x, y, hx, hy, hin, -, -⟩ := fru_inward hS h hh o c k hk.ne' hc hf
  refine ⟨iv, hiv, fun t ht => ?_⟩
  have hclo : h.clipped.lo = h.lo := by
    rw [Height.clipped]
    exact if_neg fun h' => absurd h'.1 (not_lt.2 h0)
  rw [hin, hclo] at ht
  have htx := ht.1.1 (Or.inl ⟨hk, hlo⟩)
  have h1 : o (Fin.last n) + x * k < 0 := by
    by_contra h2
    push Not at h2
    nlinarith
  nlinarith [htx, ht.2.1]

/-- **C53** refuted for rays and frusta: a ray pointing along a wall, at an end of the chord in which the base meets the plane of
the ray and the tip, divides by zero. -/
theorem C53_fru_ray_edge_refuted {S : Set (Fin n → K)} {contains : (Fin n → K) → Bool}
    {ray : (Fin n → K) → (Fin n → K) → Ext K × Ext K} (hS : Answers S contains ray) (h : Height K)
    (o : Fin (n + 1) → K) (c : Fin n → K) (hcS : c ∈ S) (k : K) (hk : k ≠ 0)
    (hc : ¬ Amid S c ((Fin.init o : Fin n → K) - o (Fin.last n) • c)) (hf : foot o (k • lift c 1) (Fin.last n) ≠ 0) :
    fruRay contains ray h o (k • lift c 1) = none := by
  have hvL : (k • lift c 1 : Fin (n + 1) → K) (Fin.last n) = k := smul_lift_last k c
  have hv : (k • lift c 1 : Fin (n + 1) → K) ≠ 0 := fun h0 => hk (by rw [← hvL, h0]; rfl)
  obtain ⟨g, hg, e, w, hw, hvew, ho, -, hcode⟩ := fru_core S contains ray h hS.onRay hS.bounded o _ hv hf
  rw [hvL] at hg hcode
  obtain ⟨hcew, hu⟩ := chord_coords o c e w k g hk hvew ho
  rcases hcode with ⟨-, hno⟩ | ⟨s0, s1, hs, hseg, hcode⟩
  · rw [hcew] at hcS
    exact absurd hcS (hno _)
  have hin : s0 ≤ 1 / k ∧ 1 / k ≤ s1 := by
    rw [hcew] at hcS
    exact (hseg _).1 hcS
  rw [hcode, if_pos]
  by_contra hne
  push Not at hne
  have n0 : s0 < 1 / k := lt_of_le_of_ne hin.1 fun h0 => hne.1 (by rw [h0, one_div_mul_cancel hk, sub_self])
  have n1 : 1 / k < s1 := lt_of_le_of_ne hin.2 fun h0 => hne.2 (by rw [← h0, one_div_mul_cancel hk, sub_self])
  have hm : g - o (Fin.last n) / k ≠ 0 := by
    intro h0
    apply hg
    rw [sub_eq_zero.1 h0, div_mul_cancel₀ _ hk, sub_self]
  set m := g - o (Fin.last n) / k
  have hstep : ∀ ε : K, c + ε • (m • w) = e + (1 / k + ε * m) • w := by
    intro ε
    rw [hcew, add_smul, smul_smul]
    abel
  -- a step small enough to stay on the chord
  set δ := min (1 / k - s0) (s1 - 1 / k) with hδ
  have hδ0 : 0 < δ := lt_min (by linarith) (by linarith)
  have h1 : δ ≤ 1 / k - s0 := min_le_left _ _
  have h2 : δ ≤ s1 - 1 / k := min_le_right _ _
  have hma : 0 < |m| := abs_pos.2 hm
  have hab : |δ / |m| * m| = δ := by
    rw [abs_mul, abs_div, abs_abs, abs_of_pos hδ0, div_mul_cancel₀ _ hma.ne']
  have hle := abs_le.1 hab.le
  apply hc
  rw [hu]
  refine ⟨⟨δ / |m|, div_pos hδ0 hma, ?_⟩, δ / |m|, div_pos hδ0 hma, ?_⟩
  · rw [hstep, hseg]
    constructor <;> linarith [hle.1, hle.2]
  · rw [sub_eq_add_neg, ← neg_smul, hstep, hseg]
    constructor <;> linarith [hle.1, hle.2]

/-! ### Rays whose nearest point to the tip is level with it -/

/-- What the code does with a rising or falling ray whose nearest point to the tip is level with it, such as a ray through the tip or
parallel to the axis: it looks in the base for a multiple of the direction, and returns all or nothing. -/
theorem fru_ray_level (contains : (Fin n → K) → Bool) (ray : (Fin n → K) → (Fin n → K) → Ext K × Ext K) (h : Height K)
    (o v : Fin (n + 1) → K) (hf : foot o v (Fin.last n) = 0) (hv : v (Fin.last n) ≠ 0) :
    fruRay contains ray h o v = some (if contains ((v (Fin.last n) / (v ⬝ᵥ v)) • Fin.init v) then
      slabSpan h.clipped (o (Fin.last n)) (v (Fin.last n)) else void) := by
  have hv0 : v ≠ 0 := fun h => hv (by rw [h]; rfl)
  have hvv : v ⬝ᵥ v ≠ 0 := (self_dot_pos hv0).ne'
  have e1 : o - projectOn o v = foot o v := by rw [projectOn_eq, foot]
  have e2 : projectOn (Pi.single (Fin.last n) 1) v = (v (Fin.last n) / (v ⬝ᵥ v)) • v := by
    rw [projectOn_eq, single_dotProduct, one_mul]
  have e3 : projectOn (Pi.single (Fin.last n) 1) (foot o v) = 0 := by
    rw [projectOn_eq, single_dotProduct, one_mul, hf, zero_div, zero_smul]
  have hc : v (Fin.last n) / (v ⬝ᵥ v) ≠ 0 := div_ne_zero hv hvv
  have e4 : v - projectOn v ((v (Fin.last n) / (v ⬝ᵥ v)) • v) = 0 := by
    rw [projectOn_eq, smul_dotProduct, dotProduct_smul, smul_smul]
    simp only [smul_eq_mul]
    rw [show v (Fin.last n) / v ⬝ᵥ v * (v ⬝ᵥ v) / (v (Fin.last n) / v ⬝ᵥ v * (v (Fin.last n) / v ⬝ᵥ v * v ⬝ᵥ v)) *
      (v (Fin.last n) / v ⬝ᵥ v) = 1 by field_simp, one_smul, sub_self]
  unfold fruRay
  simp only
  rw [e1, e2, e3, add_zero, e4, if_pos rfl, Pi.smul_apply, smul_eq_mul, if_neg (mul_ne_zero hc hv)]
  rfl

/-- **C53**, frustum: what a ray parallel to the axis is told depends on its place only through its height. -/
theorem C53_fru_ray_axial_refuted (contains : (Fin n → K) → Bool) (ray : (Fin n → K) → (Fin n → K) → Ext K × Ext K) (h : Height K)
    (o o' : Fin (n + 1) → K) (k : K) (hk : k ≠ 0) (ho : o (Fin.last n) = o' (Fin.last n)) :
    fruRay contains ray h o (Pi.single (Fin.last n) k) = fruRay contains ray h o' (Pi.single (Fin.last n) k) := by
  have hl : (Pi.single (Fin.last n) k : Fin (n + 1) → K) (Fin.last n) = k := Pi.single_eq_same _ _
  have hf : ∀ o : Fin (n + 1) → K, foot o (Pi.single (Fin.last n) k) (Fin.last n) = 0 := by
    intro o
    rw [foot, dotProduct_single, dotProduct_single, hl, Pi.sub_apply, Pi.smul_apply, hl, smul_eq_mul]
    field_simp
    ring
  rw [fru_ray_level _ _ _ _ _ (hf o) (by rw [hl]; exact hk), fru_ray_level _ _ _ _ _ (hf o') (by rw [hl]; exact hk), ho]

/-- What the code does with a ray in the plane of the tip: it always takes the ray to pass through the tip. -/
theorem fru_ray_flat (contains : (Fin n → K) → Bool) (ray : (Fin n → K) → (Fin n → K) → Ext K × Ext K) (h : Height K)
    (o v : Fin (n + 1) → K) (ho : o (Fin.last n) = 0) (ho0 : o ≠ 0) (hv : v (Fin.last n) = 0) :
    fruRay contains ray h o v = some (meet (ival ((v ⬝ᵥ o) / (o ⬝ᵥ o)) ((v ⬝ᵥ o) / (o ⬝ᵥ o))) (slabSpan h.clipped 0 0)) := by
  have hf : (o - projectOn o v) (Fin.last n) = 0 := by
    rw [projectOn_eq, Pi.sub_apply, Pi.smul_apply, hv, ho, smul_zero, sub_zero]
  have e2 : projectOn (Pi.single (Fin.last n) 1) v = 0 := by
    rw [projectOn_eq, single_dotProduct, one_mul, hv, zero_div, zero_smul]
  have e3 : projectOn (Pi.single (Fin.last n) 1) (o - projectOn o v) = 0 := by
    rw [projectOn_eq, single_dotProduct, one_mul, hf, zero_div, zero_smul]
  unfold fruRay
  simp only
  rw [e2, e3, add_zero, if_pos (show (0 : Fin (n + 1) → K) (Fin.last n) = 0 from rfl), if_pos rfl, mag2_eq, if_neg (self_dot_pos ho0).ne', ho, hv, dot_eq]

/-! ### Boxes as bases -/

theorem slabs_finite (b : Box K n) (o d : Fin n → K) (l : List (Fin n)) (s : Ext K × Ext K)
    (hs : s = (⊥, ((⊤ : WithTop K) : Ext K)) ∨ ∃ x y : K, s = (((x : K) : Ext K), ((y : K) : Ext K))) :
    ∀ r, b.slabs o d l s = some r →
      (∃ x y : K, r = (((x : K) : Ext K), ((y : K) : Ext K))) ∨ (r = s ∧ ∀ i ∈ l, d i = 0) := by
  induction l generalizing s with
  | nil =>
    intro r h
    rw [Box.slabs, Option.some.injEq] at h
    exact Or.inr ⟨h.symm, by simp⟩
  | cons i l ih =>
    intro r h
    rw [Box.slabs] at h
    by_cases hd : d i = 0
    · rw [if_pos hd] at h
      by_cases ho : o i < b.lo i ∨ b.hi i < o i
      · rw [if_pos ho] at h
        cases h
      · rw [if_neg ho] at h
        rcases ih s hs r h with h1 | ⟨h1, h2⟩
        · exact Or.inl h1
        · exact Or.inr ⟨h1, by simpa [hd] using h2⟩
    · rw [if_neg hd] at h
      simp only at h
      have hnext : ∃ x y : K, (stdMax s.1 ((stdMin ((b.hi i - o i) / d i) ((b.lo i - o i) / d i) : K) : Ext K),
          stdMin s.2 ((stdMax ((b.hi i - o i) / d i) ((b.lo i - o i) / d i) : K) : Ext K)) = (((x : K) : Ext K), ((y : K) : Ext K)) := by
        generalize stdMin ((b.hi i - o i) / d i) ((b.lo i - o i) / d i) = p
        generalize stdMax ((b.hi i - o i) / d i) ((b.lo i - o i) / d i) = q
        rcases hs with rfl | ⟨x, y, rfl⟩
        · refine ⟨p, q, ?_⟩
          rw [stdMax_eq, stdMin_eq, max_eq_right bot_le, min_eq_right (WithBot.coe_le_coe.2 le_top)]
        · refine ⟨max x p, min y q, ?_⟩
          rw [stdMax_eq, stdMin_eq]
          simp only [WithTop.coe_max, WithTop.coe_min, WithBot.coe_max, WithBot.coe_min]
      rcases ih _ (Or.inr hnext) r h with h1 | ⟨h1, -⟩
      · exact Or.inl h1
      · obtain ⟨x, y, hxy⟩ := hnext
        exact Or.inl ⟨x, y, h1.trans hxy⟩

/-- Boxes with points answer as a frustum needs: view frusta. -/
theorem box_answers (b : Box K n) (hb : b.isEmpty = false) :
    Answers b.pts (fun p => b.contains p) fun o v => (b.intersectRay o v).getD void where
  onContains p := by simp [mem_pts, Box.contains]
  onRay o v _ t := by
    have h := C49_ray b hb o v
    rcases hx : b.intersectRay o v with _ | ⟨l, u⟩
    · exact ⟨fun h' => absurd h' (inIval_void t), fun h' => absurd h' (h.1 hx t)⟩
    · exact h.2 l u hx t
  bounded o v hv := by
    rcases hx : b.intersectRay o v with _ | r
    · left
      exact bot_lt_iff_ne_bot.2 (by simp [void])
    · rcases slabs_finite b o v _ _ (Or.inl rfl) r hx with h | ⟨-, h⟩
      · exact Or.inr h
      · exact absurd (funext fun i => h i (List.mem_finRange i)) hv

/-- **C53** refuted for rays and frusta over boxes.  The base is `[-1, 1]`, the heights `[0, 10]`.  A ray beside the axis and parallel to
it is told that it is inside from height zero on; a ray through the tip and inside, that it misses; a ray in the plane of the tip, that
it meets the tip elsewhere than it does. -/
theorem C53_fru_ray_refuted :
    let R := fruRay (fun p => (⟨![-1], ![1]⟩ : Box ℚ 1).contains p) (fun o v => ((⟨![-1], ![1]⟩ : Box ℚ 1).intersectRay o v).getD void) ⟨0, 10⟩
    let F := fruPts (⟨![-1], ![1]⟩ : Box ℚ 1).pts 0 10
    ((∃ iv, R ![5, 0] ![0, 1] = some iv ∧ InIval iv 1) ∧ ![5, 0] + (1 : ℚ) • ![0, 1] ∉ F) ∧
    ((∃ iv, R ![-5, 0] ![1, 0] = some iv ∧ ¬ InIval iv 5) ∧ ![-5, 0] + (5 : ℚ) • ![1, 0] ∈ F) ∧
    (fruRay (fun p => (⟨![9/10], ![11/10]⟩ : Box ℚ 1).contains p) (fun o v => ((⟨![9/10], ![11/10]⟩ : Box ℚ 1).intersectRay o v).getD void)
      ⟨0, 4⟩ ![0, 0] ![1, 1] = some void ∧ ![0, 0] + (1 : ℚ) • ![1, 1] ∈ fruPts (⟨![9/10], ![11/10]⟩ : Box ℚ 1).pts 0 4) := by
  refine ⟨⟨⟨(((0 : ℚ) : Ext ℚ), ((10 : ℚ) : Ext ℚ)), by decide +kernel, by simp [InIval, WithBot.coe_le_coe]⟩, ?_⟩,
    ⟨⟨(((-1/5 : ℚ) : Ext ℚ), ((-1/5 : ℚ) : Ext ℚ)), by decide +kernel, ?_⟩, ?_⟩, by decide +kernel, ?_⟩
  · rintro ⟨b, hb, z, -, -, -, heq⟩
    have h1 := congrFun heq 1
    have h0 := congrFun heq 0
    have hb0 := mem_pts.1 hb 0
    simp [lift, Fin.snoc] at h0 h1 hb0
    rw [← h1, one_mul] at h0
    linarith [hb0.2]
  · rintro ⟨-, h2⟩
    have h3 : (5 : ℚ) ≤ -1/5 := WithTop.coe_le_coe.1 (WithBot.coe_le_coe.1 h2)
    norm_num at h3
  · refine ⟨![0], mem_pts.2 fun i => by fin_cases i; simp, 0, le_refl _, by norm_num, fun h => absurd h (lt_irrefl _), ?_⟩
    ext i
    fin_cases i <;> simp
  · refine ⟨![1], mem_pts.2 fun i => by fin_cases i; norm_num, 1, by norm_num, by norm_num, fun h => absurd h (lt_irrefl _), ?_⟩
    ext i
    fin_cases i <;> simp [lift, Fin.snoc]

example : fruRay (fun p => (⟨![-1], ![1]⟩ : Box ℚ 1).contains p) (fun o v => ((⟨![-1], ![1]⟩ : Box ℚ 1).intersectRay o v).getD void) ⟨1, 10⟩
    ![-5, 2] ![1, 0] = some (((3 : ℚ) : Ext ℚ), ((7 : ℚ) : Ext ℚ)) := by decide +kernel
example : foot ![-5, 2] ![1, 0] (Fin.last 1) = (2 : ℚ) := by decide +kernel
-- from below, upward inside the cone
example : fruRay (fun p => (⟨![-1], ![1]⟩ : Box ℚ 1).contains p) (fun o v => ((⟨![-1], ![1]⟩ : Box ℚ 1).intersectRay o v).getD void) ⟨1, 10⟩
    ![-3, -1] ![1, 2] = some (((4/3 : ℚ) : Ext ℚ), ((11/2 : ℚ) : Ext ℚ)) := by decide +kernel
-- from the inside, upward inside the cone: missed
example : fruRay (fun p => (⟨![-1], ![1]⟩ : Box ℚ 1).contains p) (fun o v => ((⟨![-1], ![1]⟩ : Box ℚ 1).intersectRay o v).getD void) ⟨1, 10⟩
    ![0, 5] ![1, 2] = some (((-2 : ℚ) : Ext ℚ), ((-5 : ℚ) : Ext ℚ)) := by decide +kernel
example : (![0, 5] : Fin 2 → ℚ) ∈ fruPts (⟨![-1], ![1]⟩ : Box ℚ 1).pts 1 10 :=
  ⟨![0], mem_pts.2 fun i => by fin_cases i; simp, 5, by norm_num, by norm_num, fun h => absurd h (by norm_num), by
    ext i
    fin_cases i <;> simp [lift, Fin.snoc]⟩
-- the chord through the middle of a base
example : Amid (⟨![-1], ![1]⟩ : Box ℚ 1).pts ![1/2] ![1] := by
  refine ⟨⟨1 / 2, by norm_num, mem_pts.2 fun i => ?_⟩, 1 / 2, by norm_num, mem_pts.2 fun i => ?_⟩
  all_goals
    fin_cases i
    norm_num
-- parallel to a wall
example : fruRay (fun p => (⟨![-1], ![1]⟩ : Box ℚ 1).contains p) (fun o v => ((⟨![-1], ![1]⟩ : Box ℚ 1).intersectRay o v).getD void) ⟨1, 10⟩
    ![0, 5] ![1, 1] = none := by decide +kernel

end Geomc.Shape
