import Verif.Shape.Normal

/-!
# C89: outward normals of shapes made from shapes
-/

namespace Geomc.Shape

open Geomc.Vec Geomc.Rect Geomc.Util

variable {K : Type} {n : ℕ} [Field K] [LinearOrder K] [IsStrictOrderedRing K] {sqrt : K → K}

/-! ### The default -/

/-- A convex solid with a ball inside touching its surface lies behind the tangent plane. -/
theorem tangent (hs : IsSqrt sqrt) (S : Set (Fin n → K)) (hS : Convexe S) (p q : Fin n → K) (hq : q ∈ surface sqrt S)
    (hin : ∀ x, len sqrt (p - x) < len sqrt (p - q) → x ∈ S) (hpq : p - q ≠ 0) (x : Fin n → K) (hx : x ∈ S) :
    (x - q) ⬝ᵥ (q - p) ≤ 0 := by
  by_contra hcon
  push Not at hcon
  have hxq : x - q ≠ 0 := fun h => by rw [h, zero_dotProduct] at hcon; exact lt_irrefl _ hcon
  have he := self_dot_pos hxq
  set c := (x - q) ⬝ᵥ (q - p) with hc
  set e := (x - q) ⬝ᵥ (x - q) with hee
  set τ := c / e with hτ
  have hτ0 : 0 < τ := div_pos hcon he
  have hτe : τ * e = c := by rw [hτ, div_mul_cancel₀ _ he.ne']
  set y := q - τ • (x - q) with hy
  have hyp : len sqrt (p - y) < len sqrt (p - q) := by
    by_contra h
    push Not at h
    have h1 := mul_self_le_mul_self (len_nonneg hs _) h
    rw [len_mul_self hs, len_mul_self hs] at h1
    have e1 : p - y = τ • (x - q) - (q - p) := by rw [hy]; abel
    have e2 : p - q = -(q - p) := by abel
    rw [e1, e2, neg_dotProduct_neg] at h1
    have e3 : (τ • (x - q) - (q - p)) ⬝ᵥ (τ • (x - q) - (q - p)) = τ * (τ * e) - 2 * τ * c + (q - p) ⬝ᵥ (q - p) := by
      rw [hc, hee]
      generalize x - q = a
      generalize q - p = b
      simp only [sub_dotProduct, dotProduct_sub, smul_dotProduct, dotProduct_smul, dotProduct_comm b a, smul_eq_mul]
      ring
    rw [e3, hτe] at h1
    nlinarith
  set δ := (len sqrt (p - q) - len sqrt (p - y)) / (1 + τ) with hδ
  have h1τ : 0 < 1 + τ := by linarith
  have hδ0 : 0 < δ := div_pos (by linarith) h1τ
  obtain ⟨z, hz, hzd⟩ := hq.2 δ hδ0
  apply hz
  -- `z` is a point of the segment from `x` to a point near `y`
  set y' := y + (1 + τ) • (z - q) with hy'
  have hy'S : y' ∈ S := by
    refine hin y' ?_
    have h1 := len_tri hs p y y'
    have h2 : len sqrt (y - y') = (1 + τ) * len sqrt (q - z) := by
      rw [hy', sub_add_cancel_left, len_neg hs, len_smul hs, abs_of_pos h1τ, len_sub_comm hs z q]
    have h3 : (1 + τ) * len sqrt (q - z) < (1 + τ) * δ := mul_lt_mul_of_pos_left hzd h1τ
    rw [hδ, mul_div_cancel₀ _ h1τ.ne'] at h3
    linarith
  have := hS y' hy'S x hx (τ / (1 + τ)) (div_nonneg hτ0.le h1τ.le) ((div_le_one h1τ).2 (by linarith))
  convert this using 1
  have e1 : y' = q - τ • (x - q) + (1 + τ) • (z - q) := by rw [hy', hy]
  ext i
  rw [e1]
  simp only [Pi.add_apply, Pi.sub_apply, Pi.smul_apply, smul_eq_mul]
  field_simp
  ring

/-- **C89**, default: right for every convex solid with right containment and projection, off the surface.  The hypotheses on the
projection are those of `C53_dil_project`. -/
theorem C89_default (hs : IsSqrt sqrt) (S : Set (Fin n → K)) (hS : Convexe S) (contains : (Fin n → K) → Bool)
    (project : (Fin n → K) → Fin n → K) (p : Fin n → K) (hc : contains p = true ↔ p ∈ S) (hq : IsNearest sqrt S p (project p))
    (hout : p ∉ S → ∀ x ∈ S, len sqrt (p - project p) ≤ len sqrt (p - x))
    (hin : p ∈ S → ∀ x, len sqrt (p - x) < len sqrt (p - project p) → x ∈ S) (hne : project p ≠ p) :
    ∃ u, defaultNormal sqrt contains project p = some u ∧ IsNormal sqrt S p u := by
  have hpq : p - project p ≠ 0 := sub_ne_zero.2 (Ne.symm hne)
  by_cases hp : p ∈ S
  · obtain ⟨v, e, hv, hvv, huv⟩ := unit_split hs hpq
    refine ⟨-v, ?_, normal_of hs S p (-v) (project p) (-len sqrt (p - project p)) hq.1.1 (by rw [len_neg hs, hv]) ?_
      (fun x hx => ?_) fun _ x hx => hin hp x (by rwa [neg_neg] at hx)⟩
    · rw [defaultNormal, e, Option.map_some]
      congr 1
      ext i
      rw [if_pos (hc.2 hp), Pi.neg_apply, neg_one_mul]
    · rw [smul_neg, neg_smul, neg_neg, ← hvv, add_sub_cancel]
    · have h1 := tangent hs S hS p _ hq.1 (hin hp) hpq x hx
      rw [huv, ← smul_neg, neg_sub, dotProduct_smul, smul_eq_mul]
      exact mul_nonpos_of_nonneg_of_nonpos (inv_nonneg.2 (len_nonneg hs _)) h1
  · obtain ⟨u, e, hu⟩ := normal_out hs S p _ hq.1.1 hpq (obtuse hs S hS p _ hq.1.1 (hout hp))
    refine ⟨u, ?_, hu⟩
    rw [defaultNormal, e, Option.map_some]
    congr 1
    ext i
    rw [if_neg fun h => hp (hc.1 h), one_mul]

/-! ### Dilated -/

/-- **C89**, dilation: right wherever the normal of the wrapped shape is. -/
theorem C89_dil (hs : IsSqrt sqrt) (S : Set (Fin n → K)) (r : K) (hr : 0 ≤ r) (normal : (Fin n → K) → Option (Fin n → K))
    (p u : Fin n → K) (hn : ∀ v, normal p = some v → IsNormal sqrt S p v) (h : dilNormal normal p = some u) :
    IsNormal sqrt (dilPts sqrt S r) p u := by
  obtain ⟨s, q, hsd, hq, hu, hp, hb⟩ := hn u h
  refine normal_of hs _ p u (q + r • u) (s - r) ?_ hu ?_ ?_ ?_
  · exact ⟨q, hq, by rw [add_sub_cancel_left, len_smul hs, hu, mul_one, abs_of_nonneg hr]⟩
  · rw [add_assoc, ← add_smul, add_sub_cancel]
    exact hp
  · rintro x ⟨y, hy, hd⟩
    have h1 := dot_le_len hs (x - y) u
    rw [hu, mul_one] at h1
    have h2 := hb y hy
    have e : x - (q + r • u) = (x - y) + (y - q) - r • u := by abel
    rw [e, sub_dotProduct, add_dotProduct, smul_dotProduct, dot_self_one hs hu, smul_eq_mul, mul_one]
    linarith
  · intro hneg x hx
    by_cases hpS : p ∈ S
    · obtain ⟨h0, h1, _⟩ := hsd.2 hpS
      exact dil_ball hs S r hr p hpS (-s) h1 (by linarith) x (by linarith)
    · have h0 : 0 ≤ s := by
        by_contra hcon
        exact hpS ((sdist_pos hs S p s hsd).2 (by linarith))
      refine ⟨q, hq, ?_⟩
      have h1 := len_tri hs x p q
      have h2 := foot_len hs q u hu s 0
      rw [zero_smul, add_zero, ← hp, sub_zero, abs_of_nonneg h0] at h2
      rw [len_sub_comm hs x p] at h1
      linarith

/-! ### Extruded -/

omit [IsStrictOrderedRing K] in
theorem height_project (h : Height K) (hh : h.lo ≤ h.hi) (x : K) :
    (h.project x = h.lo ∨ h.project x = h.hi) ∧ |x - h.project x| ≤ |x - h.lo| ∧ |x - h.project x| ≤ |x - h.hi| := by
  unfold Height.project
  split_ifs with h1
  · exact ⟨Or.inl rfl, le_refl _, h1.le⟩
  · exact ⟨Or.inr rfl, not_lt.1 h1, le_refl _⟩

theorem upIf_len (hs : IsSqrt sqrt) (b : Bool) : len sqrt (upIf b : Fin (n + 1) → K) = 1 := by
  refine len_eq hs zero_le_one ?_
  rw [dot_split, upIf, show (Fin.snoc (α := fun _ => K) 0 (if b = true then 1 else -1) : Fin (n + 1) → K) =
    lift 0 (if b = true then 1 else -1) from rfl, lift_init, lift_last]
  cases b <;> simp

omit [LinearOrder K] [IsStrictOrderedRing K] in
theorem dot_upIf (v : Fin (n + 1) → K) (b : Bool) : v ⬝ᵥ upIf b = v (Fin.last n) * (if b then 1 else -1) := by
  rw [dot_split, upIf, show (Fin.snoc (α := fun _ => K) 0 (if b = true then 1 else -1) : Fin (n + 1) → K) =
    lift 0 (if b = true then 1 else -1) from rfl, lift_init, lift_last, dotProduct_zero, zero_add]

omit [LinearOrder K] [IsStrictOrderedRing K] in
theorem lift_upIf (b : Fin n → K) (z s : K) (up : Bool) : lift b z + s • upIf up = lift b (z + s * if up then 1 else -1) := by
  rw [← lift_eta (lift b z + s • upIf up)]
  congr 1
  · ext i
    simp [Fin.init, lift, upIf]
  · simp [lift, upIf]

/-- A cap: a point over or under the base. -/
theorem ext_cap (hs : IsSqrt sqrt) (S : Set (Fin n → K)) (h : Height K) (hh : h.lo ≤ h.hi) (p : Fin (n + 1) → K)
    (hb : (Fin.init p : Fin n → K) ∈ S) (up : Bool)
    (hball : (if up then p (Fin.last n) < h.hi else h.lo < p (Fin.last n)) →
      ∀ x, len sqrt (p - x) < (if up then h.hi - p (Fin.last n) else p (Fin.last n) - h.lo) → x ∈ extPts S h.lo h.hi) :
    IsNormal sqrt (extPts S h.lo h.hi) p (upIf up) := by
  refine normal_of hs _ p _ (lift (Fin.init p) (if up then h.hi else h.lo))
    (if up then p (Fin.last n) - h.hi else h.lo - p (Fin.last n)) ?_ (upIf_len hs up) ?_ ?_ ?_
  · rw [mem_ext, lift_init, lift_last]
    cases up
    · exact ⟨hb, le_refl _, hh⟩
    · exact ⟨hb, hh, le_refl _⟩
  · rw [lift_upIf]
    conv_lhs => rw [← lift_eta p]
    congr 1
    cases up <;> simp
  · intro x hx
    obtain ⟨_, x0, x1⟩ := (mem_ext S _ _ x).1 hx
    rw [dot_upIf, Pi.sub_apply, lift_last]
    cases up
    · simp
      linarith
    · simp
      linarith
  · intro hneg x hx
    cases up
    · simp only [Bool.false_eq_true, if_false] at *
      exact hball (by linarith) x (by linarith)
    · simp only [if_true] at *
      exact hball (by linarith) x (by linarith)

/-- **C89**, extrusion of a convex shape: right if the queries of the base are, and undefined only between the caps, where the base's
normal is. -/
theorem C89_ext (hs : IsSqrt sqrt) (S : Set (Fin n → K)) (hS : Convexe S) (contains : (Fin n → K) → Bool) (sdf : (Fin n → K) → K)
    (project : (Fin n → K) → Fin n → K) (normal : (Fin n → K) → Option (Fin n → K)) (h : Height K) (hh : h.lo ≤ h.hi)
    (p : Fin (n + 1) → K) (hc : contains (Fin.init p) = true ↔ (Fin.init p : Fin n → K) ∈ S)
    (hsd : IsSDist sqrt S (Fin.init p) (sdf (Fin.init p)))
    (hpr : (Fin.init p : Fin n → K) ∉ S → project (Fin.init p) ∈ S ∧
      ∀ x ∈ S, len sqrt (Fin.init p - project (Fin.init p)) ≤ len sqrt (Fin.init p - x))
    (hn : ∀ u, normal (Fin.init p) = some u → IsNormal sqrt S (Fin.init p) u) :
    (extNormal sqrt contains sdf project normal h p = none →
      h.lo ≤ p (Fin.last n) ∧ p (Fin.last n) ≤ h.hi ∧ normal (Fin.init p) = none) ∧
    ∀ u, extNormal sqrt contains sdf project normal h p = some u → IsNormal sqrt (extPts S h.lo h.hi) p u := by
  set z := p (Fin.last n) with hz
  set b : Fin n → K := Fin.init p with hbd
  unfold extNormal
  simp only
  rw [← hz, ← hbd]
  by_cases h1 : h.contains z = true
  · rw [if_pos h1]
    rw [height_contains] at h1
    obtain ⟨k1, k2, k3⟩ := height_project h hh z
    rw [abs_of_nonneg (sub_nonneg.2 h1.1)] at k2
    rw [abs_of_nonpos (sub_nonpos.2 h1.2)] at k3
    by_cases h2 : contains b = true ∧ |z - h.project z| < |sdf b|
    · rw [if_pos h2]
      have hbS := hc.1 h2.1
      obtain ⟨d1, d2, _⟩ := hsd.2 hbS
      have h3 := h2.2
      rw [abs_of_nonpos d1] at h3
      refine ⟨fun hcon => (by cases hcon), fun u hu => ?_⟩
      rw [Option.some.injEq] at hu
      subst hu
      have key : ∀ ρ, ρ = |z - h.project z| → ∀ x, len sqrt (p - x) < ρ → x ∈ extPts S h.lo h.hi := by
        intro ρ hρ x hx
        have b1 := len_init_le hs p x
        have b2 := len_last_le hs p x
        rw [← hz] at b2
        have b3 := (abs_lt.1 (lt_of_le_of_lt b2 hx))
        rw [mem_ext]
        exact ⟨d2 _ (by rw [hbd]; linarith), by linarith [b3.2], by linarith [b3.1]⟩
      refine ext_cap hs S h hh p hbS _ ?_
      rw [← hz]
      by_cases h4 : h.hi ≤ h.project z
      · have e : h.project z = h.hi := by
          rcases k1 with e | e
          · rw [e] at h4 ⊢
            exact le_antisymm hh h4
          · exact e
        rw [decide_eq_true h4]
        intro _ x hx
        refine key _ ?_ x hx
        rw [e, abs_of_nonpos (sub_nonpos.2 h1.2), if_pos rfl, neg_sub]
      · have e : h.project z = h.lo := k1.resolve_right fun e => h4 (e ▸ le_refl _)
        rw [decide_eq_false h4]
        intro _ x hx
        refine key _ ?_ x hx
        rw [e, abs_of_nonneg (sub_nonneg.2 h1.1), if_neg (by simp)]
    · rw [if_neg h2]
      refine ⟨fun hcon => ⟨h1.1, h1.2, by rwa [Option.map_eq_none_iff] at hcon⟩, fun u hu => ?_⟩
      rw [Option.map_eq_some_iff] at hu
      obtain ⟨v, hv, rfl⟩ := hu
      obtain ⟨s, q, hs1, hq, hv1, hp, hb⟩ := hn v hv
      have hss := sdist_unique hs S b _ _ hs1 hsd
      show IsNormal sqrt _ p (lift v 0)
      refine normal_of hs _ p _ (lift q z) s ?_ ?_ ?_ ?_ ?_
      · rw [mem_ext, lift_init, lift_last]
        exact ⟨hq, h1.1, h1.2⟩
      · refine len_eq hs zero_le_one ?_
        rw [dot_split, lift_init, lift_last, dot_self_one hs hv1, mul_zero, add_zero, mul_one]
      · rw [← lift_eta p, ← lift_eta (lift q z + s • lift v 0)]
        congr 1
        · rw [← hbd, hp]
          ext i
          simp [Fin.init, lift]
        · simp [lift, hz]
      · intro x hx
        obtain ⟨x0, _, _⟩ := (mem_ext S _ _ x).1 hx
        rw [dot_split, lift_init, lift_last, mul_zero, add_zero, init_sub, lift_init]
        exact hb _ x0
      · intro hneg x hx
        have hbS : b ∈ S := (sdist_pos hs S b s hs1).2 hneg.le
        have h3 : -s ≤ |z - h.project z| := by
          by_contra hcon
          refine h2 ⟨hc.2 hbS, ?_⟩
          rw [← hss, abs_of_neg hneg]
          exact not_le.1 hcon
        have b1 := len_init_le hs p x
        have b2 := len_last_le hs p x
        rw [← hz] at b2
        have b3 := (abs_lt.1 (lt_of_le_of_lt b2 hx))
        rw [mem_ext]
        exact ⟨(hs1.2 hbS).2.1 _ (by rw [hbd]; linarith), by linarith [b3.2], by linarith [b3.1]⟩
  · rw [if_neg h1]
    rw [height_contains] at h1
    by_cases h2 : contains b = true
    · rw [if_pos h2]
      refine ⟨fun hcon => (by cases hcon), fun u hu => ?_⟩
      rw [Option.some.injEq] at hu
      subst hu
      refine ext_cap hs S h hh p (hc.1 h2) _ ?_
      rw [← hz]
      by_cases h4 : h.hi ≤ z
      · rw [decide_eq_true h4, if_pos rfl]
        intro h5
        linarith
      · rw [decide_eq_false h4, if_neg (by simp)]
        intro h5
        exact absurd ⟨h5.le, by linarith⟩ h1
    · rw [if_neg h2]
      have hbS : b ∉ S := fun hb => h2 (hc.2 hb)
      obtain ⟨q0, q1⟩ := hpr hbS
      have hz' : h.clip z = if z < h.lo then h.lo else h.hi := by
        rw [Height.clip, stdMin_eq, stdMax_eq]
        by_cases h5 : z < h.lo
        · rw [if_pos h5, max_eq_left h5.le, min_eq_right hh]
        · rw [if_neg h5]
          have : h.hi < z := by
            by_contra hcon
            exact h1 ⟨by linarith, by linarith⟩
          rw [max_eq_right (by linarith), min_eq_left this.le]
      have hclip : h.lo ≤ h.clip z ∧ h.clip z ≤ h.hi ∧ ∀ y, h.lo ≤ y → y ≤ h.hi → (y - h.clip z) * (z - h.clip z) ≤ 0 := by
        rw [hz']
        by_cases h5 : z < h.lo
        · rw [if_pos h5]
          exact ⟨le_refl _, hh, fun y y0 y1 => mul_nonpos_of_nonneg_of_nonpos (by linarith) (by linarith)⟩
        · rw [if_neg h5]
          have : h.hi < z := by
            by_contra hcon
            exact h1 ⟨by linarith, by linarith⟩
          exact ⟨hh, le_refl _, fun y y0 y1 => mul_nonpos_of_nonpos_of_nonneg (by linarith) (by linarith)⟩
      obtain ⟨v, e, hv⟩ := normal_out hs (extPts S h.lo h.hi) p (lift (project b) (h.clip z))
        (by rw [mem_ext, lift_init, lift_last]; exact ⟨q0, hclip.1, hclip.2.1⟩)
        (fun hcon => hbS (by
          have := congrArg (fun v : Fin (n + 1) → K => (Fin.init v : Fin n → K)) (sub_eq_zero.1 hcon)
          simp only [lift_init] at this
          rw [hbd, this]
          exact q0))
        (fun x hx => by
          obtain ⟨x0, x1, x2⟩ := (mem_ext S _ _ x).1 hx
          rw [dot_split, init_sub, init_sub, lift_init, Pi.sub_apply, Pi.sub_apply, lift_last, ← hz, ← hbd]
          have g1 := obtuse hs S hS b _ q0 q1 _ x0
          have g2 := hclip.2.2 _ x1 x2
          linarith)
      rw [show (Fin.snoc (α := fun _ => K) (project b) (h.clip z) : Fin (n + 1) → K) = lift (project b) (h.clip z) from rfl, e]
      refine ⟨fun hcon => (by cases hcon), fun u hu => ?_⟩
      rw [Option.some.injEq] at hu
      subst hu
      exact hv

/-! ### Examples -/

example : (⟨![1, 2], 3⟩ : Ball ℚ 2).normal toySqrt ![4, 6] = some ![3/5, 4/5] := by decide +kernel
example : (⟨![0, 0], ![10, 0], 1⟩ : Tube ℚ 2).capNormal toySqrt ![13, 4] = some ![3/5, 4/5] := by decide +kernel
example : (⟨![0, 0], ![10, 0], 1⟩ : Tube ℚ 2).capNormal toySqrt ![3, 0] = none := by decide +kernel
example : (⟨![0, 0], ![10, 0], 1⟩ : Tube ℚ 2).cylNormal toySqrt ![-3, 5] = some ![-3/5, 4/5] := by decide +kernel
-- the normal outside the far rim should be (3/5, 4/5)
example : (⟨![0, 0], ![4, 0], 1⟩ : Tube ℚ 2).cylNormal toySqrt ![7, 25] ≠ (⟨![0, 0], ![4, 0], 1⟩ : Tube ℚ 2).cylNormal toySqrt ![-3, 25] ∧
    (⟨![0, 0], ![4, 0], 1⟩ : Tube ℚ 2).cylNormal toySqrt ![7, 25] = some ![7/25, 24/25] := by decide +kernel
example : (⟨![0, 0], ![10, 0], 1⟩ : Tube ℚ 2).cylNormal toySqrt ![5, 0] = none := by decide +kernel
example : extNormal toySqrt (fun b => decide (|b 0| ≤ 1)) (fun b : Fin 1 → ℚ => |b 0| - 1) (fun b => ![if b 0 < 0 then -1 else 1])
    (fun b => some ![if b 0 < 0 then -1 else 1]) ⟨0, 10⟩ ![4, 14] = some ![3/5, 4/5] := by decide +kernel
example : extNormal toySqrt (fun b => decide (|b 0| ≤ 1)) (fun b : Fin 1 → ℚ => |b 0| - 1) (fun b => ![if b 0 < 0 then -1 else 1])
    (fun b => some ![if b 0 < 0 then -1 else 1]) ⟨0, 10⟩ ![-1/2, 1/4] = some ![0, -1] := by decide +kernel

end Geomc.Shape
