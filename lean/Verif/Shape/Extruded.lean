import Verif.Shape.Defaults
import Verif.Shape.Cylinder

/-!
# C53: extrusions
-/

namespace Geomc.Shape

open Geomc.Vec Geomc.Rect

variable {K : Type} {n : ℕ} [Field K] [LinearOrder K] [IsStrictOrderedRing K] {sqrt : K → K}

/-- A point of the base lifted to a height. -/
def lift (b : Fin n → K) (z : K) : Fin (n + 1) → K := Fin.snoc (α := fun _ => K) b z

/-- The extrusion of a set over a range of heights. -/
def extPts (S : Set (Fin n → K)) (lo hi : K) : Set (Fin (n + 1) → K) := {p | ∃ b ∈ S, ∃ z, lo ≤ z ∧ z ≤ hi ∧ p = lift b z}

omit [LinearOrder K] [IsStrictOrderedRing K] [Field K] in
@[simp] theorem lift_init (b : Fin n → K) (z : K) : (Fin.init (lift b z) : Fin n → K) = b := Fin.init_snoc ..
omit [LinearOrder K] [IsStrictOrderedRing K] [Field K] in
@[simp] theorem lift_last (b : Fin n → K) (z : K) : lift b z (Fin.last n) = z := Fin.snoc_last ..
omit [LinearOrder K] [IsStrictOrderedRing K] [Field K] in
theorem lift_eta (p : Fin (n + 1) → K) : lift (Fin.init p) (p (Fin.last n)) = p := Fin.snoc_init_self p

omit [IsStrictOrderedRing K] [Field K] in
theorem mem_ext (S : Set (Fin n → K)) (lo hi : K) (p : Fin (n + 1) → K) :
    p ∈ extPts S lo hi ↔ (Fin.init p : Fin n → K) ∈ S ∧ lo ≤ p (Fin.last n) ∧ p (Fin.last n) ≤ hi := by
  constructor
  · rintro ⟨b, hb, z, h0, h1, rfl⟩
    rw [lift_init, lift_last]
    exact ⟨hb, h0, h1⟩
  · rintro ⟨h, h0, h1⟩
    exact ⟨_, h, _, h0, h1, (lift_eta p).symm⟩

omit [LinearOrder K] [IsStrictOrderedRing K] in
theorem dot_split (u v : Fin (n + 1) → K) :
    u ⬝ᵥ v = (Fin.init u : Fin n → K) ⬝ᵥ (Fin.init v : Fin n → K) + u (Fin.last n) * v (Fin.last n) := by
  simp only [dotProduct, Fin.sum_univ_castSucc, Fin.init]

omit [LinearOrder K] [IsStrictOrderedRing K] in
theorem init_sub (p q : Fin (n + 1) → K) : (Fin.init (p - q) : Fin n → K) = Fin.init p - Fin.init q := rfl

omit [LinearOrder K] [IsStrictOrderedRing K] in
theorem dist_split (p q : Fin (n + 1) → K) :
    (p - q) ⬝ᵥ (p - q) = (Fin.init p - Fin.init q : Fin n → K) ⬝ᵥ (Fin.init p - Fin.init q : Fin n → K) +
      (p (Fin.last n) - q (Fin.last n)) * (p (Fin.last n) - q (Fin.last n)) := by
  rw [dot_split, init_sub, Pi.sub_apply]

theorem len_init_le (hs : IsSqrt sqrt) (p q : Fin (n + 1) → K) :
    len sqrt (Fin.init p - Fin.init q : Fin n → K) ≤ len sqrt (p - q) := by
  rw [len_le_iff hs (len_nonneg hs _), len_mul_self hs, dist_split]
  have := mul_self_nonneg (p (Fin.last n) - q (Fin.last n))
  linarith

theorem len_last_le (hs : IsSqrt sqrt) (p q : Fin (n + 1) → K) : |p (Fin.last n) - q (Fin.last n)| ≤ len sqrt (p - q) :=
  len_coord hs (p - q) (Fin.last n)

theorem len_flat (hs : IsSqrt sqrt) (p : Fin (n + 1) → K) (b : Fin n → K) :
    len sqrt (p - lift b (p (Fin.last n))) = len sqrt (Fin.init p - b : Fin n → K) := by
  refine len_eq hs (len_nonneg hs _) ?_
  rw [dist_split, lift_init, lift_last, sub_self, mul_zero, add_zero, len_mul_self hs]

theorem len_vert (hs : IsSqrt sqrt) (p : Fin (n + 1) → K) (z : K) :
    len sqrt (p - lift (Fin.init p) z) = |p (Fin.last n) - z| := by
  refine len_eq hs (abs_nonneg _) ?_
  rw [dist_split, lift_init, lift_last, sub_self, zero_dotProduct, zero_add, abs_mul_abs_self]

omit [IsStrictOrderedRing K] in
theorem height_contains (h : Height K) (x : K) : h.contains x = true ↔ h.lo ≤ x ∧ x ≤ h.hi := by
  rw [Height.contains, Bool.and_eq_true, decide_eq_true_eq, decide_eq_true_eq]

omit [IsStrictOrderedRing K] in
/-- **C53**: the heights may be given in either order; the range has both and nothing beyond. -/
theorem C53_ends (h0 h1 x : K) :
    (Height.ofEnds h0 h1).lo ≤ (Height.ofEnds h0 h1).hi ∧
    ((Height.ofEnds h0 h1).contains x = true ↔ h0 ≤ x ∧ x ≤ h1 ∨ h1 ≤ x ∧ x ≤ h0) := by
  rw [height_contains, Height.ofEnds]
  simp only [stdMin_eq, stdMax_eq]
  refine ⟨min_le_max, ?_⟩
  rcases le_total h0 h1 with h | h
  · rw [min_eq_left h, max_eq_right h]
    exact ⟨Or.inl, fun h' => h'.elim id fun h'' => ⟨h.trans h''.1, h''.2.trans h⟩⟩
  · rw [min_eq_right h, max_eq_left h]
    exact ⟨Or.inr, fun h' => h'.elim (fun h'' => ⟨h.trans h''.1, h''.2.trans h⟩) id⟩

omit [IsStrictOrderedRing K] in
/-- **C53**, extrusion: containment. -/
theorem C53_ext_contains (S : Set (Fin n → K)) (contains : (Fin n → K) → Bool) (h : Height K) (p : Fin (n + 1) → K)
    (hc : contains (Fin.init p) = true ↔ (Fin.init p : Fin n → K) ∈ S) :
    extContains contains h p = true ↔ p ∈ extPts S h.lo h.hi := by
  rw [extContains, mem_ext, ← hc, ← height_contains]
  split_ifs with h1
  · simp [h1]
  · simp [h1]

/-- Distance to a set from the signed distance. -/
theorem sdist_pos_part (hs : IsSqrt sqrt) (S : Set (Fin n → K)) (p : Fin n → K) (s : K) (h : IsSDist sqrt S p s)  :
    (∃ q ∈ S, len sqrt (p - q) = max s 0) ∧ ∀ q ∈ S, max s 0 ≤ len sqrt (p - q) := by
  by_cases hp : p ∈ S
  · rw [max_eq_right (h.2 hp).1]
    exact ⟨⟨p, hp, by rw [sub_self, (len_eq_zero hs).2 rfl]⟩, fun q _ => len_nonneg hs _⟩
  · obtain ⟨⟨q, hq, e⟩, hl⟩ := h.1 hp
    have h0 : 0 ≤ s := e ▸ len_nonneg hs _
    rw [max_eq_left h0]
    exact ⟨⟨q, hq, e.symm⟩, fun x hx => hl ⟨x, hx, rfl⟩⟩

theorem sdist_pos (hs : IsSqrt sqrt) (S : Set (Fin n → K)) (p : Fin n → K) (s : K) (h : IsSDist sqrt S p s) :
    p ∈ S ↔ s ≤ 0 := by
  constructor
  · exact fun hp => (h.2 hp).1
  · intro hle
    by_contra hp
    obtain ⟨⟨q, hq, e⟩, _⟩ := h.1 hp
    have : len sqrt (p - q) = 0 := le_antisymm (e ▸ hle) (len_nonneg hs _)
    exact hp (sub_eq_zero.1 ((len_eq_zero hs).1 this) ▸ hq)

/-- Distance to a range of heights. -/
theorem slab_pos_part (lo hi h : K) (hlh : lo ≤ hi) :
    (∃ z, lo ≤ z ∧ z ≤ hi ∧ |h - z| = max (max (h - hi) (lo - h)) 0) ∧
    ∀ z, lo ≤ z → z ≤ hi → max (max (h - hi) (lo - h)) 0 ≤ |h - z| := by
  constructor
  · rcases le_total h lo with h1 | h1
    · refine ⟨lo, le_refl _, hlh, ?_⟩
      rw [max_eq_right (by linarith : h - hi ≤ lo - h), max_eq_left (by linarith), abs_of_nonpos (by linarith), neg_sub]
    · rcases le_total h hi with h2 | h2
      · refine ⟨h, h1, h2, ?_⟩
        rw [sub_self, abs_zero, max_eq_right (max_le (by linarith) (by linarith))]
      · refine ⟨hi, hlh, le_refl _, ?_⟩
        rw [max_eq_left (by linarith : lo - h ≤ h - hi), max_eq_left (by linarith), abs_of_nonneg (by linarith)]
  · intro z h1 h2
    refine max_le (max_le ?_ ?_) (abs_nonneg _)
    · exact le_trans (by linarith) (le_abs_self _)
    · exact le_trans (by linarith) (neg_le_abs _)

theorem sqrt_self (hs : IsSqrt sqrt) (x y : K) (hx : 0 ≤ x) (h : y = x * x) : sqrt y = x := by
  subst h
  rcases hx.eq_or_lt with h | h
  · rw [← h, mul_zero, hs.zero]
  · have h1 := hs.sq (x * x) (mul_self_nonneg x)
    exact (mul_self_inj_of_nonneg (hs.pos _ (mul_pos h h)).le hx).1 h1

/-- **C53**, extrusion: signed distance. -/
theorem C53_ext_sdf (hs : IsSqrt sqrt) (S : Set (Fin n → K)) (sdf : (Fin n → K) → K) (h : Height K) (hh : h.lo ≤ h.hi)
    (p : Fin (n + 1) → K) (hb : IsSDist sqrt S (Fin.init p) (sdf (Fin.init p))) :
    IsSDist sqrt (extPts S h.lo h.hi) p (extSdf sqrt sdf h p) := by
  obtain ⟨⟨q, hq, hqe⟩, hql⟩ := sdist_pos_part hs S _ _ hb
  obtain ⟨⟨z, hz0, hz1, hze⟩, hzl⟩ := slab_pos_part h.lo h.hi (p (Fin.last n)) hh
  have hmem := sdist_pos hs S _ _ hb
  set β := sdf (Fin.init p) with hβ
  set σ := max (p (Fin.last n) - h.hi) (h.lo - p (Fin.last n)) with hσ
  have hσ_iff : h.contains (p (Fin.last n)) = true ↔ σ ≤ 0 := by
    rw [height_contains, hσ, max_le_iff, sub_nonpos, sub_nonpos, and_comm]
  have hcode : extSdf sqrt sdf h p = if h.contains (p (Fin.last n)) = true then max β σ else if β < 0 then σ else
      sqrt (β * β + σ * σ) := by
    unfold extSdf
    simp only [stdMax_eq]
    rfl
  rw [hcode]
  have hE : p ∈ extPts S h.lo h.hi ↔ β ≤ 0 ∧ σ ≤ 0 := by
    rw [mem_ext, hmem, ← height_contains, hσ_iff]
  constructor
  · intro hp
    rw [hE] at hp
    -- the value is the length with the two positive parts as sides
    have hval : 0 ≤ (if h.contains (p (Fin.last n)) = true then max β σ else if β < 0 then σ else sqrt (β * β + σ * σ)) ∧
        (if h.contains (p (Fin.last n)) = true then max β σ else if β < 0 then σ else sqrt (β * β + σ * σ)) *
        (if h.contains (p (Fin.last n)) = true then max β σ else if β < 0 then σ else sqrt (β * β + σ * σ)) =
        max β 0 * max β 0 + max σ 0 * max σ 0 := by
      simp only [hσ_iff]
      split_ifs with h1 h2
      · have : 0 < β := not_le.1 fun h' => hp ⟨h', h1⟩
        rw [max_eq_left (by linarith : σ ≤ β), max_eq_left this.le, max_eq_right h1]
        exact ⟨this.le, by ring⟩
      · push Not at h1
        rw [max_eq_right h2.le, max_eq_left h1.le]
        exact ⟨h1.le, by ring⟩
      · push Not at h1 h2
        have h3 : 0 < β * β + σ * σ := by nlinarith
        rw [max_eq_left h2, max_eq_left h1.le, hs.sq _ h3.le]
        exact ⟨(hs.pos _ h3).le, rfl⟩
    generalize (if h.contains (p (Fin.last n)) = true then max β σ else if β < 0 then σ else sqrt (β * β + σ * σ)) = s at *
    obtain ⟨hs0, hss⟩ := hval
    constructor
    · refine ⟨lift q z, ⟨q, hq, z, hz0, hz1, rfl⟩, (len_eq hs hs0 ?_).symm⟩
      rw [dist_split, lift_init, lift_last, ← len_mul_self hs, hqe, ← abs_mul_abs_self (p (Fin.last n) - z), hze, hss]
    · rintro _ ⟨e, he, rfl⟩
      rw [mem_ext] at he
      refine (mul_self_le_mul_self_iff hs0 (len_nonneg hs _)).2 ?_
      rw [hss, len_mul_self hs, dist_split, ← len_mul_self hs (Fin.init p - Fin.init e : Fin n → K),
        ← abs_mul_abs_self (p (Fin.last n) - e (Fin.last n))]
      exact add_le_add (mul_self_le_mul_self (le_max_right _ _) (hql _ he.1))
        (mul_self_le_mul_self (le_max_right _ _) (hzl _ he.2.1 he.2.2))
  · intro hp
    obtain ⟨hp1, hp2⟩ := hE.1 hp
    rw [if_pos (hσ_iff.2 hp2)]
    obtain ⟨_, hb1, hb2⟩ := hb.2 (hmem.2 hp1)
    refine ⟨max_le hp1 hp2, fun x hx => ?_, fun ρ hρ => ?_⟩
    · have m1 : -max β σ ≤ -β := neg_le_neg (le_max_left _ _)
      have m2 : -max β σ ≤ -σ := neg_le_neg (le_max_right _ _)
      have k1 := len_init_le hs p x
      have k2 := len_last_le hs p x
      rw [mem_ext]
      refine ⟨hb1 _ (by linarith), ?_, ?_⟩
      · have m3 : h.lo - p (Fin.last n) ≤ σ := le_max_right _ _
        have := le_abs_self (p (Fin.last n) - x (Fin.last n))
        linarith
      · have m3 : p (Fin.last n) - h.hi ≤ σ := le_max_left _ _
        have := neg_le_abs (p (Fin.last n) - x (Fin.last n))
        linarith
    · rcases max_choice β σ with h1 | h1
      · rw [h1] at hρ
        obtain ⟨r, hr, hrS⟩ := hb2 ρ hρ
        refine ⟨lift r (p (Fin.last n)), by rw [len_flat hs]; exact hr, fun hm => hrS ?_⟩
        have := ((mem_ext _ _ _ _).1 hm).1
        rwa [lift_init] at this
      · rw [h1] at hρ
        rcases max_choice (p (Fin.last n) - h.hi) (h.lo - p (Fin.last n)) with h2 | h2
        · rw [hσ, h2] at hρ
          refine ⟨lift (Fin.init p) (p (Fin.last n) + ((h.hi - p (Fin.last n)) + ρ) / 2), ?_, fun hm => ?_⟩
          · rw [len_vert hs, sub_add_cancel_left, abs_neg, abs_of_nonneg]
            · linarith
            · rw [hσ, h2] at hp2
              linarith
          · have := ((mem_ext _ _ _ _).1 hm).2.2
            rw [lift_last] at this
            linarith
        · rw [hσ, h2] at hρ
          refine ⟨lift (Fin.init p) (p (Fin.last n) - ((p (Fin.last n) - h.lo) + ρ) / 2), ?_, fun hm => ?_⟩
          · rw [len_vert hs, sub_sub_cancel, abs_of_nonneg]
            · linarith
            · rw [hσ, h2] at hp2
              linarith
          · have := ((mem_ext _ _ _ _).1 hm).2.1
            rw [lift_last] at this
            linarith

/-! ### Projection -/

theorem ext_surface (hs : IsSqrt sqrt) (S : Set (Fin n → K)) (lo hi : K) (q : Fin (n + 1) → K) :
    q ∈ surface sqrt (extPts S lo hi) ↔ q ∈ extPts S lo hi ∧
      ((Fin.init q : Fin n → K) ∈ surface sqrt S ∨ q (Fin.last n) = lo ∨ q (Fin.last n) = hi) := by
  constructor
  · rintro ⟨hq, hε⟩
    refine ⟨hq, ?_⟩
    by_contra hcon
    push Not at hcon
    obtain ⟨n0, n1, n2⟩ := hcon
    obtain ⟨m0, m1, m2⟩ := (mem_ext _ _ _ _).1 hq
    have hnot : ¬ ∀ ε, 0 < ε → ∃ r, r ∉ S ∧ len sqrt (Fin.init q - r) < ε := fun h => n0 ⟨m0, h⟩
    push Not at hnot
    obtain ⟨ε, hε0, hball⟩ := hnot
    have l1 := lt_of_le_of_ne m1 (Ne.symm n1)
    have l2 := lt_of_le_of_ne m2 n2
    obtain ⟨r, hr, hd⟩ := hε (min ε (min (q (Fin.last n) - lo) (hi - q (Fin.last n))))
      (lt_min hε0 (lt_min (by linarith) (by linarith)))
    apply hr
    have d1 := lt_of_lt_of_le hd (min_le_left _ _)
    have d2 := lt_of_lt_of_le hd ((min_le_right _ _).trans (min_le_left _ _))
    have d3 := lt_of_lt_of_le hd ((min_le_right _ _).trans (min_le_right _ _))
    have k1 := len_init_le hs q r
    have k2 := len_last_le hs q r
    have k3 := le_abs_self (q (Fin.last n) - r (Fin.last n))
    have k4 := neg_le_abs (q (Fin.last n) - r (Fin.last n))
    rw [mem_ext]
    refine ⟨?_, by linarith, by linarith⟩
    by_contra h
    exact absurd (hball _ h) (not_le.2 (by linarith))
  · rintro ⟨hq, h | h | h⟩
    · refine ⟨hq, fun ε hε => ?_⟩
      obtain ⟨r, hr, hd⟩ := h.2 ε hε
      refine ⟨lift r (q (Fin.last n)), fun hm => hr ?_, by rw [len_flat hs]; exact hd⟩
      have := ((mem_ext _ _ _ _).1 hm).1
      rwa [lift_init] at this
    · refine ⟨hq, fun ε hε => ⟨lift (Fin.init q) (lo - ε / 2), fun hm => ?_, ?_⟩⟩
      · have := ((mem_ext _ _ _ _).1 hm).2.1
        rw [lift_last] at this
        linarith
      · rw [len_vert hs, h, sub_sub_cancel, abs_of_pos (by linarith)]
        linarith
    · refine ⟨hq, fun ε hε => ⟨lift (Fin.init q) (hi + ε / 2), fun hm => ?_, ?_⟩⟩
      · have := ((mem_ext _ _ _ _).1 hm).2.2
        rw [lift_last] at this
        linarith
      · rw [len_vert hs, h, sub_add_cancel_left, abs_neg, abs_of_pos (by linarith)]
        linarith

/-- **C53**, extrusion: projection to the nearest surface point.  From outside the base, the projection of the base must be to its
nearest point, which over the reals it is (`nearest_outside`). -/
theorem C53_ext_project (hs : IsSqrt sqrt) (S : Set (Fin n → K)) (contains : (Fin n → K) → Bool)
    (project : (Fin n → K) → Fin n → K) (h : Height K) (hh : h.lo ≤ h.hi) (p : Fin (n + 1) → K)
    (hc : contains (Fin.init p) = true ↔ (Fin.init p : Fin n → K) ∈ S)
    (hb : IsNearest sqrt S (Fin.init p) (project (Fin.init p)))
    (hout : (Fin.init p : Fin n → K) ∉ S → ∀ x ∈ S, len sqrt (Fin.init p - project (Fin.init p)) ≤ len sqrt (Fin.init p - x)) :
    IsNearest sqrt (extPts S h.lo h.hi) p (extProject contains project h p) := by
  set z := p (Fin.last n) with hz
  set b : Fin n → K := Fin.init p with hbdef
  set q := project b with hq
  set cap := if |z - h.lo| < |z - h.hi| then h.lo else h.hi with hcap
  have hcapr : h.lo ≤ cap ∧ cap ≤ h.hi ∧ (cap = h.lo ∨ cap = h.hi) := by
    rw [hcap]
    split_ifs
    · exact ⟨le_refl _, hh, Or.inl rfl⟩
    · exact ⟨hh, le_refl _, Or.inr rfl⟩
  have hcapmin : |z - cap| ≤ |z - h.lo| ∧ |z - cap| ≤ |z - h.hi| := by
    rw [hcap]
    split_ifs with h1
    · exact ⟨le_refl _, h1.le⟩
    · exact ⟨not_lt.1 h1, le_refl _⟩
  have hclip : h.lo ≤ h.clip z ∧ h.clip z ≤ h.hi ∧ ∀ y, h.lo ≤ y → y ≤ h.hi → |z - h.clip z| ≤ |z - y| := by
    rw [Height.clip, stdMin_eq, stdMax_eq]
    refine ⟨le_min hh (le_max_left _ _), min_le_left _ _, fun y hy0 hy1 => ?_⟩
    rcases le_total z h.lo with h1 | h1
    · rw [max_eq_left h1, min_eq_right hh, abs_of_nonpos (by linarith), abs_of_nonpos (by linarith)]
      linarith
    · rw [max_eq_right h1]
      rcases le_total z h.hi with h2 | h2
      · rw [min_eq_right h2, sub_self, abs_zero]
        exact abs_nonneg _
      · rw [min_eq_left h2, abs_of_nonneg (by linarith), abs_of_nonneg (by linarith)]
        linarith
  set wallP := lift q (h.clip z) with hwallP
  set capP := if contains b = true then lift b cap else lift q cap with hcapP
  have hcode : extProject contains project h p = if (p - wallP) ⬝ᵥ (p - wallP) < (p - capP) ⬝ᵥ (p - capP) then wallP else capP := by
    rw [← mag2_eq, ← mag2_eq]
    rfl
  have hqS : q ∈ S := hb.1.1
  have hwallS : wallP ∈ surface sqrt (extPts S h.lo h.hi) := by
    rw [ext_surface hs, mem_ext, hwallP, lift_init, lift_last]
    exact ⟨⟨hqS, hclip.1, hclip.2.1⟩, Or.inl hb.1⟩
  have hcapS : capP ∈ surface sqrt (extPts S h.lo h.hi) := by
    rw [ext_surface hs, mem_ext, hcapP]
    split_ifs with h1
    · rw [lift_init, lift_last]
      exact ⟨⟨hc.1 h1, hcapr.1, hcapr.2.1⟩, Or.inr hcapr.2.2⟩
    · rw [lift_init, lift_last]
      exact ⟨⟨hqS, hcapr.1, hcapr.2.1⟩, Or.inl hb.1⟩
  have hwd : (p - wallP) ⬝ᵥ (p - wallP) = (b - q) ⬝ᵥ (b - q) + (z - h.clip z) * (z - h.clip z) := by
    rw [dist_split, hwallP, lift_init, lift_last]
  have key : ∀ r ∈ surface sqrt (extPts S h.lo h.hi),
      (p - wallP) ⬝ᵥ (p - wallP) ≤ (p - r) ⬝ᵥ (p - r) ∨ (p - capP) ⬝ᵥ (p - capP) ≤ (p - r) ⬝ᵥ (p - r) := by
    intro r hr
    rw [ext_surface hs, mem_ext] at hr
    obtain ⟨⟨r0, r1, r2⟩, r3⟩ := hr
    have hvert := hclip.2.2 _ r1 r2
    have hv2 := mul_self_le_mul_self (abs_nonneg _) hvert
    rw [abs_mul_abs_self, abs_mul_abs_self] at hv2
    rw [dist_split p r, hwd]
    by_cases hin : b ∈ S
    · rcases r3 with r3 | r3
      · left
        have := hb.2 _ r3
        have h3 := mul_self_le_mul_self (len_nonneg hs _) this
        rw [len_mul_self hs, len_mul_self hs] at h3
        exact add_le_add h3 hv2
      · right
        have hcd : (p - capP) ⬝ᵥ (p - capP) = (z - cap) * (z - cap) := by
          rw [hcapP, if_pos (hc.2 hin), dist_split, lift_init, lift_last, sub_self, zero_dotProduct, zero_add]
        rw [hcd]
        have h4 : |z - cap| ≤ |z - r (Fin.last n)| := by
          rcases r3 with r3 | r3 <;> rw [r3]
          · exact hcapmin.1
          · exact hcapmin.2
        have h5 := mul_self_le_mul_self (abs_nonneg _) h4
        rw [abs_mul_abs_self, abs_mul_abs_self] at h5
        have h6 := self_dot_nonneg (b - (Fin.init r : Fin n → K))
        rw [← hbdef, ← hz]
        linarith
    · left
      have h3 := mul_self_le_mul_self (len_nonneg hs _) (hout hin _ r0)
      rw [len_mul_self hs, len_mul_self hs] at h3
      exact add_le_add h3 hv2
  have hfin : ∀ x r : Fin (n + 1) → K, (p - x) ⬝ᵥ (p - x) ≤ (p - r) ⬝ᵥ (p - r) → len sqrt (p - x) ≤ len sqrt (p - r) := by
    intro x r hx
    rw [len_le_iff hs (len_nonneg hs _), len_mul_self hs]
    exact hx
  rw [hcode]
  split_ifs with h1
  · refine ⟨hwallS, fun r hr => hfin _ _ ?_⟩
    rcases key r hr with h2 | h2
    · exact h2
    · exact h1.le.trans h2
  · refine ⟨hcapS, fun r hr => hfin _ _ ?_⟩
    rcases key r hr with h2 | h2
    · exact (not_lt.1 h1).trans h2
    · exact h2

/-! ### Support and bounds -/

omit [IsStrictOrderedRing K] in
theorem orFirst_ne [Nontrivial K] (d : Fin (n + 1) → K) : orFirst d ≠ 0 := by
  unfold orFirst
  split_ifs with h
  · simp
  · exact h

/-- **C53**, extrusion: support. -/
theorem C53_ext_support (S : Set (Fin (n + 1) → K)) (support : (Fin (n + 1) → K) → Fin (n + 1) → K) (h : Height K)
    (hh : h.lo ≤ h.hi) (hb : ∀ d, d ≠ 0 → IsSupport S d (support d)) (d : Fin (n + 2) → K) :
    IsSupport (extPts S h.lo h.hi) d (extSupport support h d) := by
  have hs := hb _ (orFirst_ne (Fin.init d : Fin (n + 1) → K))
  have hcode : extSupport support h d = lift (support (orFirst (Fin.init d)))
    (if 0 < d (Fin.last (n + 1)) then h.hi else h.lo) := rfl
  have hdot : ∀ q ∈ S, q ⬝ᵥ (Fin.init d : Fin (n + 1) → K) ≤ support (orFirst (Fin.init d)) ⬝ᵥ (Fin.init d : Fin (n + 1) → K) := by
    intro q hq
    by_cases h0 : (Fin.init d : Fin (n + 1) → K) = 0
    · rw [h0, dotProduct_zero, dotProduct_zero]
    · have := hs.2 q hq
      rw [dot_eq, dot_eq] at this
      rwa [show orFirst (Fin.init d : Fin (n + 1) → K) = Fin.init d from if_neg h0] at this ⊢
  rw [hcode]
  constructor
  · refine ⟨_, hs.1, _, ?_, ?_, rfl⟩ <;> split_ifs <;> first | exact hh | exact le_refl _
  · rintro q ⟨b, hbS, z, hz0, hz1, rfl⟩
    rw [dot_eq, dot_eq, dot_split (lift b z), dot_split (lift (support _) _), lift_init, lift_init, lift_last, lift_last]
    refine add_le_add (hdot b hbS) ?_
    split_ifs with h1
    · exact mul_le_mul_of_nonneg_right hz1 h1.le
    · exact mul_le_mul_of_nonpos_right hz0 (not_lt.1 h1)

omit [IsStrictOrderedRing K] in
theorem mem_prod_height (b : Box K n) (lo hi : K) (p : Fin (n + 1) → K) :
    p ∈ (b.prod (⟨fun _ => lo, fun _ => hi⟩ : Box K 1)).pts ↔
      (Fin.init p : Fin n → K) ∈ b.pts ∧ lo ≤ p (Fin.last n) ∧ p (Fin.last n) ≤ hi := by
  rw [mem_pts, mem_pts]
  constructor
  · intro h
    refine ⟨fun i => ?_, ?_⟩
    · have := h (Fin.castAdd 1 i)
      simp only [Box.prod, Fin.append_left] at this
      exact this
    · have := h (Fin.natAdd n 0)
      simp only [Box.prod, Fin.append_right] at this
      exact this
  · rintro ⟨h1, h2⟩ i
    refine Fin.addCases (fun i => ?_) (fun i => ?_) i
    · simp only [Box.prod, Fin.append_left]
      exact h1 i
    · simp only [Box.prod, Fin.append_right]
      have : i = 0 := Subsingleton.elim _ _
      subst this
      exact h2

omit [IsStrictOrderedRing K] in
/-- Boxes over a base. -/
theorem box_split (c : Box K (n + 1)) : ∃ (b : Box K n) (lo hi : K), ∀ p, p ∈ c.pts ↔
    (Fin.init p : Fin n → K) ∈ b.pts ∧ lo ≤ p (Fin.last n) ∧ p (Fin.last n) ≤ hi := by
  refine ⟨⟨Fin.init c.lo, Fin.init c.hi⟩, c.lo (Fin.last n), c.hi (Fin.last n), fun p => ?_⟩
  rw [mem_pts, mem_pts]
  constructor
  · intro h
    exact ⟨fun i => h i.castSucc, h _⟩
  · rintro ⟨h1, h2⟩ i
    refine Fin.lastCases h2 (fun i => h1 i) i

omit [IsStrictOrderedRing K] in
/-- **C53**, extrusion: bounds. -/
theorem C53_ext_bounds (S : Set (Fin n → K)) (hS : S.Nonempty) (b : Box K n) (h : Height K) (hh : h.lo ≤ h.hi)
    (hb : IsHull S b) : IsHull (extPts S h.lo h.hi) (extBounds b h) := by
  constructor
  · intro p hp
    rw [mem_ext] at hp
    exact (mem_prod_height _ _ _ _).2 ⟨hb.1 hp.1, hp.2⟩
  · intro c hc p hp
    obtain ⟨b', lo', hi', hc'⟩ := box_split c
    have hp' := (mem_prod_height _ _ _ _).1 hp
    obtain ⟨s, hsS⟩ := hS
    have h1 := (hc' _).1 (hc (⟨s, hsS, h.lo, le_refl _, hh, rfl⟩ : lift s h.lo ∈ extPts S h.lo h.hi))
    have h2 := (hc' _).1 (hc (⟨s, hsS, h.hi, hh, le_refl _, rfl⟩ : lift s h.hi ∈ extPts S h.lo h.hi))
    rw [lift_last] at h1 h2
    have h3 : S ⊆ b'.pts := by
      intro x hx
      have := ((hc' _).1 (hc (⟨x, hx, h.lo, le_refl _, hh, rfl⟩ : lift x h.lo ∈ extPts S h.lo h.hi))).1
      rwa [lift_init] at this
    rw [hc']
    exact ⟨hb.2 b' h3 hp'.1, h1.2.1.trans hp'.2.1, hp'.2.2.trans h2.2.2⟩

/-! ### Rays -/

omit [IsStrictOrderedRing K] [Field K] in
theorem inIval_void [Field K] (t : K) : ¬ InIval (void : Ext K × Ext K) t := by
  simp [InIval, void]

theorem span_slab (lo hi h d t : K) (hd : d ≠ 0) (hlh : lo ≤ hi) :
    InIval (ival ((lo - h) / d) ((hi - h) / d)) t ↔ lo ≤ h + t * d ∧ h + t * d ≤ hi := by
  rw [inIval_ival]
  rcases lt_or_gt_of_ne hd with hd | hd
  · have : (hi - h) / d ≤ (lo - h) / d := div_le_div_of_nonpos_of_le hd.le (by linarith)
    rw [min_eq_right this, max_eq_left this, div_le_iff_of_neg hd, le_div_iff_of_neg hd]
    constructor <;> rintro ⟨h1, h2⟩ <;> constructor <;> linarith
  · have : (lo - h) / d ≤ (hi - h) / d := div_le_div_of_nonneg_right (by linarith) hd.le
    rw [min_eq_left this, max_eq_right this, div_le_iff₀ hd, le_div_iff₀ hd]
    constructor <;> rintro ⟨h1, h2⟩ <;> constructor <;> linarith

/-- **C53**, extrusion: rays. -/
theorem C53_ext_ray (S : Set (Fin n → K)) (contains : (Fin n → K) → Bool) (ray : (Fin n → K) → (Fin n → K) → Ext K × Ext K)
    (h : Height K) (hh : h.lo ≤ h.hi) (hc : ∀ b, contains b = true ↔ b ∈ S)
    (hr : ∀ o v, v ≠ 0 → ∀ t : K, InIval (ray o v) t ↔ o + t • v ∈ S) (o v : Fin (n + 1) → K) (t : K) :
    InIval (extRay contains ray h o v) t ↔ o + t • v ∈ extPts S h.lo h.hi := by
  have hbase : ∀ iv : Ext K × Ext K, iv = (if (Fin.init v : Fin n → K) = 0 then
      (if contains (Fin.init o) = true then full else void) else ray (Fin.init o) (Fin.init v)) →
      (InIval iv t ↔ (Fin.init (o + t • v) : Fin n → K) ∈ S) := by
    rintro iv rfl
    have e : (Fin.init (o + t • v) : Fin n → K) = Fin.init o + t • Fin.init v := rfl
    rw [e]
    by_cases h0 : (Fin.init v : Fin n → K) = 0
    · rw [if_pos h0, h0, smul_zero, add_zero]
      split_ifs with h1
      · exact ⟨fun _ => (hc _).1 h1, fun _ => inIval_full t⟩
      · exact ⟨fun h => absurd h (inIval_void t), fun h => absurd ((hc _).2 h) h1⟩
    · rw [if_neg h0]
      exact hr _ _ h0 t
  rw [mem_ext]
  unfold extRay
  simp only
  have hl : (o + t • v) (Fin.last n) = o (Fin.last n) + t * v (Fin.last n) := rfl
  rw [hl]
  by_cases hd : v (Fin.last n) = 0
  · rw [if_pos hd, hd, mul_zero, add_zero]
    by_cases h1 : h.contains (o (Fin.last n)) = true
    · rw [if_pos h1, hbase _ rfl]
      rw [height_contains] at h1
      tauto
    · rw [if_neg h1]
      rw [height_contains] at h1
      exact ⟨fun h => absurd h (inIval_void t), fun h => absurd h.2 h1⟩
  · rw [if_neg hd, inIval_meet, span_slab _ _ _ _ _ hd hh, hbase _ rfl]

/-! ### Examples -/

example : extContains (fun b => (⟨![0], ![4]⟩ : Box ℚ 1).contains b) ⟨1, 3⟩ ![4, 1] = true := by decide +kernel
example : extContains (fun b => (⟨![0], ![4]⟩ : Box ℚ 1).contains b) ⟨1, 3⟩ ![4, 0] = false := by decide +kernel
example : extSdf toySqrt (fun b : Fin 1 → ℚ => |b 0| - 1) ⟨0, 10⟩ ![4, 14] = 5 := by decide +kernel
example : extSdf toySqrt (fun b : Fin 1 → ℚ => |b 0| - 1) ⟨0, 10⟩ ![1/2, 5] = -1/2 := by decide +kernel
example : extSupport (fun d => (⟨![0], ![4]⟩ : Box ℚ 1).support d) ⟨1, 3⟩ ![-1, 1] = ![0, 3] := by decide +kernel
example : extBounds (⟨![0], ![4]⟩ : Box ℚ 1) ⟨1, 3⟩ = ⟨![0, 1], ![4, 3]⟩ := by decide +kernel

end Geomc.Shape
