import Verif.Shape.NestModel
import Verif.Shape.Oriented
import Verif.Shape.Dilated

/-!
# C90: nested shapes answer right at any depth
-/

namespace Geomc.Shape

open Geomc.Vec Geomc.Rect Geomc.Affine

variable {K : Type} [Field K] [LinearOrder K]

/-- The points of a nested shape. -/
def Nest.pts (sqrt : K → K) : {n : ℕ} → Nest K n → Set (Fin n → K)
  | _, .box b => b.pts
  | _, .ball s => s.pts sqrt
  | _, .capsule c => c.capPts sqrt
  | _, .extrude base h => extPts (base.pts sqrt) h.lo h.hi
  | _, .frustum base h => fruPts (base.pts sqrt) h.lo h.hi
  | _, .dilate s r => dilPts sqrt (s.pts sqrt) r
  | _, .orient s x => placed x (s.pts sqrt)

/-- The parameters are sensible: boxes are not empty, radii are not negative, a capsule has an axis, height ranges are not empty and
the transforms are invertible. -/
def Nest.Good : {n : ℕ} → Nest K n → Prop
  | _, .box b => b.isEmpty = false
  | _, .ball s => 0 ≤ s.r
  | _, .capsule c => 0 ≤ c.radius ∧ c.p0 ≠ c.p1
  | _, .extrude base h => base.Good ∧ h.lo ≤ h.hi
  | _, .frustum base h => base.Good ∧ h.lo ≤ h.hi
  | _, .dilate s r => s.Good ∧ 0 ≤ r
  | _, .orient s x => s.Good ∧ Wf x

/-- Spheres and capsules, extruded and dilated. -/
def Nest.Metric : {n : ℕ} → Nest K n → Prop
  | n, .ball _ => 0 < n
  | n, .capsule _ => 2 ≤ n
  | _, .extrude base _ => base.Metric
  | _, .dilate s _ => s.Metric
  | _, _ => False

/-- Nothing is dilated. -/
def Nest.Undilated : {n : ℕ} → Nest K n → Prop
  | _, .extrude base _ => base.Undilated
  | _, .frustum base _ => base.Undilated
  | _, .orient s _ => s.Undilated
  | _, .dilate _ _ => False
  | n, .capsule _ => 2 ≤ n
  | _, _ => True

variable [IsStrictOrderedRing K] {sqrt : K → K}

theorem len_conv (hs : IsSqrt sqrt) {n : ℕ} (u v : Fin n → K) (t r : K) (h0 : 0 ≤ t) (h1 : t ≤ 1) (hu : len sqrt u ≤ r)
    (hv : len sqrt v ≤ r) : len sqrt (u + t • (v - u)) ≤ r := by
  have e : u + t • (v - u) = (1 - t) • u + t • v := by
    rw [smul_sub, sub_smul, one_smul]
    abel
  have h2 := len_add_le hs ((1 - t) • u) (t • v)
  rw [len_smul hs, len_smul hs, abs_of_nonneg h0, abs_of_nonneg (by linarith : 0 ≤ 1 - t)] at h2
  rw [e]
  nlinarith

/-- **C90**: nested shapes are convex and not empty. -/
theorem C90_convex (hs : IsSqrt sqrt) {n : ℕ} (s : Nest K n) (hg : s.Good) : Convexe (s.pts sqrt) ∧ (s.pts sqrt).Nonempty := by
  induction s with
  | box b =>
    have hb := (not_empty_iff b).1 hg
    refine ⟨fun x hx y hy t h0 h1 => ?_, b.lo, mem_pts.2 fun i => ⟨le_refl _, hb i⟩⟩
    have hx' := mem_pts.1 hx
    have hy' := mem_pts.1 hy
    refine mem_pts.2 fun i => ?_
    rw [Pi.add_apply, Pi.smul_apply, Pi.sub_apply, smul_eq_mul]
    have := hx' i
    have := hy' i
    constructor <;> nlinarith
  | ball s =>
    refine ⟨fun x hx y hy t h0 h1 => ?_, s.center, ?_⟩
    · have hx' : len sqrt (x - s.center) ≤ s.r := hx
      have hy' : len sqrt (y - s.center) ≤ s.r := hy
      show len sqrt _ ≤ _
      have := len_conv hs _ _ t _ h0 h1 hx' hy'
      rwa [sub_sub_sub_cancel_right, show x - s.center + t • (y - x) = x + t • (y - x) - s.center by abel] at this
    · show len sqrt _ ≤ _
      rw [sub_self, (len_eq_zero hs).2 rfl]
      exact hg
  | capsule c =>
    refine ⟨?_, c.p0, 0, le_refl _, zero_le_one, ?_⟩
    · rintro x ⟨a, a0, a1, ha⟩ y ⟨b, b0, b1, hb⟩ t h0 h1
      refine ⟨a + t * (b - a), by nlinarith, by nlinarith, ?_⟩
      have := len_conv hs _ _ t _ h0 h1 ha hb
      convert this using 2
      ext i
      simp only [Pi.add_apply, Pi.sub_apply, Pi.smul_apply, smul_eq_mul]
      ring
    · rw [zero_smul, add_zero, sub_self, (len_eq_zero hs).2 rfl]
      exact hg.1
  | extrude base h ih =>
    obtain ⟨hc, b, hb⟩ := ih hg.1
    refine ⟨?_, lift b h.lo, b, hb, h.lo, le_refl _, hg.2, rfl⟩
    intro x hx y hy t h0 h1
    obtain ⟨x0, x1, x2⟩ := (mem_ext _ _ _ _).1 hx
    obtain ⟨y0, y1, y2⟩ := (mem_ext _ _ _ _).1 hy
    refine (mem_ext _ _ _ _).2 ⟨hc _ x0 _ y0 t h0 h1, ?_⟩
    rw [Pi.add_apply, Pi.smul_apply, Pi.sub_apply, smul_eq_mul]
    constructor <;> nlinarith
  | frustum base h ih =>
    obtain ⟨hc, b, hb⟩ := ih hg.1
    refine ⟨?_, h.clipped.lo • lift b 1, (mem_fru _ _ _).2 ⟨b, hb, _, le_refl _, clipped_le h hg.2, rfl⟩⟩
    intro x hx y hy t h0 h1
    obtain ⟨a, ha, z, z0, z1, rfl⟩ := (mem_fru _ _ _).1 hx
    obtain ⟨a', ha', z', z0', z1', rfl⟩ := (mem_fru _ _ _).1 hy
    have hsign := clipped_sign h
    set w := z + t * (z' - z) with hw
    have hwr : h.clipped.lo ≤ w ∧ w ≤ h.clipped.hi := by
      rw [hw]
      constructor <;> nlinarith
    by_cases hw0 : w = 0
    · -- both are at the tip, or have no weight
      have hz : (1 - t) * z = 0 ∧ t * z' = 0 := by
        have e : (1 - t) * z + t * z' = 0 := by rw [← hw0, hw]; ring
        rcases lt_or_ge h.clipped.lo 0 with hl | hl
        · have hh : h.clipped.hi ≤ 0 := not_lt.1 fun hh => hsign ⟨hl, hh⟩
          have e1 : (1 - t) * z ≤ 0 := mul_nonpos_of_nonneg_of_nonpos (by linarith) (by linarith)
          have e2 : t * z' ≤ 0 := mul_nonpos_of_nonneg_of_nonpos h0 (by linarith)
          constructor <;> linarith
        · have e1 : 0 ≤ (1 - t) * z := mul_nonneg (by linarith) (by linarith)
          have e2 : 0 ≤ t * z' := mul_nonneg h0 (by linarith)
          constructor <;> linarith
      refine (mem_fru _ _ _).2 ⟨a, ha, w, hwr.1, hwr.2, ?_⟩
      rw [hw0, zero_smul]
      ext i
      simp only [Pi.add_apply, Pi.sub_apply, Pi.smul_apply, smul_eq_mul, Pi.zero_apply]
      linear_combination (lift a 1 i) * hz.1 + (lift a' 1 i) * hz.2
    · refine (mem_fru _ _ _).2 ⟨a + (t * z' / w) • (a' - a), hc _ ha _ ha' _ ?_ ?_, w, hwr.1, hwr.2, ?_⟩
      · rcases lt_or_ge h.clipped.lo 0 with hl | hl
        · have hh : h.clipped.hi ≤ 0 := not_lt.1 fun hh => hsign ⟨hl, hh⟩
          exact div_nonneg_of_nonpos (mul_nonpos_of_nonneg_of_nonpos h0 (by linarith)) (by linarith)
        · exact div_nonneg (mul_nonneg h0 (by linarith)) (by linarith)
      · have e : t * z' / w = 1 - (1 - t) * z / w := by
          rw [eq_sub_iff_add_eq, ← add_div, div_eq_one_iff_eq hw0, hw]
          ring
        rw [e]
        have : 0 ≤ (1 - t) * z / w := by
          rcases lt_or_ge h.clipped.lo 0 with hl | hl
          · have hh : h.clipped.hi ≤ 0 := not_lt.1 fun hh => hsign ⟨hl, hh⟩
            exact div_nonneg_of_nonpos (mul_nonpos_of_nonneg_of_nonpos (by linarith) (by linarith)) (by linarith)
          · exact div_nonneg (mul_nonneg (by linarith) (by linarith)) (by linarith)
        linarith
      · rw [← lift_eta (w • lift (a + (t * z' / w) • (a' - a)) 1),
          ← lift_eta (z • lift a 1 + t • (z' • lift a' 1 - z • lift a 1)), smul_lift_init, smul_lift_last]
        congr 1
        · have e1 : (Fin.init (z • lift a 1 + t • (z' • lift a' 1 - z • lift a 1)) : Fin _ → K) = z • a + t • (z' • a' - z • a) := by
            rw [← smul_lift_init z a 1, ← smul_lift_init z' a' 1]
            rfl
          rw [e1, smul_add, smul_smul, mul_div_cancel₀ _ hw0]
          ext i
          simp only [Pi.add_apply, Pi.sub_apply, Pi.smul_apply, smul_eq_mul, hw]
          ring
        · simp only [Pi.add_apply, Pi.sub_apply, smul_lift_last, Pi.smul_apply, smul_eq_mul, lift_last, hw]
          ring
  | dilate s r ih =>
    obtain ⟨hc, b, hb⟩ := ih hg.1
    refine ⟨?_, b, b, hb, by rw [sub_self, (len_eq_zero hs).2 rfl]; exact hg.2⟩
    rintro x ⟨a, ha, hxa⟩ y ⟨a', ha', hya⟩ t h0 h1
    refine ⟨_, hc _ ha _ ha' t h0 h1, ?_⟩
    have := len_conv hs _ _ t _ h0 h1 hxa hya
    convert this using 2
    ext i
    simp only [Pi.add_apply, Pi.sub_apply, Pi.smul_apply, smul_eq_mul]
    ring
  | orient s x ih =>
    obtain ⟨hc, b, hb⟩ := ih hg.1
    refine ⟨?_, x.apply b, b, hb, rfl⟩
    rintro _ ⟨a, ha, rfl⟩ _ ⟨a', ha', rfl⟩ t h0 h1
    refine ⟨_, hc _ ha _ ha' t h0 h1, ?_⟩
    rw [apply_ray, apply_sub]

/-- **C90**: the support point of a nested shape is right for every direction. -/
theorem C90_support (hs : IsSqrt sqrt) {n : ℕ} (s : Nest K n) (hg : s.Good) (d : Fin n → K) (hd : d ≠ 0) :
    ∃ q, s.support sqrt d = some q ∧ IsSupport (s.pts sqrt) d q := by
  induction s with
  | box b => exact ⟨_, rfl, (C48_support b hg d).2⟩
  | ball s =>
    obtain ⟨h1, h2⟩ := C50_support hs s hg d
    cases e : s.support sqrt d with
    | none => exact absurd (h1.1 e) hd
    | some x => exact ⟨x, e, h2 x e⟩
  | capsule c => exact ⟨_, rfl, C51_support hs c hg.1 d⟩
  | extrude base h ih =>
    have hf : ∀ e, e ≠ 0 → IsSupport (base.pts sqrt) e ((base.support sqrt e).getD 0) := fun e he => by
      obtain ⟨q, hq, hq'⟩ := ih hg.1 e he
      rw [hq]
      exact hq'
    obtain ⟨q, hq, _⟩ := ih hg.1 _ (orFirst_ne (Fin.init d))
    have := C53_ext_support _ _ h hg.2 hf d
    refine ⟨_, by rw [Nest.support, hq, Option.map_some], ?_⟩
    simp only [extSupport, hq, Option.getD_some] at this ⊢
    exact this
  | frustum base h ih =>
    have hf : ∀ e, e ≠ 0 → IsSupport (base.pts sqrt) e ((base.support sqrt e).getD 0) := fun e he => by
      obtain ⟨q, hq, hq'⟩ := ih hg.1 e he
      rw [hq]
      exact hq'
    obtain ⟨q, hq, _⟩ := ih hg.1 _ (orFirst_ne (fun i => (if h.clipped.lo < 0 then -1 else 1) * Fin.init d i))
    have := C53_fru_support _ _ h hg.2 hf d
    refine ⟨_, by rw [Nest.support, hq, Option.map_some], ?_⟩
    simp only [fruSupport, hq, Option.getD_some] at this ⊢
    exact this
  | dilate s r ih =>
    obtain ⟨q, hq, hq'⟩ := ih hg.1 d hd
    obtain ⟨h1, h2⟩ := C53_dil_support hs (s.pts sqrt) (fun _ => q) r hg.2 d fun _ => hq'
    cases e : dilSupport sqrt (fun _ => q) r d with
    | none => exact absurd (h1.1 e) hd
    | some x => exact ⟨x, by rw [Nest.support, hq, Option.bind_some, e], h2 x e⟩
  | orient s x ih =>
    obtain ⟨q, hq, hq'⟩ := ih hg.1 _ (applyInverseNormal_ne hg.2 hd)
    exact ⟨_, by rw [Nest.support, hq, Option.map_some]; rfl, support_placed hq'⟩

/-- **C90**: the bounds of a nested shape are the smallest box around it. -/
theorem C90_bounds (hs : IsSqrt sqrt) {n : ℕ} (s : Nest K n) (hg : s.Good) :
    ∃ b, s.bounds sqrt = some b ∧ IsHull (s.pts sqrt) b := by
  induction s with
  | box b => exact ⟨b, rfl, subset_rfl, fun c hc => hc⟩
  | ball s => exact ⟨_, rfl, C50_bounds hs s hg⟩
  | capsule c => exact ⟨_, rfl, C51_bounds hs c hg.1⟩
  | extrude base h ih =>
    obtain ⟨b, e, hb⟩ := ih hg.1
    exact ⟨_, by rw [Nest.bounds, e, Option.map_some], C53_ext_bounds _ (C90_convex hs base hg.1).2 b h hg.2 hb⟩
  | frustum base h ih =>
    obtain ⟨b, e, hb⟩ := ih hg.1
    exact ⟨_, by rw [Nest.bounds, e, Option.map_some], C53_fru_bounds _ (C90_convex hs base hg.1).2 b h hg.2 hb⟩
  | dilate s r ih =>
    obtain ⟨b, e, hb⟩ := ih hg.1
    exact ⟨_, by rw [Nest.bounds, e, Option.map_some], C53_dil_bounds hs _ b r hg.2 (C90_convex hs s hg.1).2 hb⟩
  | @orient m s x ih =>
    have hf : ∀ e, e ≠ 0 → IsSupport (s.pts sqrt) e ((s.support sqrt e).getD 0) := fun e he => by
      obtain ⟨q, hq, hq'⟩ := C90_support hs s hg.1 e he
      rw [hq]
      exact hq'
    have hne : ∀ i, matRow x i ≠ 0 := fun i => by
      rw [matRow_eq]
      exact applyInverseNormal_ne hg.2 (by simp)
    refine ⟨_, by
      rw [Nest.bounds, if_pos]
      intro i
      obtain ⟨q, hq, _⟩ := C90_support hs s hg.1 _ (hne i)
      obtain ⟨q', hq', _⟩ := C90_support hs s hg.1 _ (neg_ne_zero.2 (hne i))
      rw [hq, hq']
      exact ⟨rfl, rfl⟩, C54_bounds _ _ hf hg.2⟩

/-- **C90**: signed distances of spheres and capsules, extruded and dilated in any order. -/
theorem C90_sdf (hs : IsSqrt sqrt) {n : ℕ} (s : Nest K n) (hg : s.Good) (hm : s.Metric) (p : Fin n → K) :
    ∃ x, s.sdf sqrt p = some x ∧ IsSDist sqrt (s.pts sqrt) p x := by
  induction s with
  | box b => exact hm.elim
  | ball s => exact ⟨_, rfl, C50_sdf hs hm s hg p⟩
  | capsule c =>
    obtain ⟨h1, h2, _⟩ := C51_sdf hs hm c hg.1 p
    cases e : c.capSdf sqrt p with
    | none => exact absurd (h1.1 e) hg.2
    | some x => exact ⟨x, e, h2 x e⟩
  | extrude base h ih =>
    obtain ⟨x, e, hx⟩ := ih hg.1 hm (Fin.init p)
    exact ⟨_, by rw [Nest.sdf, e, Option.map_some], C53_ext_sdf hs _ (fun _ => x) h hg.2 p hx⟩
  | frustum base h => exact hm.elim
  | dilate s r ih =>
    have hf : ∀ q, IsSDist sqrt (s.pts sqrt) q ((s.sdf sqrt q).getD 0) := fun q => by
      obtain ⟨x, e, hx⟩ := ih hg.1 hm q
      rw [e]
      exact hx
    obtain ⟨x, e, _⟩ := ih hg.1 hm p
    have := C53_dil_sdf hs _ (C90_convex hs s hg.1).1 _ r hg.2 hf p
    refine ⟨_, by rw [Nest.sdf, e, Option.map_some], ?_⟩
    simp only [dilSdf, e, Option.getD_some] at this ⊢
    exact this
  | orient s x => exact hm.elim

/-- **C90**: without dilation, containment is exact. -/
theorem C90_contains (hs : IsSqrt sqrt) {n : ℕ} (s : Nest K n) (hg : s.Good) (hu : s.Undilated) (p : Fin n → K) :
    ∃ b, s.contains sqrt p = some b ∧ (b = true ↔ p ∈ s.pts sqrt) := by
  induction s with
  | box b => exact ⟨_, rfl, (C45_contains b p).1.trans mem_pts.symm⟩
  | ball s => exact ⟨_, rfl, C50_contains hs s hg p⟩
  | capsule c =>
    obtain ⟨h1, _, h3⟩ := C51_sdf hs hu c hg.1 p
    cases e : c.capSdf sqrt p with
    | none => exact absurd (h1.1 e) hg.2
    | some x =>
      have e' : c.capContains sqrt p = some (decide (x ≤ 0)) := by rw [Tube.capContains, e, Option.map_some]
      exact ⟨_, e', h3 _ e'⟩
  | @extrude m base h ih =>
    obtain ⟨b, e, hb⟩ := ih hg.1 hu (Fin.init p)
    have h1 := C53_ext_contains (base.pts sqrt) (fun _ => b) h p hb
    by_cases h0 : h.contains (p (Fin.last (m + 1))) = true
    · exact ⟨_, by rw [Nest.contains, if_pos h0, e, Option.map_some], h1⟩
    · refine ⟨_, by rw [Nest.contains, if_neg h0], ?_⟩
      rw [← show p ∈ (Nest.extrude base h).pts sqrt ↔ p ∈ extPts (base.pts sqrt) h.lo h.hi from Iff.rfl] at h1
      rw [← h1, extContains, if_neg h0]
  | @frustum m base h ih =>
    have hf : ∀ q, ((base.contains sqrt q).getD false) = true ↔ q ∈ base.pts sqrt := fun q => by
      obtain ⟨b, e, hb⟩ := ih hg.1 hu q
      rw [e]
      exact hb
    have h1 := C53_fru_contains (base.pts sqrt) (C90_convex hs base hg.1).2 _ h hf p
    by_cases h0 : (!h.clipped.contains (p (Fin.last (m + 1)))) = true ∨ p (Fin.last (m + 1)) = 0
    · refine ⟨_, by rw [Nest.contains, if_pos h0], ?_⟩
      rw [show p ∈ (Nest.frustum base h).pts sqrt ↔ p ∈ fruPts (base.pts sqrt) h.lo h.hi from Iff.rfl, ← h1, fruContains, fruContains]
      by_cases h2 : (!h.clipped.contains (p (Fin.last (m + 1)))) = true
      · rw [if_pos h2, if_pos h2]
      · rw [if_neg h2, if_neg h2, if_pos (h0.resolve_left h2), if_pos (h0.resolve_left h2)]
    · obtain ⟨b, e, _⟩ := ih hg.1 hu (Fin.init fun i => p i / p (Fin.last (m + 1)))
      refine ⟨_, by rw [Nest.contains, if_neg h0, e, Option.map_some], ?_⟩
      rw [show p ∈ (Nest.frustum base h).pts sqrt ↔ p ∈ fruPts (base.pts sqrt) h.lo h.hi from Iff.rfl, ← h1]
      simp only [fruContains, e, Option.getD_some]
  | dilate s r => exact hu.elim
  | orient s x ih =>
    obtain ⟨b, e, hb⟩ := ih hg.1 hu (x.applyInverse p)
    exact ⟨_, by rw [Nest.contains, e, Option.map_some], by
      rw [oriContains, hb]
      exact (placed_inverse hg.2 _ p).symm⟩

/-- **C90**: with dilation, containment of spheres and capsules, extruded and dilated in any order, is exact off the surface (whose
points are left out by a dilation, C53). -/
theorem C90_contains_partial (hs : IsSqrt sqrt) {n : ℕ} (s : Nest K n) (hg : s.Good) (hm : s.Metric) (p : Fin n → K) :
    ∃ b, s.contains sqrt p = some b ∧ (b = true → p ∈ s.pts sqrt) ∧ (p ∈ s.pts sqrt → p ∉ surface sqrt (s.pts sqrt) → b = true) := by
  induction s with
  | box b => exact hm.elim
  | ball s => exact ⟨_, rfl, (C50_contains hs s hg p).1, fun h _ => (C50_contains hs s hg p).2 h⟩
  | capsule c =>
    obtain ⟨b, e, hb⟩ := C90_contains hs (.capsule c) hg hm p
    exact ⟨b, e, hb.1, fun h _ => hb.2 h⟩
  | @extrude m base h ih =>
    obtain ⟨b, e, hb1, hb2⟩ := ih hg.1 hm (Fin.init p)
    by_cases h0 : h.contains (p (Fin.last (m + 1))) = true
    · refine ⟨_, by rw [Nest.contains, if_pos h0, e, Option.map_some], ?_⟩
      rw [extContains, if_pos h0]
      rw [height_contains] at h0
      refine ⟨fun hb => (mem_ext _ _ _ _).2 ⟨hb1 hb, h0⟩, fun hp hns => hb2 ((mem_ext _ _ _ _).1 hp).1 fun hsurf => hns ⟨hp, ?_⟩⟩
      intro ε hε
      obtain ⟨r, hr, hd⟩ := hsurf.2 ε hε
      refine ⟨lift r (p (Fin.last (m + 1))), fun hcon => hr ?_, by rwa [len_flat hs]⟩
      have := ((mem_ext _ _ _ _).1 hcon).1
      rwa [lift_init] at this
    · refine ⟨_, by rw [Nest.contains, if_neg h0], ?_⟩
      rw [height_contains] at h0
      exact ⟨fun h => (by cases h), fun hp _ => absurd ((mem_ext _ _ _ _).1 hp).2 h0⟩
  | frustum base h => exact hm.elim
  | dilate s r ih =>
    have hf : ∀ q, IsSDist sqrt (s.pts sqrt) q ((s.sdf sqrt q).getD 0) := fun q => by
      obtain ⟨x, e, hx⟩ := C90_sdf hs s hg.1 hm q
      rw [e]
      exact hx
    obtain ⟨x, e, _⟩ := C90_sdf hs s hg.1 hm p
    have := C53_dil_contains_iff hs _ (C90_convex hs s hg.1).1 _ r hg.2 hf p
    refine ⟨_, by rw [Nest.contains, e, Option.map_some], ?_⟩
    simp only [dilContains, dilSdf, e, Option.getD_some] at this ⊢
    exact ⟨fun h => (this.1 h).1, fun h1 h2 => this.2 ⟨h1, h2⟩⟩
  | orient s x => exact hm.elim

/-! ### Examples -/

/-- A rounded rod: a disk extruded, then dilated. -/
def rod : Nest ℚ 3 := .dilate (.extrude (n := 1) (.ball ⟨![0, 0], 1⟩) ⟨0, 4⟩) 5

example : rod.Good ∧ rod.Metric := ⟨⟨⟨(by decide +kernel : (0 : ℚ) ≤ 1), by decide +kernel⟩, by decide +kernel⟩, (by decide : 0 < 2)⟩
example : rod.sdf toySqrt ![4, 0, 8] = some 0 := by decide +kernel
example : rod.bounds toySqrt = some ⟨![-6, -6, -5], ![6, 6, 9]⟩ := by decide +kernel
example : rod.support toySqrt ![3, 4, 0] = some ![3/5 + 3, 4/5 + 4, 0] := by decide +kernel
example : rod.contains toySqrt ![4, 0, 8] = some false := by decide +kernel
example : (Nest.orient (.frustum (n := 0) (.box ⟨![-1], ![2]⟩) ⟨1, 3⟩) shear : Nest ℚ 2).bounds toySqrt = some ⟨![3, 1], ![12, 3]⟩ := by
  decide +kernel

end Geomc.Shape
