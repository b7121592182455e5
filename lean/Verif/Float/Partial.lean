import Verif.Float.PartialModel
import Verif.Float.Support
import Verif.Shape.Frustum

/-! # Property C142: overlaps of spheres, dilated shapes, extrusions and frustums, in floating point -/

namespace Geomc.Flt

open Geomc.Vec (IsSqrt)
open Geomc.Shape (len Ball Tube Simp GRes GStep Height gjkLimit extSupport orFirst fruPts)
open Geomc.Rect (Box)

variable {K : Type} [Field K] [LinearOrder K] [IsStrictOrderedRing K] [FloorRing K] {N p : ℕ} {rnd sqrt : K → K}

/-- As `Supports`, where there may be no point for the zero direction. -/
def SupportsP (S : Set (Fin N → K)) (sup : (Fin N → K) → Option (Fin N → K)) (δ m : K) : Prop :=
  (∀ d, d ≠ 0 → ∃ s, sup d = some s) ∧
    ∀ d s, sup d = some s → (∀ x ∈ S, x ⬝ᵥ d ≤ s ⬝ᵥ d + δ * ∑ i, |d i|) ∧ ∀ i, |s i| ≤ m

omit [FloorRing K] in
theorem SupportsP.mono {S : Set (Fin N → K)} {sup : (Fin N → K) → Option (Fin N → K)} {δ δ' m m' : K} (h : SupportsP S sup δ m) (hδ : δ ≤ δ')
    (hm : m ≤ m') : SupportsP S sup δ' m' :=
  ⟨h.1, fun d s e => ⟨fun x hx => ((h.2 d s e).1 x hx).trans (add_le_add le_rfl (mul_le_mul_of_nonneg_right hδ (Finset.sum_nonneg fun i _ => abs_nonneg _))),
    fun i => ((h.2 d s e).2 i).trans hm⟩⟩

omit [FloorRing K] in
/-- **C142.** The shapes of C141, which have a point for every direction. -/
theorem C142_total {S : Set (Fin N → K)} {sup : (Fin N → K) → Fin N → K} {δ m : K} (h : Supports S sup δ m) : SupportsP S (fun d => some (sup d)) δ m :=
  ⟨fun d _ => ⟨_, rfl⟩, fun d s e => by
    cases e
    exact ⟨h.1 d, h.2 d⟩⟩

omit [FloorRing K] in
/-- Any points may be supplied where there are none. -/
theorem SupportsP.fill {S : Set (Fin N → K)} {sup : (Fin N → K) → Option (Fin N → K)} {δ m : K} (h : SupportsP S sup δ m) (m0 : 0 ≤ m) :
    Supports S (fun d => (sup d).getD 0) δ m := by
  refine ⟨fun d x hx => ?_, fun d i => ?_⟩
  · rcases e : sup d with _ | s
    · by_cases hd : d = 0
      · simp [hd]
      · obtain ⟨s, hs⟩ := h.1 d hd
        rw [e] at hs
        cases hs
    · have := (h.2 d s e).1 x hx
      simp only [e, Option.getD_some]
      exact this
  · rcases e : sup d with _ | s
    · simpa [e] using m0
    · simp only [e, Option.getD_some]
      exact (h.2 d s e).2 i

/-! ## The shapes -/

/-- **C142.** Spheres. -/
theorem C142_ball (hp : 1 ≤ p) (h : IsRound p rnd) (hs : IsSqrt sqrt) (hN : (1 + eps K p) ^ (N + 2) < 2) (b : Ball K N) {m : K}
    (hm : ∀ i, |b.center i| ≤ m) (hr : 0 ≤ b.r) :
    SupportsP (b.pts sqrt) (ballSupport rnd sqrt b) (((1 + eps K p) ^ 3 * (1 / (2 - (1 + eps K p) ^ (N + 2))) - 1) * (m + b.r))
      ((1 + eps K p) ^ 3 * (1 / (2 - (1 + eps K p) ^ (N + 2))) * (m + b.r)) := by
  refine ⟨fun d hd => ?_, fun d s e => ?_⟩
  · obtain ⟨s, hs, -⟩ := (C141_ball hp h hs hN b hm hr d).2 hd
    exact ⟨s, hs⟩
  · obtain ⟨k1, k2⟩ := C141_ball hp h hs hN b hm hr d
    rcases eq_or_ne d 0 with hd | hd
    · rw [k1 hd] at e
      cases e
    · obtain ⟨t, et, ht⟩ := k2 hd
      rw [et] at e
      cases e
      exact ht

/-- **C142.** Dilated shapes, of shapes with a point for the zero direction or none. -/
theorem C142_dilated (hp : 1 ≤ p) (h : IsRound p rnd) (hs : IsSqrt sqrt) (hN : (1 + eps K p) ^ (N + 2) < 2) {S : Set (Fin N → K)}
    {sup : (Fin N → K) → Option (Fin N → K)} {δ m r : K} (hS : SupportsP S sup δ m) (m0 : 0 ≤ m) (hr : 0 ≤ r) :
    SupportsP {x | ∃ y ∈ S, len sqrt (x - y) ≤ r} (dilatedSupportP rnd sqrt sup r)
      (δ + ((1 + eps K p) ^ 3 * (1 / (2 - (1 + eps K p) ^ (N + 2))) - 1) * (m + r))
      ((1 + eps K p) ^ 3 * (1 / (2 - (1 + eps K p) ^ (N + 2))) * (m + r)) := by
  have key : ∀ d, d ≠ 0 → dilatedSupportP rnd sqrt sup r d = dilatedSupport rnd sqrt (fun d => (sup d).getD 0) r d := fun d hd => by
    obtain ⟨q, hq⟩ := hS.1 d hd
    rw [dilatedSupportP, dilatedSupport, hq]
    rfl
  have zero : dilatedSupportP rnd sqrt sup r 0 = none := by
    have := (C141_dilated hp h hs hN (hS.fill m0) hr (0 : Fin N → K)).1 rfl
    rw [dilatedSupport, Option.map_eq_none_iff] at this
    rw [dilatedSupportP, this]
    cases sup 0 <;> rfl
  refine ⟨fun d hd => ?_, fun d s e => ?_⟩
  · obtain ⟨s, hs, -⟩ := (C141_dilated hp h hs hN (hS.fill m0) hr d).2 hd
    exact ⟨s, by rw [key d hd, hs]⟩
  · rcases eq_or_ne d 0 with rfl | hd
    · rw [zero] at e
      cases e
    · obtain ⟨t, et, ht⟩ := (C141_dilated hp h hs hN (hS.fill m0) hr d).2 hd
      rw [key d hd, et] at e
      cases e
      exact ht

omit [FloorRing K] in
theorem orFirst_ne (d : Fin (N + 1) → K) : orFirst d ≠ 0 := by
  rw [orFirst]
  split_ifs with hd
  · intro hh
    have := congrFun hh 0
    simp at this
  · exact hd

omit [FloorRing K] in
/-- The support points of a base asked for in the direction an extrusion asks for. -/
theorem base_along {S : Set (Fin (N + 1) → K)} {sup : (Fin (N + 1) → K) → Option (Fin (N + 1) → K)} {δ m : K} (hS : SupportsP S sup δ m)
    {d q : Fin (N + 1) → K} (hq : sup (orFirst d) = some q) {x : Fin (N + 1) → K} (hx : x ∈ S) : x ⬝ᵥ d ≤ q ⬝ᵥ d + δ * ∑ i, |d i| := by
  by_cases hd : d = 0
  · rw [hd]
    simp
  · rw [orFirst, if_neg hd] at hq
    exact (hS.2 _ _ hq).1 x hx

omit [FloorRing K] in
/-- **C142.** Extrusions have a point for every direction, whether their base has or not, and add no error. -/
theorem C142_extruded {S : Set (Fin (N + 1) → K)} {sup : (Fin (N + 1) → K) → Option (Fin (N + 1) → K)} {δ m : K} (hS : SupportsP S sup δ m) (hδ : 0 ≤ δ)
    (g : Height K) (h0 : |g.lo| ≤ m) (h1 : |g.hi| ≤ m) :
    (∀ d, ∃ s, extrudedSupportP sup g d = some s) ∧
    SupportsP {x : Fin (N + 2) → K | Fin.init x ∈ S ∧ g.lo ≤ x (Fin.last (N + 1)) ∧ x (Fin.last (N + 1)) ≤ g.hi} (extrudedSupportP sup g) δ m := by
  have all : ∀ d, ∃ s, extrudedSupportP sup g d = some s := fun d => by
    obtain ⟨q, hq⟩ := hS.1 _ (orFirst_ne (Fin.init d : Fin (N + 1) → K))
    exact ⟨_, by rw [extrudedSupportP, hq]; rfl⟩
  refine ⟨all, fun d _ => all d, fun d s e => ?_⟩
  rw [extrudedSupportP, Option.map_eq_some_iff] at e
  obtain ⟨q, hq, rfl⟩ := e
  refine ⟨fun x hx => ?_, fun i => ?_⟩
  · obtain ⟨xs, xl, xh⟩ := hx
    have a1 := base_along hS hq xs
    have a2 : x (Fin.last (N + 1)) * d (Fin.last (N + 1)) ≤ (if 0 < d (Fin.last (N + 1)) then g.hi else g.lo) * d (Fin.last (N + 1)) := by
      split_ifs with hd
      · exact mul_le_mul_of_nonneg_right xh hd.le
      · exact mul_le_mul_of_nonpos_right xl (not_lt.1 hd)
    have a3 := mul_nonneg hδ (abs_nonneg (d (Fin.last (N + 1))))
    simp only [dotProduct, Fin.init] at a1
    simp only [dotProduct]
    rw [Fin.sum_univ_castSucc, Fin.sum_univ_castSucc (n := N + 1), Fin.sum_univ_castSucc (f := fun i => |d i|)]
    simp only [Fin.snoc_castSucc, Fin.snoc_last]
    linarith
  · refine Fin.lastCases ?_ (fun j => ?_) i
    · rw [Fin.snoc_last]
      split_ifs
      exacts [h1, h0]
    · rw [Fin.snoc_castSucc]
      exact (hS.2 _ _ hq).2 _

/-- **C142.** Frustums have a point for every direction, whether their base has or not, up to rounding; even where the wrong end is taken. -/
theorem C142_frustum (hp : 1 ≤ p) (h : IsRound p rnd) {S : Set (Fin (N + 1) → K)} {sup : (Fin (N + 1) → K) → Option (Fin (N + 1) → K)} {δ m H : K}
    (hS : SupportsP S sup δ m) (hδ : 0 ≤ δ) (hm : 1 ≤ m) (g : Height K) (hg : g.lo ≤ g.hi) (h0 : |g.lo| ≤ H) (h1 : |g.hi| ≤ H) :
    (∀ d, ∃ s, frustumSupportP rnd sup g d = some s) ∧
    SupportsP (fruPts S g.lo g.hi) (frustumSupportP rnd sup g)
      (H * δ + 2 * H * ((1 + eps K p) ^ (N + 2) - 1) * m + eps K p * H * m) ((1 + eps K p) * H * m) := by
  have e0 := eps_pos (K := K) p
  obtain ⟨lo, hlo⟩ : ∃ lo, lo = g.clipped.lo := ⟨_, rfl⟩
  obtain ⟨hi, hhi⟩ : ∃ hi, hi = g.clipped.hi := ⟨_, rfl⟩
  obtain ⟨σ, hσ⟩ : ∃ σ : K, σ = if lo < 0 then -1 else 1 := ⟨_, rfl⟩
  have H0 : 0 ≤ H := (abs_nonneg _).trans h0
  have hl : |lo| ≤ H := by
    rw [hlo, Height.clipped]
    dsimp only
    split_ifs
    · simpa using H0
    · exact h0
  have hh : |hi| ≤ H := by rw [hhi]; exact h1
  have hlh : lo ≤ hi := by
    rw [hlo, hhi, Height.clipped]
    dsimp only
    split_ifs with hc
    · exact hc.2.le
    · exact hg
  -- the sign is that of the heights
  have hz : ∀ z, lo ≤ z → z ≤ hi → |z| = σ * z := by
    intro z z0 z1
    rw [hσ]
    split_ifs with hc
    · have : hi ≤ 0 := by
        by_contra hn
        rw [hlo, Height.clipped] at hc
        rw [hhi, Height.clipped] at hn
        dsimp only at hc hn
        split_ifs at hc with hd
        · exact lt_irrefl _ hc
        · exact hd ⟨hc, not_le.1 hn⟩
      rw [abs_of_nonpos (z1.trans this)]
      ring
    · rw [abs_of_nonneg ((not_lt.1 hc).trans z0), one_mul]
  have σσ : σ * σ = 1 := by
    rw [hσ]
    split_ifs <;> ring
  have all : ∀ d, ∃ s, frustumSupportP rnd sup g d = some s := fun d => by
    obtain ⟨q, hq⟩ := hS.1 _ (orFirst_ne fun i => σ * (Fin.init d : Fin (N + 1) → K) i)
    rw [hσ, hlo] at hq
    exact ⟨_, by rw [frustumSupportP]; simp only; rw [hq]; rfl⟩
  refine ⟨all, fun d _ => all d, fun d s e => ?_⟩
  rw [frustumSupportP] at e
  simp only at e
  rw [Option.map_eq_some_iff] at e
  obtain ⟨q, hq, e⟩ := e
  rw [← hlo, ← hhi] at e
  rw [← hlo, ← hσ] at hq
  obtain ⟨P, hP⟩ : ∃ P : Fin (N + 2) → K, P = Fin.snoc (α := fun _ => K) q 1 := ⟨_, rfl⟩
  rw [← hP] at e
  obtain ⟨z, ez⟩ : ∃ z, z = if 0 < dot rnd P d then hi else lo := ⟨_, rfl⟩
  rw [← ez] at e
  have hPm : ∀ i, |P i| ≤ m := fun i => by
    rw [hP]
    refine Fin.lastCases ?_ (fun j => ?_) i
    · rw [Fin.snoc_last, abs_one]
      exact hm
    · rw [Fin.snoc_castSucc]
      exact (hS.2 _ _ hq).2 _
  have hzH : |z| ≤ H := by
    rw [ez]
    split_ifs
    exacts [hh, hl]
  have hzP : ∀ i, |z * P i| ≤ H * m := fun i => by
    rw [abs_mul]
    exact mul_le_mul hzH (hPm i) (abs_nonneg _) H0
  have hs : ∀ i, |s i - z * P i| ≤ eps K p * H * m := fun i => by
    rw [← e, mul_assoc]
    exact (h.rel hp _).trans (mul_le_mul_of_nonneg_left (hzP i) e0.le)
  refine ⟨?_, fun i => ?_⟩
  · intro x hx
    rw [Shape.mem_fru (h := g)] at hx
    obtain ⟨b, hb, y, y0, y1, rfl⟩ := hx
    rw [← hlo] at y0
    rw [← hhi] at y1
    obtain ⟨L, hL⟩ : ∃ L, L = ∑ i, |d i| := ⟨_, rfl⟩
    have a1 := base_along hS hq hb
    have dl : P ⬝ᵥ d = q ⬝ᵥ (Fin.init d : Fin (N + 1) → K) + d (Fin.last (N + 1)) := by
      rw [hP, dotProduct, Fin.sum_univ_castSucc]
      simp only [Fin.snoc_castSucc, Fin.snoc_last, one_mul]
      rfl
    have dx : (y • Shape.lift b 1) ⬝ᵥ d = y * (b ⬝ᵥ (Fin.init d : Fin (N + 1) → K) + d (Fin.last (N + 1))) := by
      rw [smul_dotProduct, smul_eq_mul, Shape.lift, dotProduct, Fin.sum_univ_castSucc]
      simp only [Fin.snoc_castSucc, Fin.snoc_last, one_mul]
      rfl
    -- farther along than the base by no more than its error
    have e1 : ∀ u : Fin (N + 1) → K, (u ⬝ᵥ fun i => σ * (Fin.init d : Fin (N + 1) → K) i) = σ * u ⬝ᵥ (Fin.init d : Fin (N + 1) → K) := fun u => by
      rw [dotProduct, dotProduct, Finset.mul_sum]
      exact Finset.sum_congr rfl fun i _ => by ring
    have e2 : (∑ i, |σ * (Fin.init d : Fin (N + 1) → K) i|) ≤ L := by
      have : |σ| = 1 := by
        rw [hσ]
        split_ifs <;> simp
      rw [hL, Fin.sum_univ_castSucc (n := N + 1)]
      simp only [abs_mul, this, one_mul, Fin.init]
      linarith [abs_nonneg (d (Fin.last (N + 1)))]
    rw [e1, e1] at a1
    have a2 := a1.trans (add_le_add le_rfl (mul_le_mul_of_nonneg_left e2 hδ))
    have a3 := mul_le_mul_of_nonneg_left a2 (abs_nonneg y)
    have yH : |y| ≤ H := (abs_le_max_abs_abs y0 y1).trans (max_le hl hh)
    have L0 : 0 ≤ L := hL ▸ Finset.sum_nonneg fun i _ => abs_nonneg _
    have a4 := mul_le_mul_of_nonneg_right yH (mul_nonneg hδ L0)
    have a5 : ∀ t : K, |y| * (σ * t) = y * t := fun t => by
      rw [hz y y0 y1]
      linear_combination (y * t) * σσ
    rw [mul_add, a5, a5] at a3
    -- the wrong end
    have b1 := C104_dot hp h P d
    have b2 : |dot rnd P d - P ⬝ᵥ d| ≤ ((1 + eps K p) ^ (N + 2) - 1) * (m * L) := by
      refine b1.trans (mul_le_mul_of_nonneg_left ?_ (show (0 : K) ≤ (1 + eps K p) ^ (N + 2) - 1 from sub_nonneg.2 (one_le_pow₀ (by linarith))))
      rw [hL, Finset.mul_sum]
      refine Finset.sum_le_sum fun i _ => ?_
      rw [abs_mul]
      exact mul_le_mul_of_nonneg_right (hPm i) (abs_nonneg _)
    obtain ⟨E, hE⟩ : ∃ E, E = ((1 + eps K p) ^ (N + 2) - 1) * (m * L) := ⟨_, rfl⟩
    rw [← hE] at b2
    have E0 : 0 ≤ E := (abs_nonneg _).trans b2
    have b3 := abs_le.1 b2
    have hd2 : hi - lo ≤ 2 * H := by linarith [le_abs_self hi, neg_abs_le lo]
    have b4 : y * (P ⬝ᵥ d) ≤ z * (P ⬝ᵥ d) + 2 * H * E := by
      have b5 := mul_le_mul_of_nonneg_right hd2 E0
      rw [ez]
      split_ifs with hc
      · have : (hi - y) * (-E) ≤ (hi - y) * (P ⬝ᵥ d) := mul_le_mul_of_nonneg_left (by linarith [b3.2]) (sub_nonneg.2 y1)
        have b6 := mul_le_mul_of_nonneg_right (show hi - y ≤ hi - lo by linarith) E0
        linarith
      · have : (y - lo) * (P ⬝ᵥ d) ≤ (y - lo) * E := mul_le_mul_of_nonneg_left (by linarith [b3.1, not_lt.1 hc]) (sub_nonneg.2 y0)
        have b6 := mul_le_mul_of_nonneg_right (show y - lo ≤ hi - lo by linarith) E0
        linarith
    have c1 := along_near (d := d) hs
    have e3 : (fun i => z * P i) ⬝ᵥ d = z * (P ⬝ᵥ d) := by
      rw [dotProduct, dotProduct, Finset.mul_sum]
      exact Finset.sum_congr rfl fun i _ => by ring
    rw [e3, ← hL] at c1
    rw [dx, ← hL]
    rw [hE] at b4
    rw [dl] at b4 c1
    linarith
  · have a1 := abs_sub_abs_le_abs_sub (s i) (z * P i)
    linarith [hs i, hzP i]

/-! ## The overlap test -/

omit [IsStrictOrderedRing K] [FloorRing K] in
theorem stepP_eq (proj : Simp K N → Option (Simp K N × (Fin N → K))) {supA supB : (Fin N → K) → Option (Fin N → K)} (cur : Simp K N) {d x y : Fin N → K}
    (hx : supA d = some x) (hy : supB (-d) = some y) :
    gjkStepP rnd proj supA supB cur d = gjkStepF rnd proj (fun d => (supA d).getD 0) (fun d => (supB d).getD 0) cur d := by
  rw [gjkStepP, hx, Option.bind_some, hy, Option.bind_some, gjkStepF, gjkStepF]
  simp only [hx, hy, Option.getD_some]

omit [IsStrictOrderedRing K] [FloorRing K] in
/-- Only the first direction can be zero. -/
theorem loopP_eq (proj : Simp K N → Option (Simp K N × (Fin N → K))) {supA supB : (Fin N → K) → Option (Fin N → K)} (axis : Fin N → K)
    (hA : ∀ d, d ≠ 0 → ∃ s, supA d = some s) (hB : ∀ d, d ≠ 0 → ∃ s, supB d = some s) :
    ∀ (left it : ℕ) (cur : Simp K N) (d : Fin N → K), (∃ x, supA d = some x) → (∃ y, supB (-d) = some y) →
      gjkLoopP rnd proj supA supB axis left it cur d =
        gjkLoopF rnd proj (fun d => (supA d).getD 0) (fun d => (supB d).getD 0) axis left it cur d := by
  intro left
  induction left with
  | zero =>
    rintro it cur d ⟨x, hx⟩ ⟨y, hy⟩
    rw [gjkLoopP, gjkLoopF, stepP_eq proj cur hx hy]
    congr 1
  | succ left ih =>
    rintro it cur d ⟨x, hx⟩ ⟨y, hy⟩
    rw [gjkLoopP, gjkLoopF, stepP_eq proj cur hx hy]
    refine Option.bind_congr fun g hg => ?_
    rcases g with ⟨a, b⟩ | ⟨s, d'⟩
    · rfl
    · have hd : d' ≠ 0 := by
        rw [gjkStepF] at hg
        split_ifs at hg
        · cases hg
        rw [Option.map_eq_some_iff] at hg
        obtain ⟨r, -, hr⟩ := hg
        split_ifs at hr with hc
        cases hr
        exact fun hh => hc (Or.inr hh)
      simp only
      rw [ih _ _ _ (hA d' hd) (hB (-d') (neg_ne_zero.2 hd))]

/-- **C142.** Any two of these shapes, in two dimensions or three, are given an answer if the first two support points differ, or if both shapes have a point
for the zero direction; those which overlap so that one can be moved by `ρ` along every axis are reported to overlap, if `ρ` is above the errors of the two
support points and those of their difference; and those reported to be apart overlap by no more than that along some direction. -/
theorem C142_overlap (hp : 1 ≤ p) (h : IsRound p rnd) (hN : N = 2 ∨ N = 3) {A B : Set (Fin N → K)} {supA supB : (Fin N → K) → Option (Fin N → K)} {δ m : K}
    (hA : SupportsP A supA δ m) (hB : SupportsP B supB δ m) (hδ : 0 ≤ δ)
    (hf : supA unitX ≠ supB (-unitX) ∨ ((∃ s, supA 0 = some s) ∧ ∃ s, supB 0 = some s)) :
    ∃ r, overlapP rnd supA supB = some r ∧
      (∀ ρ, (∀ v : Fin N → K, (∀ i, |v i| ≤ ρ) → ∃ x ∈ A, ∃ y ∈ B, x = y + v) → 2 * δ + 2 * ((1 + eps K p) ^ (N + 1) - 1) * m < ρ → r.hit = true) ∧
      (r.hit = false → ∃ d : Fin N → K, d ≠ 0 ∧ ∀ x ∈ A, ∀ y ∈ B, (x - y) ⬝ᵥ d ≤ (2 * δ + 2 * ((1 + eps K p) ^ (N + 1) - 1) * m) * ∑ i, |d i|) := by
  have i0 : (0 : ℕ) < N := by omega
  have u0 : (unitX : Fin N → K) ≠ 0 := fun hh => by
    have := congrFun hh ⟨0, i0⟩
    simp [unitX] at this
  obtain ⟨x, hx⟩ := hA.1 _ u0
  obtain ⟨y, hy⟩ := hB.1 _ (neg_ne_zero.2 u0)
  have m0 : 0 ≤ m := (abs_nonneg _).trans ((hA.2 _ _ hx).2 ⟨0, i0⟩)
  obtain ⟨r, hr, h1, h2⟩ := C141_overlap hp h hN (hA.fill m0) (hB.fill m0) hδ
  refine ⟨r, ?_, h1, h2⟩
  rw [← hr]
  rw [overlapP, overlapOf]
  refine Option.bind_congr fun lim _ => ?_
  rw [gjkP, gjkF, hx, Option.bind_some, hy, Option.bind_some]
  change gjkLoopP rnd _ supA supB unitX lim 1 _ _ = gjkLoopF rnd _ _ _ unitX lim 1 (Simp.insert _ (sub rnd ((supA unitX).getD 0) ((supB (-unitX)).getD 0)))
    (-(sub rnd ((supA unitX).getD 0) ((supB (-unitX)).getD 0)))
  rw [hx, hy, Option.getD_some, Option.getD_some]
  have hs : sub rnd x y ≠ 0 ∨ ((∃ s, supA 0 = some s) ∧ ∃ s, supB 0 = some s) := by
    refine hf.imp (fun hne hz => hne ?_) id
    rw [hx, hy]
    congr 1
    funext i
    have h3 := h.rel hp (x i - y i)
    have h4 : rnd (x i - y i) = 0 := congrFun hz i
    rw [h4, zero_sub, abs_neg] at h3
    have h5 := eps_le (K := K) hp
    have h6 : |x i - y i| ≤ 0 := by
      by_contra hc
      have := mul_le_mul_of_nonneg_right h5 (not_le.1 hc).le
      linarith
    exact sub_eq_zero.1 (abs_nonpos_iff.1 h6)
  refine loopP_eq _ _ hA.1 hB.1 _ _ _ _ ?_ ?_
  · rcases eq_or_ne (sub rnd x y) 0 with hz | hz
    · rw [hz, neg_zero]
      exact (hs.resolve_left fun hh => hh hz).1
    · exact hA.1 _ (neg_ne_zero.2 hz)
  · rcases eq_or_ne (sub rnd x y) 0 with hz | hz
    · rw [hz, neg_zero, neg_zero]
      exact (hs.resolve_left fun hh => hh hz).2
    · rw [neg_neg]
      exact hB.1 _ hz

/-- **C142, refuted.** Where the first two support points agree and one of the shapes is a sphere or dilated, so that there is no point for the zero
direction, there is no answer. -/
theorem C142_touch (h : IsRound p rnd) {supA supB : (Fin N → K) → Option (Fin N → K)} (hf : supA unitX = supB (-unitX)) (hz : supA 0 = none ∨ supB 0 = none) :
    overlapP rnd supA supB = none := by
  rw [overlapP, Option.bind_eq_none_iff]
  intro lim _
  rw [gjkP, ← hf]
  rcases hx : supA unitX with _ | x
  · rfl
  · rw [Option.bind_some, Option.bind_some]
    have e : sub rnd x x = 0 := by
      funext i
      rw [sub, sub_self]
      exact h.fix (float_zero p)
    simp only [e, neg_zero]
    have hstep : ∀ cur : Simp K N, gjkStepP rnd (nearestFace rnd) supA supB cur 0 = none := fun cur => by
      rw [gjkStepP, neg_zero]
      rcases hz with hz | hz
      · rw [hz]
        rfl
      · rw [hz]
        cases supA 0 <;> rfl
    cases lim <;> rw [gjkLoopP, hstep] <;> rfl

/-- The computed direction of the first axis is the axis. -/
theorem unit_unitX (h : IsRound p rnd) (hp : 1 ≤ p) (hs : IsSqrt sqrt) (hN : N = 2 ∨ N = 3) :
    unit rnd sqrt (unitX : Fin N → K) = some unitX ∧ unit rnd sqrt (-unitX : Fin N → K) = some (-unitX) := by
  have z : rnd 0 = 0 := h.fix (float_zero p)
  have f1 : IsFloat p (1 : K) := by simpa using float_pow (K := K) hp 0
  have o : rnd 1 = 1 := h.fix f1
  have o' : rnd (-1) = -1 := h.fix (float_neg f1)
  have s1 : sqrt 1 = 1 := by
    have a := hs.sq 1 zero_le_one
    have b := hs.pos 1 zero_lt_one
    nlinarith
  have m1 : mag2 rnd (unitX : Fin N → K) = 1 ∧ mag2 rnd (-unitX : Fin N → K) = 1 := by
    rcases hN with rfl | rfl <;> simp [mag2, List.finRange_succ, multiplyAdd, unitX, o]
  refine ⟨?_, ?_⟩
  · rw [unit]
    simp only [mag, m1.1, s1, o, one_ne_zero, if_false, div_one]
    congr 1
    funext i
    rw [unitX]
    split_ifs
    exacts [o, z]
  · rw [unit]
    simp only [mag, m1.2, s1, o, one_ne_zero, if_false, div_one]
    congr 1
    funext i
    simp only [unitX, Pi.neg_apply]
    split_ifs
    · exact o'
    · rw [neg_zero, z]

/-- **C142, refuted.** Two spheres of the same radius that touch on the first axis: the overlap test divides zero by zero, whatever the radius, in `float` and
`double` and in exact arithmetic. -/
theorem C142_spheres_refuted (hp : 1 ≤ p) (h : IsRound p rnd) (hs : IsSqrt sqrt) (hN : N = 2 ∨ N = 3) (hN' : (1 + eps K p) ^ (N + 2) < 2) {r : K}
    (fr : IsFloat p r) (hr : 0 ≤ r) :
    overlapP rnd (ballSupport rnd sqrt (⟨0, r⟩ : Ball K N)) (ballSupport rnd sqrt (⟨fun i => 2 * r * unitX i, r⟩ : Ball K N)) = none := by
  have z : rnd 0 = 0 := h.fix (float_zero p)
  obtain ⟨u1, u2⟩ := unit_unitX h hp hs hN
  refine C142_touch h ?_ (Or.inl ?_)
  · rw [ballSupport, ballSupport, u1, u2, Option.map_some, Option.map_some]
    congr 1
    funext i
    simp only [Pi.zero_apply, Pi.neg_apply, zero_add]
    rw [unitX]
    split_ifs
    · rw [one_mul, mul_one, neg_one_mul, h.fix fr, h.fix (float_neg fr), h.fix fr]
      rw [show 2 * r + -r = r by ring, h.fix fr]
    · simp [z]
  · exact (C141_ball (m := 0) hp h hs hN' (⟨0, r⟩ : Ball K N) (fun i => by simp) hr 0).1 rfl

omit [IsStrictOrderedRing K] [FloorRing K] in
/-- **C142.** Of shapes with a point for every direction, the support points are those of C141; and without rounding those of C53. -/
theorem C142_exact (sup : (Fin (N + 1) → K) → Fin (N + 1) → K) (r : K) (g : Height K) (d : Fin (N + 1) → K) (e : Fin (N + 2) → K) :
    dilatedSupportP rnd sqrt (fun d => some (sup d)) r d = dilatedSupport rnd sqrt sup r d ∧
    extrudedSupportP (fun d => some (sup d)) g e = some (extSupport sup g e) ∧
    frustumSupportP (fun x => x) (fun d => some (sup d)) g e = some (Shape.fruSupport sup g e) := ⟨rfl, rfl, rfl⟩

/-! ## In `double` -/

/-- Spheres that overlap, are apart, and touch; and a cylinder and a cone against a sphere. -/
example : (overlapP (nearest 53) (ballSupport (nearest 53) root (⟨![0, 0], 2⟩ : Ball ℚ 2)) (ballSupport (nearest 53) root ⟨![3, 0], 2⟩)).map (·.hit) = some true ∧
    (overlapP (nearest 53) (ballSupport (nearest 53) root (⟨![0, 0], 2⟩ : Ball ℚ 2)) (ballSupport (nearest 53) root ⟨![5, 0], 2⟩)).map (·.hit) = some false ∧
    (overlapP (nearest 53) (ballSupport (nearest 53) root (⟨![0, 0], 2⟩ : Ball ℚ 2)) (ballSupport (nearest 53) root ⟨![4, 0], 2⟩)).map (·.hit) = none := by
  decide +kernel

example : extrudedSupportP (ballSupport (nearest 53) root (⟨![1, 0], 5⟩ : Ball ℚ 2)) ⟨-1, 2⟩ ![3, 4, 1] = some ![4, 4, 2] ∧
    extrudedSupportP (ballSupport (nearest 53) root (⟨![1, 0], 5⟩ : Ball ℚ 2)) ⟨-1, 2⟩ ![0, 0, -1] = some ![6, 0, -1] ∧
    frustumSupportP (nearest 53) (ballSupport (nearest 53) root (⟨![0, 0], 5⟩ : Ball ℚ 2)) ⟨1, 2⟩ ![0, 4, -24] = some ![0, 5, 1] ∧
    frustumSupportP (nearest 53) (ballSupport (nearest 53) root (⟨![0, 0], 5⟩ : Ball ℚ 2)) ⟨-2, -1⟩ ![0, 4, 0] = some ![0, 10, -2] ∧
    dilatedSupportP (nearest 53) root (ballSupport (nearest 53) root (⟨![1, 0], 5⟩ : Ball ℚ 2)) 2 ![0, -1] = some ![1, -7] := by
  decide +kernel

end Geomc.Flt
