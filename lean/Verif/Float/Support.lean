import Verif.Float.SupportModel
import Verif.Float.RayProj
import Verif.Float.Gjk
import Verif.Shape.Capsule
import Verif.Rect.Props

/-! # Property C141: support points in floating point -/

namespace Geomc.Flt

open Geomc.Vec (IsSqrt)
open Geomc.Shape (len Ball Tube Simp GRes Height gjkLimit extSupport orFirst)
open Geomc.Rect (Box)

variable {K : Type} [Field K] [LinearOrder K] [IsStrictOrderedRing K] [FloorRing K] {N p : ℕ} {rnd sqrt : K → K}

/-- The points given for each direction have coordinates up to `m`, and no point of the set is farther along the direction by more than `δ` for
each unit of it. -/
def Supports (S : Set (Fin N → K)) (sup : (Fin N → K) → Fin N → K) (δ m : K) : Prop :=
  (∀ d, ∀ x ∈ S, x ⬝ᵥ d ≤ sup d ⬝ᵥ d + δ * ∑ i, |d i|) ∧ ∀ d i, |sup d i| ≤ m

omit [FloorRing K] in
theorem Supports.mono {S : Set (Fin N → K)} {sup : (Fin N → K) → Fin N → K} {δ δ' m m' : K} (h : Supports S sup δ m) (hδ : δ ≤ δ') (hm : m ≤ m') :
    Supports S sup δ' m' :=
  ⟨fun d x hx => (h.1 d x hx).trans (add_le_add le_rfl (mul_le_mul_of_nonneg_right hδ (Finset.sum_nonneg fun i _ => abs_nonneg _))),
    fun d i => (h.2 d i).trans hm⟩

omit [FloorRing K] in
/-- Points near in every coordinate are about as far along every direction. -/
theorem along_near {s e d : Fin N → K} {δ : K} (h : ∀ i, |s i - e i| ≤ δ) : e ⬝ᵥ d ≤ s ⬝ᵥ d + δ * ∑ i, |d i| := by
  rw [dotProduct, dotProduct, Finset.mul_sum, ← Finset.sum_add_distrib]
  refine Finset.sum_le_sum fun i _ => ?_
  have h1 := mul_le_mul_of_nonneg_right (h i) (abs_nonneg (d i))
  rw [← abs_mul] at h1
  have h2 := neg_abs_le ((s i - e i) * d i)
  linarith

omit [FloorRing K] in
theorem coord_le_len (hs : IsSqrt sqrt) (u : Fin N → K) (i : Fin N) : |u i| ≤ len sqrt u := by
  refine abs_le_of_sq_le_sq ?_ (Shape.len_nonneg hs u)
  rw [pow_two (len sqrt u), Shape.len_mul_self hs, pow_two, dotProduct]
  exact Finset.single_le_sum (f := fun i => u i * u i) (fun j _ => mul_self_nonneg _) (Finset.mem_univ i)

omit [FloorRing K] in
/-- The exact vector to the surface of a sphere: no coordinate is above the radius, and it is as far along the direction as any vector of that length. -/
theorem reach (hs : IsSqrt sqrt) {d : Fin N → K} (hd : d ≠ 0) {r : K} (hr : 0 ≤ r) :
    (∀ i, |d i / len sqrt d * r| ≤ r) ∧ ∀ q : Fin N → K, len sqrt q ≤ r → q ⬝ᵥ d ≤ (fun i => d i / len sqrt d * r) ⬝ᵥ d := by
  have hA := Shape.len_pos hs hd
  refine ⟨fun i => ?_, fun q hq => ?_⟩
  · rw [abs_mul, abs_of_nonneg hr, abs_div, abs_of_pos hA]
    exact mul_le_of_le_one_left hr ((div_le_one hA).2 (coord_le_len hs d i))
  · have e : (fun i => d i / len sqrt d * r) = r • ((len sqrt d)⁻¹ • d) := by
      funext i
      simp only [Pi.smul_apply, smul_eq_mul]
      ring
    rw [e, smul_dotProduct, Shape.unit_dot hs hd]
    exact (Shape.dot_le_len hs q d).trans (mul_le_mul_of_nonneg_right hq hA.le)

/-! ## Dilated shapes and spheres -/

/-- **C141.** The point of a dilated shape farthest along a direction is found up to rounding, wherever that of the shape is; along no direction is there none. -/
theorem C141_dilated (hp : 1 ≤ p) (h : IsRound p rnd) (hs : IsSqrt sqrt) (hN : (1 + eps K p) ^ (N + 2) < 2) {S : Set (Fin N → K)}
    {sup : (Fin N → K) → Fin N → K} {δ m r : K} (hS : Supports S sup δ m) (hr : 0 ≤ r) (d : Fin N → K) :
    (d = 0 → dilatedSupport rnd sqrt sup r d = none) ∧
    (d ≠ 0 → ∃ s, dilatedSupport rnd sqrt sup r d = some s ∧
      (∀ x, (∃ y ∈ S, len sqrt (x - y) ≤ r) → x ⬝ᵥ d ≤
        s ⬝ᵥ d + (δ + ((1 + eps K p) ^ 3 * (1 / (2 - (1 + eps K p) ^ (N + 2))) - 1) * (m + r)) * ∑ i, |d i|) ∧
      ∀ i, |s i| ≤ (1 + eps K p) ^ 3 * (1 / (2 - (1 + eps K p) ^ (N + 2))) * (m + r)) := by
  have e0 := eps_pos (K := K) p
  have hq := one_le_mul_of_one_le_of_one_le (one_le_pow₀ (n := 3) (show 1 ≤ 1 + eps K p by linarith)) (q_ge (K := K) (p := p) hN)
  have key := C138_at_distance hp h hs hN (sup d) d r
  refine ⟨fun hd => key.1 hd, fun hd => ?_⟩
  obtain ⟨s, es, hb⟩ := key.2 hd
  obtain ⟨Q, hQ⟩ : ∃ Q, Q = (1 + eps K p) ^ 3 * (1 / (2 - (1 + eps K p) ^ (N + 2))) := ⟨_, rfl⟩
  rw [← hQ] at hb hq ⊢
  obtain ⟨r1, r2⟩ := reach hs hd hr
  have hb' : ∀ i, |s i - (sup d i + d i / len sqrt d * r)| ≤ (Q - 1) * (m + r) := fun i =>
    (hb i).trans (mul_le_mul_of_nonneg_left (add_le_add (hS.2 d i) (r1 i)) (sub_nonneg.2 hq))
  refine ⟨s, es, ?_, fun i => ?_⟩
  · rintro x ⟨y, hy, hxy⟩
    have a1 := hS.1 d y hy
    have a2 := r2 _ hxy
    have a3 := along_near (d := d) hb'
    have e : (fun i => sup d i + d i / len sqrt d * r) = sup d + fun i => d i / len sqrt d * r := rfl
    rw [e, add_dotProduct] at a3
    rw [sub_dotProduct] at a2
    linarith
  · have a1 := abs_sub_abs_le_abs_sub (s i) (sup d i + d i / len sqrt d * r)
    have a2 := abs_add_le (sup d i) (d i / len sqrt d * r)
    linarith [hb' i, hS.2 d i, r1 i]

/-- **C141.** The point of a sphere farthest along a direction is found up to rounding; along no direction there is none. -/
theorem C141_ball (hp : 1 ≤ p) (h : IsRound p rnd) (hs : IsSqrt sqrt) (hN : (1 + eps K p) ^ (N + 2) < 2) (b : Ball K N) {m : K}
    (hm : ∀ i, |b.center i| ≤ m) (hr : 0 ≤ b.r) (d : Fin N → K) :
    (d = 0 → ballSupport rnd sqrt b d = none) ∧
    (d ≠ 0 → ∃ s, ballSupport rnd sqrt b d = some s ∧
      (∀ x ∈ b.pts sqrt, x ⬝ᵥ d ≤ s ⬝ᵥ d + ((1 + eps K p) ^ 3 * (1 / (2 - (1 + eps K p) ^ (N + 2))) - 1) * (m + b.r) * ∑ i, |d i|) ∧
      ∀ i, |s i| ≤ (1 + eps K p) ^ 3 * (1 / (2 - (1 + eps K p) ^ (N + 2))) * (m + b.r)) := by
  have hS : Supports ({b.center} : Set (Fin N → K)) (fun _ => b.center) 0 m :=
    ⟨fun d x hx => by rw [Set.mem_singleton_iff.1 hx, zero_mul, add_zero], fun _ => hm⟩
  obtain ⟨k1, k2⟩ := C141_dilated hp h hs hN hS hr d
  refine ⟨k1, fun hd => ?_⟩
  obtain ⟨s, es, a, c⟩ := k2 hd
  refine ⟨s, es, fun x hx => ?_, c⟩
  have := a x ⟨_, rfl, hx⟩
  rwa [zero_add] at this

/-! ## Capsules -/

omit [LinearOrder K] [IsStrictOrderedRing K] [FloorRing K] in
theorem dot_swap (u v : Fin N → K) : dot rnd u v = dot rnd v u := by
  simp only [dot, multiplyAdd, mul_comm]

/-- **C141.** The point of a capsule farthest along a direction is found up to rounding, even where the wrong end is taken; and in every direction, none
included. -/
theorem C141_capsule (hp : 1 ≤ p) (h : IsRound p rnd) (hs : IsSqrt sqrt) (hN : (1 + eps K p) ^ (N + 2) < 2) (c : Tube K N) {m : K}
    (h0 : ∀ i, |c.p0 i| ≤ m) (h1 : ∀ i, |c.p1 i| ≤ m) (hr : 0 ≤ c.radius) :
    Supports (c.capPts sqrt) (capsuleSupport rnd sqrt c)
      (2 * ((1 + eps K p) ^ (N + 1) - 1) * m + ((1 + eps K p) ^ 3 * (1 / (2 - (1 + eps K p) ^ (N + 2))) - 1) * (m + c.radius))
      ((1 + eps K p) ^ 3 * (1 / (2 - (1 + eps K p) ^ (N + 2))) * (m + c.radius)) := by
  have e0 := eps_pos (K := K) p
  have hq0 := q_ge (K := K) (p := p) hN
  have hq := one_le_mul_of_one_le_of_one_le (one_le_pow₀ (n := 3) (show 1 ≤ 1 + eps K p by linarith)) hq0
  have hw := fun d i => C138_with_length hp h hs hN d c.radius i
  obtain ⟨q, hq'⟩ : ∃ q, q = 1 / (2 - (1 + eps K p) ^ (N + 2)) := ⟨_, rfl⟩
  rw [← hq'] at hw hq hq0 ⊢
  -- the exact vector
  have hv : ∀ d : Fin N → K, (∀ i, |Vec.withLength sqrt d c.radius i| ≤ c.radius) ∧
      ∀ v : Fin N → K, len sqrt v ≤ c.radius → v ⬝ᵥ d ≤ Vec.withLength sqrt d c.radius ⬝ᵥ d := by
    intro d
    rcases eq_or_ne d 0 with rfl | hd
    · have e2 : Vec.withLength sqrt (0 : Fin N → K) c.radius = 0 := by
        funext i
        rw [Vec.withLength, Vec.mag2_eq]
        simp
      rw [e2]
      exact ⟨fun i => by simpa using hr, fun v _ => by simp⟩
    · have e2 : Vec.withLength sqrt d c.radius = fun i => d i / len sqrt d * c.radius := by
        rw [Shape.withLength_eq hs hd]
        funext i
        simp only [Pi.smul_apply, smul_eq_mul]
        ring
      rw [e2]
      exact reach hs hd hr
  -- the end taken
  obtain ⟨P, hP⟩ : ∃ P : (Fin N → K) → Fin N → K, P = fun d => if 0 ≤ dot rnd d (sub rnd c.p1 c.p0) then c.p1 else c.p0 := ⟨_, rfl⟩
  have hPm : ∀ d i, |P d i| ≤ m := fun d i => by
    rw [hP]
    beta_reduce
    split_ifs
    exacts [h1 i, h0 i]
  have hend : ∀ d, c.p0 ⬝ᵥ d ≤ P d ⬝ᵥ d + 2 * ((1 + eps K p) ^ (N + 1) - 1) * m * ∑ i, |d i| ∧
      c.p1 ⬝ᵥ d ≤ P d ⬝ᵥ d + 2 * ((1 + eps K p) ^ (N + 1) - 1) * m * ∑ i, |d i| := by
    intro d
    have hg := gap_near hp h (x := c.p1) (y := c.p0) (d := d) h1 h0
    rw [dot_swap] at hg
    have hz := (abs_nonneg _).trans hg
    have hg := abs_le.1 hg
    rw [sub_dotProduct] at hg
    rw [hP]
    beta_reduce
    split_ifs with hc
    · exact ⟨by linarith [hg.1, hg.2], by linarith⟩
    · exact ⟨by linarith, by linarith [hg.1, hg.2, not_le.1 hc]⟩
  -- the computed point
  have hb : ∀ d i, |capsuleSupport rnd sqrt c d i - (P d i + Vec.withLength sqrt d c.radius i)| ≤ ((1 + eps K p) ^ 3 * q - 1) * (m + c.radius) := by
    intro d i
    have w1 := hw d i
    obtain ⟨w, ew⟩ : ∃ w, w = Vec.withLength sqrt d c.radius i := ⟨_, rfl⟩
    obtain ⟨w', ew'⟩ : ∃ w', w' = withLength rnd sqrt d c.radius i := ⟨_, rfl⟩
    have hwr := (hv d).1 i
    have e : capsuleSupport rnd sqrt c d i = rnd (P d i + w') := by rw [ew', hP]; rfl
    rw [← ew, ← ew'] at w1
    rw [← ew] at hwr ⊢
    rw [e]
    have hR := h.rel hp (P d i + w')
    obtain ⟨t, et⟩ : ∃ t, t = (1 + eps K p) ^ 2 * q := ⟨_, rfl⟩
    rw [show (1 + eps K p) ^ 3 * q = (1 + eps K p) * t by rw [et]; ring]
    rw [← et] at w1
    have t1 : 1 ≤ t := et ▸ one_le_mul_of_one_le_of_one_le (one_le_pow₀ (by linarith)) hq0
    have hPi := hPm d i
    have b1 : |w' - w| ≤ (t - 1) * c.radius := w1.trans (mul_le_mul_of_nonneg_left hwr (sub_nonneg.2 t1))
    have b2 : |P d i + w'| ≤ m + t * c.radius := by
      have a1 := abs_add_le (P d i) w'
      have a2 := abs_sub_abs_le_abs_sub w' w
      linarith
    have b3 := hR.trans (mul_le_mul_of_nonneg_left b2 e0.le)
    have b4 := abs_sub_le (rnd (P d i + w')) (P d i + w') (P d i + w)
    rw [add_sub_add_left_eq_sub] at b4
    have m0 : 0 ≤ m := (abs_nonneg _).trans hPi
    have b5 : eps K p * m ≤ ((1 + eps K p) * t - 1) * m :=
      mul_le_mul_of_nonneg_right (by nlinarith) m0
    linarith [show eps K p * (m + t * c.radius) + (t - 1) * c.radius = eps K p * m + ((1 + eps K p) * t - 1) * c.radius by ring]
  refine ⟨fun d x hx => ?_, fun d i => ?_⟩
  · obtain ⟨t, t0, t1, hx⟩ := hx
    have a1 := (hv d).2 _ hx
    have a2 := along_near (d := d) (hb d)
    have e : (fun i => P d i + Vec.withLength sqrt d c.radius i) = P d + Vec.withLength sqrt d c.radius := rfl
    rw [e, add_dotProduct] at a2
    rw [sub_dotProduct, add_dotProduct, smul_dotProduct, sub_dotProduct, smul_eq_mul] at a1
    obtain ⟨b0, b1⟩ := hend d
    have c0 := mul_le_mul_of_nonneg_left b0 (sub_nonneg.2 t1)
    have c1 := mul_le_mul_of_nonneg_left b1 t0
    linarith
  · have a1 := abs_sub_abs_le_abs_sub (capsuleSupport rnd sqrt c d i) (P d i + Vec.withLength sqrt d c.radius i)
    have a2 := abs_add_le (P d i) (Vec.withLength sqrt d c.radius i)
    linarith [hb d i, hPm d i, (hv d).1 i]

/-! ## Shapes whose support points are copied: nothing is rounded -/

omit [FloorRing K] in
/-- **C141.** The corner of a rectangle farthest along a direction is exact. -/
theorem C141_box (b : Box K N) {m : K} (h0 : ∀ i, |b.lo i| ≤ m) (h1 : ∀ i, |b.hi i| ≤ m) : Supports b.pts b.support 0 m := by
  refine ⟨fun d x hx => ?_, fun d i => ?_⟩
  · rw [zero_mul, add_zero]
    refine Finset.sum_le_sum fun i _ => ?_
    obtain ⟨l, u⟩ := Rect.mem_pts.1 hx i
    rw [Box.support]
    split_ifs with hd
    · exact mul_le_mul_of_nonpos_right l hd.le
    · exact mul_le_mul_of_nonneg_right u (not_lt.1 hd)
  · rw [Box.support]
    split_ifs
    exacts [h0 i, h1 i]

omit [FloorRing K] in
/-- **C141.** An extrusion adds no error to the support points of its base. -/
theorem C141_extruded {S : Set (Fin (N + 1) → K)} {sup : (Fin (N + 1) → K) → Fin (N + 1) → K} {δ m : K} (hS : Supports S sup δ m) (hδ : 0 ≤ δ)
    (g : Height K) (h0 : |g.lo| ≤ m) (h1 : |g.hi| ≤ m) :
    Supports {x : Fin (N + 2) → K | Fin.init x ∈ S ∧ g.lo ≤ x (Fin.last (N + 1)) ∧ x (Fin.last (N + 1)) ≤ g.hi} (extSupport sup g) δ m := by
  refine ⟨fun d x hx => ?_, fun d i => ?_⟩
  · obtain ⟨xs, xl, xh⟩ := hx
    have a1 : (Fin.init x : Fin (N + 1) → K) ⬝ᵥ Fin.init d ≤ sup (orFirst (Fin.init d)) ⬝ᵥ Fin.init d + δ * ∑ i, |(Fin.init d : Fin (N + 1) → K) i| := by
      by_cases hd : (Fin.init d : Fin (N + 1) → K) = 0
      · rw [hd]
        simp
      · rw [orFirst, if_neg hd]
        exact hS.1 _ _ xs
    have a2 : x (Fin.last (N + 1)) * d (Fin.last (N + 1)) ≤ (if 0 < d (Fin.last (N + 1)) then g.hi else g.lo) * d (Fin.last (N + 1)) := by
      split_ifs with hd
      · exact mul_le_mul_of_nonneg_right xh hd.le
      · exact mul_le_mul_of_nonpos_right xl (not_lt.1 hd)
    have a3 := mul_nonneg hδ (abs_nonneg (d (Fin.last (N + 1))))
    simp only [dotProduct, Fin.init] at a1
    simp only [dotProduct, extSupport]
    rw [Fin.sum_univ_castSucc, Fin.sum_univ_castSucc (n := N + 1), Fin.sum_univ_castSucc (f := fun i => |d i|)]
    simp only [Fin.snoc_castSucc, Fin.snoc_last]
    linarith
  · rw [extSupport]
    beta_reduce
    refine Fin.lastCases ?_ (fun j => ?_) i
    · rw [Fin.snoc_last]
      split_ifs
      exacts [h1, h0]
    · rw [Fin.snoc_castSucc]
      exact hS.2 _ _

/-- **C141.** The simplexes of C130. -/
theorem C141_simplex (hp : 1 ≤ p) (h : IsRound p rnd) (s : Simp K N) (hn : 1 ≤ s.n) {m : K} (hm : ∀ c < s.n, ∀ i, |s.pts c i| ≤ m) :
    Supports (HullOf s) (simpSupport rnd s) (2 * ((1 + eps K p) ^ N - 1) * m) m := by
  refine ⟨fun d x hx => ?_, fun d i => ?_⟩
  · obtain ⟨l, l0, l1, lx⟩ := hx
    have h1 := (C130_support hp h s hn hm d).2
    have h2 : x ⬝ᵥ d = ∑ c, l c * (s.pts c ⬝ᵥ d) := by
      simp only [dotProduct, lx, Finset.sum_mul, Finset.mul_sum]
      rw [Finset.sum_comm]
      simp only [mul_assoc]
    rw [h2]
    calc ∑ c, l c * (s.pts c ⬝ᵥ d) ≤ ∑ c, l c * (simpSupport rnd s d ⬝ᵥ d + 2 * ((1 + eps K p) ^ N - 1) * m * ∑ i, |d i|) :=
          Finset.sum_le_sum fun c _ => mul_le_mul_of_nonneg_left (h1 c c.2) (l0 c)
      _ = _ := by rw [← Finset.sum_mul, l1, one_mul]
  · obtain ⟨c, hc, e, -, -⟩ := (C130_support hp h s hn hm d).1
    rw [e]
    exact hm c hc i

/-! ## The overlap test -/

/-- **C141.** Any two of these shapes, in two dimensions or three, are given an answer; those which overlap so that one can be moved by `ρ` along every axis
are reported to overlap, if `ρ` is above the errors of the two support points and those of their difference; and those reported to be apart overlap by no
more than that along some direction. -/
theorem C141_overlap (hp : 1 ≤ p) (h : IsRound p rnd) (hN : N = 2 ∨ N = 3) {A B : Set (Fin N → K)} {supA supB : (Fin N → K) → Fin N → K} {δ m : K}
    (hA : Supports A supA δ m) (hB : Supports B supB δ m) (hδ : 0 ≤ δ) :
    ∃ r, overlapOf rnd supA supB = some r ∧
      (∀ ρ, (∀ v : Fin N → K, (∀ i, |v i| ≤ ρ) → ∃ x ∈ A, ∃ y ∈ B, x = y + v) → 2 * δ + 2 * ((1 + eps K p) ^ (N + 1) - 1) * m < ρ → r.hit = true) ∧
      (r.hit = false → ∃ d : Fin N → K, d ≠ 0 ∧ ∀ x ∈ A, ∀ y ∈ B, (x - y) ⬝ᵥ d ≤ (2 * δ + 2 * ((1 + eps K p) ^ (N + 1) - 1) * m) * ∑ i, |d i|) := by
  have e0 := eps_pos (K := K) p
  obtain ⟨lim, hl⟩ : ∃ lim, gjkLimit N = some lim := by
    rcases hN with rfl | rfl <;> exact ⟨_, rfl⟩
  obtain ⟨r, hr, -, -⟩ := C130_answer (rnd := rnd) supA supB lim (fun i => if (i : ℕ) = 0 then 1 else 0) ⟨fun _ => 0, 0⟩
  have i0 : (0 : ℕ) < N := by omega
  have m0 : 0 ≤ m := (abs_nonneg _).trans (hA.2 0 ⟨0, i0⟩)
  have hpos : 0 ≤ 2 * ((1 + eps K p) ^ (N + 1) - 1) * m :=
    mul_nonneg (mul_nonneg (by norm_num) (sub_nonneg.2 (one_le_pow₀ (by linarith)))) m0
  refine ⟨r, ?_, fun ρ hbox hρ => ?_, fun hh => ?_⟩
  · rw [overlapOf, hl, Option.bind_some, hr]
  · exact C130_overlap hp h _ hA.1 hB.1 hA.2 hB.2 hbox hρ (by linarith) _ _ _ hr
  · exact C130_apart hp h _ hA.1 hB.1 hA.2 hB.2 _ _ _ hr hh

/-! ## Without rounding the model is the exact one -/

omit [IsStrictOrderedRing K] [FloorRing K] in
/-- **C141.** Without rounding the support points are those of C50, C51 and C53. -/
theorem C141_exact (b : Ball K N) (c : Tube K N) (sup : (Fin N → K) → Fin N → K) (r : K) (d : Fin N → K) :
    ballSupport (fun x => x) sqrt b d = b.support sqrt d ∧ capsuleSupport (fun x => x) sqrt c d = c.capSupport sqrt d ∧
    dilatedSupport (fun x => x) sqrt sup r d = Shape.dilSupport sqrt sup r d := by
  refine ⟨?_, ?_, ?_⟩
  · rfl
  · rfl
  · rfl

omit [IsStrictOrderedRing K] [FloorRing K] in
/-- The test of C130 is this one, for simplexes. -/
theorem overlap_eq (A B : Simp K N) : overlap rnd A B = overlapOf rnd (simpSupport rnd A) (simpSupport rnd B) := rfl

/-! ## In `double` -/

/-- A root exact on the squares it is used for. -/
def root (x : ℚ) : ℚ := (x.num.toNat.sqrt : ℚ) / (x.den.sqrt : ℚ)

/-- A sphere, a capsule seen from either end and across, and a rectangle dilated. -/
example : ballSupport (nearest 53) root (⟨![1, 2], 10⟩ : Ball ℚ 2) ![0, 4] = some ![1, 12] ∧
    ballSupport (nearest 53) root (⟨![1, 2], 10⟩ : Ball ℚ 2) ![0, 0] = none ∧
    capsuleSupport (nearest 53) root (⟨![0, 0], ![4, 0], 5⟩ : Tube ℚ 2) ![3, 4] = ![7, 4] ∧
    capsuleSupport (nearest 53) root (⟨![0, 0], ![4, 0], 5⟩ : Tube ℚ 2) ![-3, 4] = ![-3, 4] ∧
    capsuleSupport (nearest 53) root (⟨![0, 0], ![4, 0], 5⟩ : Tube ℚ 2) ![0, 0] = ![4, 0] ∧
    dilatedSupport (nearest 53) root (⟨![0, 0], ![4, 2]⟩ : Box ℚ 2).support 1 ![0, -2] = some ![4, -1] := by
  decide +kernel

/-- A capsule and a rectangle that overlap, and a pair that do not. -/
example : (overlapOf (nearest 53) (capsuleSupport (nearest 53) root ⟨![0, 0], ![4, 0], 2⟩) (⟨![1, 1], ![6, 5]⟩ : Box ℚ 2).support).map (·.hit) = some true ∧
    (overlapOf (nearest 53) (capsuleSupport (nearest 53) root ⟨![0, 0], ![4, 0], 2⟩) (⟨![7, 1], ![9, 5]⟩ : Box ℚ 2).support).map (·.hit) = some false := by
  decide +kernel

end Geomc.Flt
