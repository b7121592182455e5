import Verif.Float.FrustumModel
import Verif.Float.Box
import Verif.Float.Range
import Verif.Shape.Frustum

/-! # Property C146: frustums in floating point -/

namespace Geomc.Flt

open Geomc.Rect (Box spanningCorners)
open Geomc.Shape (Height fruPts fruBounds fruContains IsHull)

variable {K : Type} [Field K] [LinearOrder K] [IsStrictOrderedRing K] [FloorRing K] {n p : ℕ} {rnd : K → K}

/-- **C146.** The containment test of a frustum compares the height without error, and asks the base about a point that is the exact projection but for one
rounding of each coordinate. -/
theorem C146_contains (hp : 1 ≤ p) (h : IsRound p rnd) (contains : (Fin n → K) → Bool) (g : Height K) (q : Fin (n + 1) → K) :
    ∃ y : Fin n → K, (∀ i, |y i - q i.castSucc / q (Fin.last n)| ≤ eps K p * |q i.castSucc / q (Fin.last n)|) ∧
      (frustumContains rnd contains g q = true ↔ g.lo ≤ q (Fin.last n) ∧ q (Fin.last n) ≤ g.hi ∧ (g.lo < 0 → 0 < g.hi → 0 ≤ q (Fin.last n)) ∧
        (q (Fin.last n) = 0 → q = 0) ∧ (q (Fin.last n) ≠ 0 → contains y = true)) := by
  refine ⟨fun i => rnd (q i.castSucc / q (Fin.last n)), fun i => h.rel hp _, ?_⟩
  have hc := Shape.clipped_iff g (q (Fin.last n))
  rw [frustumContains]
  by_cases h1 : g.clipped.contains (q (Fin.last n)) = true
  · rw [if_neg (by rw [h1]; decide)]
    rw [Shape.height_contains] at h1
    have h2 := hc.2 h1
    split_ifs with h3
    · simp only [decide_eq_true_eq]
      exact ⟨fun e => ⟨h2.1, h2.2.1, h2.2.2, fun _ => e, fun e' => absurd h3 e'⟩, fun e => e.2.2.2.1 h3⟩
    · exact ⟨fun e => ⟨h2.1, h2.2.1, h2.2.2, fun e' => absurd e' h3, fun _ => e⟩, fun e => e.2.2.2.2 h3⟩
  · rw [if_pos (by simpa using h1)]
    refine ⟨fun e => absurd e (by decide), fun e => absurd ?_ h1⟩
    rw [Shape.height_contains]
    exact hc.1 ⟨e.1, e.2.1, e.2.2.1⟩

/-- **C146.** Over a box of floating-point numbers every point of the frustum is reported to be in it, rounding notwithstanding; a point that is reported is in
the frustum over the box widened by one rounding error. -/
theorem C146_box (hp : 1 ≤ p) (h : IsRound p rnd) {b : Box K n} (hb : FloatBox p b) (g : Height K) (q : Fin (n + 1) → K) :
    (q ∈ fruPts b.pts g.lo g.hi → frustumContains rnd b.contains g q = true) ∧
    (frustumContains rnd b.contains g q = true → b.isEmpty = false →
      q ∈ fruPts {y | ∀ i, b.lo i - eps K p * |y i| ≤ y i ∧ y i ≤ b.hi i + eps K p * |y i|} g.lo g.hi) := by
  have e0 := eps_pos (K := K) p
  constructor
  · intro hq
    have hne : b.pts.Nonempty := by
      obtain ⟨y, hy, -⟩ := hq
      exact ⟨y, hy⟩
    have he := (Shape.C53_fru_contains b.pts hne b.contains g (fun y => (Rect.C45_contains b y).2.1) q).2 hq
    rw [fruContains] at he
    rw [frustumContains]
    split_ifs at he ⊢ with h1 h2
    · exact he
    · rw [(Rect.C45_contains b _).1] at he ⊢
      intro i
      have := Set.mem_Icc.1 (he i)
      simp only [Fin.init] at this ⊢
      refine Set.mem_Icc.2 ⟨?_, ?_⟩
      · have := h.mono this.1
        rwa [h.fix (hb i).1] at this
      · have := h.mono this.2
        rwa [h.fix (hb i).2] at this
  · intro hr hne
    obtain ⟨y, hy, hiff⟩ : ∃ y : Fin n → K, (∀ i, |y i - q i.castSucc / q (Fin.last n)| ≤ eps K p * |q i.castSucc / q (Fin.last n)|) ∧ _ :=
      C146_contains hp h b.contains g q
    obtain ⟨a1, a2, a3, a4, a5⟩ := hiff.1 hr
    by_cases hz : q (Fin.last n) = 0
    · have hq := a4 hz
      rw [Rect.not_empty_iff] at hne
      refine ⟨b.lo, fun i => ?_, q (Fin.last n), a1, a2, a3, ?_⟩
      · have : 0 ≤ eps K p * |b.lo i| := mul_nonneg e0.le (abs_nonneg _)
        exact ⟨by linarith, by linarith [hne i]⟩
      · rw [hq, Pi.zero_apply, zero_smul]
    · have hc := a5 hz
      rw [(Rect.C45_contains b _).1] at hc
      refine ⟨fun i => q i.castSucc / q (Fin.last n), fun i => ?_, q (Fin.last n), a1, a2, a3, ?_⟩
      · have h1 := Set.mem_Icc.1 (hc i)
        have h2 := abs_le.1 (hy i)
        exact ⟨by linarith, by linarith⟩
      · funext j
        refine Fin.lastCases ?_ (fun i => ?_) j
        · rw [Shape.smul_lift_last]
        · have e := congrFun (Shape.smul_lift_init (q (Fin.last n)) (fun i => q i.castSucc / q (Fin.last n)) 1) i
          rw [Fin.init] at e
          rw [e, Pi.smul_apply, smul_eq_mul, mul_div_cancel₀ _ hz]

/-- **C146** refuted: in `float` and in `double` a point outside of a frustum, with floating-point coordinates, is reported to be in it. -/
theorem C146_box_refuted : ∀ p ∈ [24, 53], ∃ q : Fin 2 → ℚ, (∀ i, nearest p (q i) = q i) ∧
    frustumContains (nearest p) (⟨![0], ![3/2]⟩ : Box ℚ 1).contains ⟨1, 2⟩ q = true ∧ q 0 / q 1 > 3 / 2 := by
  intro p hp
  refine ⟨![3/2 + 2 / 2 ^ (p - 1), 1 + 1 / 2 ^ (p - 1)], ?_⟩
  simp only [List.mem_cons, List.not_mem_nil, or_false] at hp
  rcases hp with rfl | rfl <;> decide +kernel

/-! ## Bounds -/

theorem bounds_round (h : IsRound p rnd) (b : Box K n) (g : Height K) (i : Fin n) :
    (frustumBounds rnd b g).lo i.castSucc = rnd ((fruBounds b g).lo i.castSucc) ∧ (frustumBounds rnd b g).hi i.castSucc = rnd ((fruBounds b g).hi i.castSucc) := by
  have e : i.castSucc = Fin.castAdd 1 i := rfl
  simp only [frustumBounds, fruBounds, Box.prod, e, Fin.append_left, Box.union, boxScale, Box.scale, spanningCorners, Rect.vmin_apply, Rect.vmax_apply,
    Pi.mul_apply, h.mono.map_min, h.mono.map_max, and_self]

theorem bounds_last (b : Box K n) (g : Height K) :
    (frustumBounds rnd b g).lo (Fin.last n) = (fruBounds b g).lo (Fin.last n) ∧ (frustumBounds rnd b g).hi (Fin.last n) = (fruBounds b g).hi (Fin.last n) := by
  have e : Fin.last n = Fin.natAdd n (0 : Fin 1) := rfl
  simp only [frustumBounds, fruBounds, Box.prod, e, Fin.append_right, and_self]

/-- **C146.** The bounds of a frustum contain all of its points with floating-point coordinates, without allowance for rounding; and every face is the
rounded face of the smallest box around the frustum. -/
theorem C146_bounds (hp : 1 ≤ p) (h : IsRound p rnd) (S : Set (Fin n → K)) (hS : S.Nonempty) (b : Box K n) (hb : IsHull S b) (g : Height K) (hg : g.lo ≤ g.hi) :
    (∀ q ∈ fruPts S g.lo g.hi, (∀ i, IsFloat p (q i)) → q ∈ (frustumBounds rnd b g).pts) ∧
    ∃ r, IsHull (fruPts S g.lo g.hi) r ∧ ∀ i, |(frustumBounds rnd b g).lo i - r.lo i| ≤ eps K p * |r.lo i| ∧
      |(frustumBounds rnd b g).hi i - r.hi i| ≤ eps K p * |r.hi i| := by
  have e0 := eps_pos (K := K) p
  have hull := Shape.C53_fru_bounds S hS b g hg hb
  refine ⟨fun q hq hf => ?_, _, hull, fun j => ?_⟩
  · have hm := Rect.mem_pts.1 (hull.1 hq)
    rw [Rect.mem_pts]
    intro j
    refine Fin.lastCases ?_ (fun i => ?_) j
    · rw [(bounds_last b g).1, (bounds_last b g).2]
      exact hm _
    · rw [(bounds_round h b g i).1, (bounds_round h b g i).2, ← h.fix (hf i.castSucc)]
      exact ⟨h.mono (hm _).1, h.mono (hm _).2⟩
  · refine Fin.lastCases ?_ (fun i => ?_) j
    · rw [(bounds_last b g).1, (bounds_last b g).2, sub_self, sub_self, abs_zero]
      exact ⟨mul_nonneg e0.le (abs_nonneg _), mul_nonneg e0.le (abs_nonneg _)⟩
    · rw [(bounds_round h b g i).1, (bounds_round h b g i).2]
      exact ⟨h.rel hp _, h.rel hp _⟩

omit [IsStrictOrderedRing K] [FloorRing K] in
/-- **C146.** Without rounding the model is that of C53. -/
theorem C146_exact (contains : (Fin n → K) → Bool) (b : Box K n) (g : Height K) (q : Fin (n + 1) → K) :
    frustumContains (fun x => x) contains g q = fruContains contains g q ∧ frustumBounds (fun x => x) b g = fruBounds b g := ⟨rfl, rfl⟩

/-- In `double`: a frustum over a square from height one to height three, points in it and beside it, and the bounds of it and of one below the tip. -/
example :
    let b : Box ℚ 2 := ⟨![-1, 0], ![1, 1/3]⟩
    frustumContains (nearest 53) b.contains ⟨1, 3⟩ ![3, 1/2, 3] = true ∧ frustumContains (nearest 53) b.contains ⟨1, 3⟩ ![3, 2, 3] = false ∧
    frustumContains (nearest 53) b.contains ⟨-1, 3⟩ ![0, 0, 0] = true ∧ frustumContains (nearest 53) b.contains ⟨-1, 3⟩ ![0, 0, -1] = false ∧
    frustumBounds (nearest 53) (⟨![-1, 0], ![1, 1/4]⟩ : Box ℚ 2) ⟨1, 3⟩ = ⟨![-3, 0, 1], ![3, 3/4, 3]⟩ ∧
    frustumBounds (nearest 53) (⟨![-1, 0], ![1, 1/4]⟩ : Box ℚ 2) ⟨-3, -1⟩ = ⟨![-3, -3/4, -3], ![3, 0, -1]⟩ := by
  decide +kernel

end Geomc.Flt
