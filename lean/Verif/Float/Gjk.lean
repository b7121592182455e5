import Verif.Float.GjkModel
import Verif.Float.Dist
import Verif.Float.Simplex
import Verif.Shape.Gjk

/-! # Property C130: the GJK overlap test in floating point -/

namespace Geomc.Flt

open Geomc.Shape (Simp Face POp PRes GRes GStep gjkLimit)
open Finset (sum_le_sum sum_nonneg)

/-! ## Without rounding the model is that of `Verif.Shape.GjkModel` -/

section Exact

variable {K : Type} [Field K] [LinearOrder K] {N : ℕ}

omit [LinearOrder K] in
theorem cross_id (u v : Fin 3 → K) : cross (fun x => x) u v = Vec.cross u v := by
  funext i
  fin_cases i <;> simp [cross, Vec.cross, diffOfProducts, Duals.diffOfProducts]

theorem orthogonal_id (hN : N = 2 ∨ N = 3) (v : ℕ → Fin N → K) : Shape.orthogonalAny N v = some (orthogonalF (fun x => x) N v) := by
  rcases hN with rfl | rfl
  · rfl
  · rw [orthogonalF, cross_id]
    rfl

theorem exclude_id (hN : N = 2 ∨ N = 3) (f : Face K N) (i : ℕ) : f.exclude i = some (faceExclude (fun x => x) f i) := by
  have hw : ∀ (g : Face K N) e, g.withNormal e = some (faceNormal (fun x => x) g e) := fun g e => by
    rw [Face.withNormal, faceNormal]
    by_cases h0 : 0 < g.n
    · rw [if_pos h0, if_pos h0, orthogonal_id hN]
      rfl
    · rw [if_neg h0, if_neg h0]
  rw [Face.exclude, faceExclude]
  by_cases h : i < f.n
  · rw [if_pos h, if_pos h, hw]
  · rw [if_neg h, if_neg h, hw]
    rfl

theorem projectTo_id (hN : N = 2 ∨ N = 3) (s : Simp K N) (f : Face K N) (p toP : Fin N → K) :
    projectToFaceF (fun x => x) s f p toP = Shape.projectToFace s f p toP := by
  rw [projectToFaceF, Shape.projectToFace, if_neg (show ¬ N > 3 by omega)]
  rfl

theorem findEnd_id (hN : N = 2 ∨ N = 3) (s : Simp K N) (p : Fin N → K) (op : POp) (f : Face K N) (toP : Fin N → K) (back inside : Bool) (r : PRes K N) :
    findEndF (fun x => x) s p op f toP back inside r = Shape.findEnd s p op f toP back inside r := by
  rw [findEndF, Shape.findEnd]
  simp only [projectTo_id hN]
  rfl

theorem foldlM_some {α β : Type} (g : β → α → Option β) (g' : β → α → β) (h : ∀ x i, g x i = some (g' x i)) (l : List α) (x : β) :
    l.foldlM g x = some (l.foldl g' x) := by
  induction l generalizing x with
  | nil => rfl
  | cons a l ih => rw [List.foldlM_cons, h, List.foldl_cons]; exact ih _

theorem find_id (hN : N = 2 ∨ N = 3) (s : Simp K N) (p : Fin N → K) (op : POp) (skip : Bool) (n : ℕ) :
    ∀ (f : Face K N) (toP : Fin N → K) (depth : ℕ) (r : PRes K N),
      Shape.findFace s p op skip n f toP depth r = some (findFaceF (fun x => x) s p op skip n f toP depth r) := by
  induction n with
  | zero =>
    intro f toP depth r
    rw [Shape.findFace, findFaceF]
    simp only [findEnd_id hN]
    rw [show Vec.dot f.normal toP = dot (fun x => x) f.normal toP from rfl]
    split_ifs <;> rfl
  | succ n ih =>
    intro f toP depth r
    rw [Shape.findFace, findFaceF]
    simp only [findEnd_id hN]
    rw [show Vec.dot f.normal toP = dot (fun x => x) f.normal toP from rfl, foldlM_some _ (fun (x : PRes K N × Bool) i =>
        let sub' := faceExclude (fun x => x) f i
        let toSub := if i = f.n then sub (fun x => x) toP (f.bases (i - 1)) else toP
        if mag2 (fun x => x) sub'.normal = 0 then ({ x.1 with degenerate := true }, x.2)
        else
          let y := findFaceF (fun x => x) s p op skip n sub' toSub (depth + 1) x.1
          (y.1, if y.2 then x.2 else false))]
    · by_cases h1 : (decide (depth > 0) && decide (dot (fun x => x) f.normal toP < 0)) = true ∧ op = .project ∧ depth = 1 ∧ f.n = N - 1
      · rw [if_pos h1, if_pos h1]
      · rw [if_neg h1, if_neg h1]
        by_cases h2 : (decide (depth > 0) && decide (dot (fun x => x) f.normal toP < 0)) = true
        · rw [if_pos h2, if_pos h2]
        · rw [if_neg h2, if_neg h2]
          rfl
    · intro x i
      rw [exclude_id hN, Option.bind_some]
      simp only [ih]
      rw [show Vec.mag2 (faceExclude (fun x => x) f i).normal = mag2 (fun x => x) (faceExclude (fun x => x) f i).normal from rfl]
      by_cases h1 : mag2 (fun x => x) (faceExclude (fun x => x) f i).normal = 0
      · rw [if_pos h1, if_pos h1]
      · rw [if_neg h1, if_neg h1]
        rfl

theorem normalDirection_id (hN : N = 2 ∨ N = 3) (s : Simp K N) (p : Fin N → K) (r : PRes K N) :
    normalDirectionF (fun x => x) s p r = Shape.normalDirection s p r := by
  have he : ∀ v toP other : Fin N → K, edgeNormalF (fun x => x) N v toP other = Shape.edgeNormal N v toP other := by
    rcases hN with rfl | rfl
    · intro v toP other
      rfl
    · intro v toP other
      rw [edgeNormalF, Shape.edgeNormal, cross_id, cross_id]
  rw [normalDirectionF, Shape.normalDirection, he]
  rfl

theorem nearestFace_id (hN : N = 2 ∨ N = 3) (s : Simp K N) (hs : s.n ≤ N + 1) :
    nearestFace (fun x => x) s = (Shape.projectSimplex s 0 .clip true).bind fun r =>
      if r.found = false then none else some (Shape.projectedFace s r, Shape.normalDirection s 0 r) := by
  have hf : Face.ofSimp s (decide (s.n > 2)) = some (faceOf (fun x => x) s (decide (s.n > 2))) := by
    rw [Face.ofSimp, faceOf]
    simp only [decide_eq_true_eq]
    by_cases hc : s.n - 1 < N ∧ s.n > 2
    · rw [if_pos hc, if_pos hc]
      obtain rfl : N = 3 := by omega
      rw [Shape.nullspaceAny, if_neg (by omega), if_pos (by omega), orthogonal_id (Or.inr rfl)]
      rfl
    · rw [if_neg hc, if_neg hc]
      rfl
  rw [nearestFace, projectSimplexF, Shape.projectSimplex]
  by_cases h0 : s.n = 0
  · rw [if_pos h0, if_pos h0]
    rfl
  · rw [if_neg h0, if_neg h0, hf]
    simp only [Option.bind_some, find_id hN, Option.map_some, normalDirection_id hN]
    rfl

theorem insert_le {s : Simp K N} (hs : s.n ≤ N + 1) (a : Fin N → K) : (s.insert a).n ≤ N + 1 := by
  rw [Simp.insert]
  split_ifs with h
  · exact h
  · exact hs

/-- **C130.** If nothing were rounded the test would be that of C57 and C79. -/
theorem C130_exact (hN : N = 2 ∨ N = 3) (supA supB : (Fin N → K) → Fin N → K) (maxIt : ℕ) (axis : Fin N → K) (buffer : Simp K N) :
    gjkF (fun x => x) (nearestFace (fun x => x)) supA supB maxIt axis buffer = Shape.gjk supA supB maxIt axis buffer := by
  have step : ∀ cur d, cur.n ≤ N + 1 → gjkStepF (fun x => x) (nearestFace (fun x => x)) supA supB cur d = Shape.gjkStep supA supB cur d := by
    intro cur d hcur
    rw [gjkStepF, Shape.gjkStep]
    simp only
    rw [nearestFace_id hN _ (insert_le hcur _)]
    rw [show sub (fun x => x) (supA d) (supB (-d)) = supA d - supB (-d) from rfl,
      show dot (fun x => x) (supA d - supB (-d)) d = Vec.dot (supA d - supB (-d)) d from rfl]
    split_ifs
    · rfl
    · cases Shape.projectSimplex (cur.insert (supA d - supB (-d))) 0 .clip true with
      | none => rfl
      | some r =>
        simp only [Option.bind_some]
        by_cases hr : r.found = false
        · rw [if_pos hr, if_pos hr]
          rfl
        · rw [if_neg hr, if_neg hr, Option.map_some]
          split_ifs <;> rfl
  have small : ∀ cur d s d', cur.n ≤ N + 1 → Shape.gjkStep supA supB cur d = some (.next s d') → s.n ≤ N + 1 := by
    intro cur d s d' hcur hs
    rw [Shape.gjkStep] at hs
    simp only at hs
    by_cases hk : Vec.dot (supA d - supB (-d)) d < 0 ∨ supA d - supB (-d) = cur.pts (cur.n - 1)
    · rw [if_pos hk] at hs
      cases hs
    rw [if_neg hk] at hs
    have h1 : 1 ≤ (cur.insert (supA d - supB (-d))).n := by
      rw [Simp.insert]
      split_ifs with h
      · exact Nat.succ_pos _
      · omega
    obtain ⟨r, er, hf, hn⟩ := Shape.project_some hN _ h1 (insert_le hcur (supA d - supB (-d))) 0 true
    rw [er, Option.bind_some, if_neg (by rw [hf]; simp)] at hs
    by_cases hz : (Shape.projectedFace (cur.insert (supA d - supB (-d))) r).n = N + 1 ∨ Shape.normalDirection (cur.insert (supA d - supB (-d))) 0 r = 0
    · rw [if_pos hz] at hs
      cases hs
    rw [if_neg hz] at hs
    cases hs
    exact le_trans (show r.face.n + 1 ≤ _ from hn) (insert_le hcur _)
  have loop : ∀ left it cur d, cur.n ≤ N + 1 →
      gjkLoopF (fun x => x) (nearestFace (fun x => x)) supA supB axis left it cur d = Shape.gjkLoop supA supB axis left it cur d := by
    intro left
    induction left with
    | zero =>
      intro it cur d hc
      rw [gjkLoopF, Shape.gjkLoop, step _ _ hc]
      rfl
    | succ left ih =>
      intro it cur d hc
      rw [gjkLoopF, Shape.gjkLoop, step _ _ hc]
      cases e : Shape.gjkStep supA supB cur d with
      | none => rfl
      | some g =>
        cases g with
        | done => rfl
        | next s d' =>
          simp only [Option.bind_some]
          rw [ih _ _ _ (small _ _ _ _ hc e)]
          rfl
  exact loop _ _ _ _ (insert_le (Nat.zero_le _) _)

end Exact

variable {K : Type} [Field K] [LinearOrder K] [IsStrictOrderedRing K] [FloorRing K] {N p : ℕ} {rnd : K → K}

/-! ## Reports that the shapes are apart -/

/-- A report that the shapes are apart comes from a round. -/
theorem miss_round (proj : Simp K N → Option (Simp K N × (Fin N → K))) (supA supB : (Fin N → K) → Fin N → K) (axis : Fin N → K) :
    ∀ (left it : ℕ) (cur : Simp K N) (d : Fin N → K) (r : GRes K N), gjkLoopF rnd proj supA supB axis left it cur d = some r → r.hit = false →
      ∃ d, dot rnd (sub rnd (supA d) (supB (-d))) d < 0 := by
  have step : ∀ (cur : Simp K N) d h ax, gjkStepF rnd proj supA supB cur d = some (.done h ax) → h = false →
      ∃ d, dot rnd (sub rnd (supA d) (supB (-d))) d < 0 := by
    intro cur d h ax hs hh
    rw [gjkStepF] at hs
    by_cases hk : dot rnd (sub rnd (supA d) (supB (-d))) d < 0 ∨ sub rnd (supA d) (supB (-d)) = cur.pts (cur.n - 1)
    · rw [if_pos hk] at hs
      simp only [Option.some.injEq, GStep.done.injEq] at hs
      rw [hh] at hs
      exact ⟨d, not_le.1 (of_decide_eq_false hs.1)⟩
    · rw [if_neg hk, Option.map_eq_some_iff] at hs
      obtain ⟨x, -, hx⟩ := hs
      split_ifs at hx
      cases hx
      cases hh
  intro left
  induction left with
  | zero =>
    intro it cur d r hr hh
    rw [gjkLoopF, Option.map_eq_some_iff] at hr
    obtain ⟨g, hg, hr⟩ := hr
    cases g with
    | done h ax =>
      cases hr
      exact step _ _ _ _ hg hh
    | next s d' =>
      cases hr
      cases hh
  | succ left ih =>
    intro it cur d r hr hh
    rw [gjkLoopF, Option.bind_eq_some_iff] at hr
    obtain ⟨g, hg, hr⟩ := hr
    cases g with
    | done h ax =>
      simp only [Option.some.injEq] at hr
      subst hr
      exact step _ _ _ _ hg hh
    | next s d' =>
      simp only at hr
      split_ifs at hr
      · cases hr
        cases hh
      · exact ih _ _ _ _ hr hh

omit [FloorRing K] in
theorem sum_abs_mul_le {u d : Fin N → K} {m : K} (hu : ∀ i, |u i| ≤ m) : ∑ i, |u i * d i| ≤ m * ∑ i, |d i| := by
  rw [Finset.mul_sum]
  refine sum_le_sum fun i _ => ?_
  rw [abs_mul]
  exact mul_le_mul_of_nonneg_right (hu i) (abs_nonneg _)

/-- The computed product of a difference and a direction. -/
theorem gap_near (hp : 1 ≤ p) (h : IsRound p rnd) {x y d : Fin N → K} {m : K} (hx : ∀ i, |x i| ≤ m) (hy : ∀ i, |y i| ≤ m) :
    |dot rnd (sub rnd x y) d - (x - y) ⬝ᵥ d| ≤ 2 * ((1 + eps K p) ^ (N + 1) - 1) * m * ∑ i, |d i| := by
  have e0 := eps_pos (K := K) p
  have h1 : ∀ i, Near (eps K p) 1 (sub rnd x y i * d i) ((x - y) i * d i) |(x - y) i * d i| := fun i => by
    rw [abs_mul]
    exact ((Near.refl (eps K p) ((x - y) i)).round hp h le_rfl).mul e0.le (Near.refl (eps K p) (d i))
  have h2 := sum_near (c := (1 + eps K p) ^ N) (one_le_pow₀ (by linarith)) h1 (C104_dot hp h (sub rnd x y) d)
  rw [← pow_add, add_comm 1 N] at h2
  refine h2.trans ?_
  have h3 : ∀ i, |(x - y) i| ≤ 2 * m := fun i => by
    refine (abs_sub _ _).trans ?_
    linarith [hx i, hy i]
  have h4 := mul_le_mul_of_nonneg_left (sum_abs_mul_le (d := d) h3) (sub_nonneg.2 (one_le_pow₀ (n := N + 1) (show 1 ≤ 1 + eps K p by linarith)))
  linarith

/-- **C130.** Shapes reported to be apart overlap by no more than rounding along some direction; however the faces in between are computed, in every dimension
and for every pair of shapes with support functions that are right up to `δ`. -/
theorem C130_apart (hp : 1 ≤ p) (h : IsRound p rnd) (proj : Simp K N → Option (Simp K N × (Fin N → K))) {supA supB : (Fin N → K) → Fin N → K}
    {A B : Set (Fin N → K)} {m δ : K} (hA : ∀ d, ∀ x ∈ A, x ⬝ᵥ d ≤ supA d ⬝ᵥ d + δ * ∑ i, |d i|) (hB : ∀ d, ∀ x ∈ B, x ⬝ᵥ d ≤ supB d ⬝ᵥ d + δ * ∑ i, |d i|)
    (mA : ∀ d i, |supA d i| ≤ m) (mB : ∀ d i, |supB d i| ≤ m) (maxIt : ℕ) (axis : Fin N → K) (buffer : Simp K N) {r : GRes K N}
    (hr : gjkF rnd proj supA supB maxIt axis buffer = some r) (hh : r.hit = false) :
    ∃ d : Fin N → K, d ≠ 0 ∧ ∀ x ∈ A, ∀ y ∈ B, (x - y) ⬝ᵥ d ≤ (2 * δ + 2 * ((1 + eps K p) ^ (N + 1) - 1) * m) * ∑ i, |d i| := by
  obtain ⟨d, hd⟩ := miss_round proj supA supB axis _ _ _ _ _ hr hh
  have hg := abs_le.1 (gap_near hp h (x := supA d) (y := supB (-d)) (d := d) (mA d) (mB (-d)))
  refine ⟨d, ?_, fun x hx y hy => ?_⟩
  · rintro rfl
    have := C104_dot hp h (sub rnd (supA 0) (supB (-0))) 0
    simp only [Pi.zero_apply, mul_zero, Finset.sum_const_zero, abs_zero, sub_zero, abs_nonpos_iff] at this
    exact absurd hd (by rw [this]; exact lt_irrefl _)
  · have a1 := hA d x hx
    have a2 := hB (-d) y hy
    simp only [dotProduct_neg, Pi.neg_apply, abs_neg] at a2
    rw [sub_dotProduct] at hg ⊢
    linarith [hg.1]

/-- **C130.** Shapes that overlap by more than rounding, so that they still do if one of them is moved by up to `ρ` along every axis, are not reported to be
apart; however the faces in between are computed, in every dimension. -/
theorem C130_overlap (hp : 1 ≤ p) (h : IsRound p rnd) (proj : Simp K N → Option (Simp K N × (Fin N → K))) {supA supB : (Fin N → K) → Fin N → K}
    {A B : Set (Fin N → K)} {m δ ρ : K} (hA : ∀ d, ∀ x ∈ A, x ⬝ᵥ d ≤ supA d ⬝ᵥ d + δ * ∑ i, |d i|) (hB : ∀ d, ∀ x ∈ B, x ⬝ᵥ d ≤ supB d ⬝ᵥ d + δ * ∑ i, |d i|)
    (mA : ∀ d i, |supA d i| ≤ m) (mB : ∀ d i, |supB d i| ≤ m) (hbox : ∀ v : Fin N → K, (∀ i, |v i| ≤ ρ) → ∃ x ∈ A, ∃ y ∈ B, x = y + v)
    (hρ : 2 * δ + 2 * ((1 + eps K p) ^ (N + 1) - 1) * m < ρ) (ρ0 : 0 ≤ ρ) (maxIt : ℕ) (axis : Fin N → K) (buffer : Simp K N) {r : GRes K N}
    (hr : gjkF rnd proj supA supB maxIt axis buffer = some r) : r.hit = true := by
  by_contra hc
  rw [Bool.not_eq_true] at hc
  obtain ⟨d, d0, hd⟩ := C130_apart hp h proj hA hB mA mB maxIt axis buffer hr hc
  obtain ⟨x, hx, y, hy, e⟩ := hbox (fun i => if 0 ≤ d i then ρ else -ρ) fun i => by
    split_ifs
    · rw [abs_of_nonneg ρ0]
    · rw [abs_neg, abs_of_nonneg ρ0]
  have h1 := hd x hx y hy
  have h2 : (x - y) ⬝ᵥ d = ρ * ∑ i, |d i| := by
    rw [e, add_sub_cancel_left, dotProduct, Finset.mul_sum]
    refine Finset.sum_congr rfl fun i _ => ?_
    split_ifs with hi
    · rw [abs_of_nonneg hi]
    · rw [abs_of_neg (not_le.1 hi)]
      ring
  have h3 : 0 < ∑ i, |d i| := by
    obtain ⟨i, hi⟩ := Function.ne_iff.1 d0
    exact Finset.sum_pos' (fun i _ => abs_nonneg _) ⟨i, Finset.mem_univ i, abs_pos.2 hi⟩
  rw [h2] at h1
  exact absurd (le_of_mul_le_mul_right h1 h3) (not_le.2 hρ)

/-! ## Simplexes -/

/-- **C130.** The point of a simplex farthest along a direction is found up to rounding; it is a vertex, the first of those with
the largest computed product. -/
theorem C130_support (hp : 1 ≤ p) (h : IsRound p rnd) (s : Simp K N) (hn : 1 ≤ s.n) {m : K} (hm : ∀ c < s.n, ∀ i, |s.pts c i| ≤ m) (d : Fin N → K) :
    (∃ c < s.n, simpSupport rnd s d = s.pts c ∧ (∀ j < s.n, dot rnd (s.pts j) d ≤ dot rnd (s.pts c) d) ∧
      ∀ j < c, dot rnd (s.pts j) d < dot rnd (s.pts c) d) ∧
    ∀ c < s.n, s.pts c ⬝ᵥ d ≤ simpSupport rnd s d ⬝ᵥ d + 2 * ((1 + eps K p) ^ N - 1) * m * ∑ i, |d i| := by
  have e0 := eps_pos (K := K) p
  have key : ∀ k, ∃ c ≤ k, (List.range k).foldl (fun (o : (Fin N → K) × K) i =>
      let t := dot rnd (s.pts (i + 1)) d
      if t > o.2 then (s.pts (i + 1), t) else o) (s.pts 0, dot rnd (s.pts 0) d) = (s.pts c, dot rnd (s.pts c) d) ∧
      (∀ j ≤ k, dot rnd (s.pts j) d ≤ dot rnd (s.pts c) d) ∧ ∀ j < c, dot rnd (s.pts j) d < dot rnd (s.pts c) d := by
    intro k
    induction k with
    | zero => exact ⟨0, le_rfl, rfl, fun j hj => by rw [Nat.le_zero.1 hj], fun j hj => absurd hj (Nat.not_lt_zero j)⟩
    | succ k ih =>
      obtain ⟨c, hc, e, hmax, hfst⟩ := ih
      rw [List.range_succ, List.foldl_append, e]
      simp only [List.foldl_cons, List.foldl_nil]
      by_cases ht : dot rnd (s.pts (k + 1)) d > dot rnd (s.pts c) d
      · refine ⟨k + 1, le_rfl, by rw [if_pos ht], fun j hj => ?_, fun j hj => (hmax j (by omega)).trans_lt ht⟩
        rcases Nat.lt_or_ge j (k + 1) with h1 | h1
        · exact (hmax j (by omega)).trans ht.le
        · rw [show j = k + 1 by omega]
      · refine ⟨c, by omega, by rw [if_neg ht], fun j hj => ?_, hfst⟩
        rcases Nat.lt_or_ge j (k + 1) with h1 | h1
        · exact hmax j (by omega)
        · rw [show j = k + 1 by omega]
          exact not_lt.1 ht
  obtain ⟨c, hc, e, hmax, hfst⟩ := key (s.n - 1)
  have hs : simpSupport rnd s d = s.pts c := by rw [simpSupport, e]
  have near : ∀ j < s.n, |dot rnd (s.pts j) d - s.pts j ⬝ᵥ d| ≤ ((1 + eps K p) ^ N - 1) * m * ∑ i, |d i| := fun j hj => by
    refine (C104_dot hp h (s.pts j) d).trans ?_
    rw [mul_assoc]
    exact mul_le_mul_of_nonneg_left (sum_abs_mul_le (hm j hj)) (sub_nonneg.2 (one_le_pow₀ (show 1 ≤ 1 + eps K p by linarith)))
  refine ⟨⟨c, by omega, hs, fun j hj => hmax j (by omega), hfst⟩, fun j hj => ?_⟩
  rw [hs]
  have h1 := abs_le.1 (near j hj)
  have h2 := abs_le.1 (near c (by omega))
  linarith [hmax j (by omega), h1.1, h2.2]

omit [IsStrictOrderedRing K] [FloorRing K] in
theorem findEnd_found (s : Simp K N) (q : Fin N → K) (f : Face K N) (toP : Fin N → K) (back inside : Bool) (r : PRes K N)
    (h : inside = true ∨ r.found = true) : (findEndF rnd s q .clip f toP back inside r).1.found = true := by
  rw [findEndF]
  simp only
  by_cases h1 : inside = true
  · rw [if_pos h1]
    by_cases h2 : f.n < N
    · rw [if_pos h2]
      exact Shape.update_found _ _ _ _ _
    · rw [if_neg h2, if_pos trivial]
      exact Shape.update_found _ _ _ _ _
  · rw [if_neg h1]
    exact h.resolve_left h1

/-- There is always an answer. -/
theorem nearestFace_some (s : Simp K N) (hn : 1 ≤ s.n) : ∃ r, nearestFace rnd s = some r := by
  have fnd : ∀ (n : ℕ) (f : Face K N) (toP : Fin N → K) (depth : ℕ) (r : PRes K N),
      (depth = 0 → (findFaceF rnd s 0 .clip true n f toP depth r).2 = false) ∧
      ((findFaceF rnd s 0 .clip true n f toP depth r).2 = false ∨ r.found = true → (findFaceF rnd s 0 .clip true n f toP depth r).1.found = true) := by
    intro n
    induction n with
    | zero =>
      intro f toP depth r
      rw [findFaceF]
      simp only [reduceCtorEq, false_and, and_false, if_false]
      split_ifs with hb
      · refine ⟨fun h => ?_, fun h => h.resolve_left (by simp)⟩
        rw [h] at hb
        simp at hb
      · exact ⟨fun _ => rfl, fun _ => Shape.update_found _ _ _ _ _⟩
    | succ n ih =>
      intro f toP depth r
      rw [findFaceF]
      simp only [reduceCtorEq, false_and, and_false, if_false]
      by_cases hb : (decide (depth > 0) && decide (dot rnd f.normal toP < 0)) = true
      · rw [if_pos hb]
        refine ⟨fun h => ?_, fun h => h.resolve_left (by simp)⟩
        rw [h] at hb
        simp at hb
      · rw [if_neg hb]
        have hinv : ∀ (l : List ℕ) (x : PRes K N × Bool), (x.2 = false ∨ r.found = true → x.1.found = true) →
            (let y := l.foldl (fun (x : PRes K N × Bool) i =>
              if mag2 rnd (faceExclude rnd f i).normal = 0 then ({ x.1 with degenerate := true }, x.2)
              else ((findFaceF rnd s 0 .clip true n (faceExclude rnd f i) (if i = f.n then sub rnd toP (f.bases (i - 1)) else toP) (depth + 1) x.1).1,
                if (findFaceF rnd s 0 .clip true n (faceExclude rnd f i) (if i = f.n then sub rnd toP (f.bases (i - 1)) else toP) (depth + 1) x.1).2 = true
                  then x.2 else false)) x
            y.2 = false ∨ r.found = true → y.1.found = true) := by
          intro l
          induction l with
          | nil => exact fun x hx => hx
          | cons i l il =>
            intro x hx
            rw [List.foldl_cons]
            refine il _ ?_
            by_cases h1 : mag2 rnd (faceExclude rnd f i).normal = 0
            · rw [if_pos h1]
              exact hx
            · rw [if_neg h1]
              intro hy
              refine (ih _ _ _ _).2 ?_
              simp only at hy
              cases e : (findFaceF rnd s 0 .clip true n (faceExclude rnd f i) (if i = f.n then sub rnd toP (f.bases (i - 1)) else toP) (depth + 1) x.1).2 with
              | false => exact Or.inl rfl
              | true =>
                rw [e, if_pos rfl] at hy
                exact Or.inr (hx hy)
        have hy := hinv (List.range (f.n + 0)) (r, true) (fun h => h.resolve_left (by simp))
        simp only at hy
        refine ⟨fun _ => by simpa [findEndF] using hb, fun _ => ?_⟩
        refine findEnd_found _ _ _ _ _ _ _ ?_
        rw [if_pos trivial]
        exact (Bool.eq_false_or_eq_true _).imp id fun e => hy (Or.inl e)
  rw [nearestFace, projectSimplexF, if_neg (by omega), Option.bind_some]
  have := (fnd (faceOf rnd s (decide (s.n > 2))).n (faceOf rnd s (decide (s.n > 2))) (sub rnd 0 (s.pts (s.n - 1))) 0 (PRes.init 0))
  rw [if_neg (by rw [this.2 (Or.inl (this.1 rfl))]; simp)]
  exact ⟨_, rfl⟩

/-- The simplex of the loop is never empty. -/
theorem insert_pos {s : Simp K N} (hs : 1 ≤ s.n) (a : Fin N → K) : 1 ≤ (s.insert a).n := by
  rw [Simp.insert]
  split_ifs
  · exact Nat.succ_pos _
  · exact hs

/-- The loop comes to an end with an answer. -/
theorem loop_some (supA supB : (Fin N → K) → Fin N → K) (axis : Fin N → K) :
    ∀ (left it : ℕ) (cur : Simp K N) (d : Fin N → K), 1 ≤ cur.n →
      ∃ r, gjkLoopF rnd (nearestFace rnd) supA supB axis left it cur d = some r ∧ it ≤ r.iterations ∧ r.iterations ≤ it + left := by
  have step : ∀ (cur : Simp K N) d, 1 ≤ cur.n → ∃ g, gjkStepF rnd (nearestFace rnd) supA supB cur d = some g ∧ ∀ s d', g = .next s d' → 1 ≤ s.n := by
    intro cur d hc
    rw [gjkStepF]
    split_ifs with hk
    · exact ⟨_, rfl, by simp⟩
    · obtain ⟨x, hx⟩ := nearestFace_some (rnd := rnd) (cur.insert (sub rnd (supA d) (supB (-d)))) (insert_pos hc _)
      rw [hx, Option.map_some]
      refine ⟨_, rfl, fun s d' he => ?_⟩
      split_ifs at he
      cases he
      rw [nearestFace, Option.bind_eq_some_iff] at hx
      obtain ⟨r, -, hr⟩ := hx
      split_ifs at hr
      cases hr
      exact Nat.succ_pos _
  intro left
  induction left with
  | zero =>
    intro it cur d hc
    obtain ⟨g, hg, -⟩ := step cur d hc
    rw [gjkLoopF, hg, Option.map_some]
    cases g <;> exact ⟨_, rfl, le_rfl, le_rfl⟩
  | succ left ih =>
    intro it cur d hc
    obtain ⟨g, hg, hs⟩ := step cur d hc
    rw [gjkLoopF, hg, Option.bind_some]
    cases g with
    | done h ax => exact ⟨_, rfl, le_rfl, Nat.le_add_right _ _⟩
    | next s d' =>
      simp only
      split_ifs
      · exact ⟨_, rfl, le_rfl, Nat.le_add_right _ _⟩
      · obtain ⟨r, hr, h1, h2⟩ := ih (it + 1) s d' (hs s d' rfl)
        exact ⟨r, hr, by omega, by omega⟩

/-- **C130.** Whatever is computed, the test comes to an end within its limit of iterations and gives an answer. -/
theorem C130_answer (supA supB : (Fin N → K) → Fin N → K) (maxIt : ℕ) (axis : Fin N → K) (buffer : Simp K N) :
    ∃ r, gjkF rnd (nearestFace rnd) supA supB maxIt axis buffer = some r ∧ 1 ≤ r.iterations ∧ r.iterations ≤ 1 + maxIt := by
  refine loop_some supA supB axis maxIt 1 _ _ ?_
  rw [Simp.insert]
  split_ifs with h
  · exact Nat.succ_pos _
  · simp only at h
    omega

/-- The points of a simplex. -/
def HullOf (s : Simp K N) : Set (Fin N → K) :=
  {x | ∃ l : Fin s.n → K, (∀ c, 0 ≤ l c) ∧ ∑ c, l c = 1 ∧ ∀ i, x i = ∑ c, l c * s.pts c i}

/-- **C130.** Two simplexes, of any number of vertices in two dimensions or three, which overlap so that one of them can be moved by `ρ` along every axis, are
reported to overlap if `ρ` is above `6((1+2⁻ᵖ)ᴺ⁺¹ - 1)` times the largest coordinate; and are in two dimensions and three given an answer in any case. -/
theorem C130_simplex (hp : 1 ≤ p) (h : IsRound p rnd) (hN : N = 2 ∨ N = 3) (A B : Simp K N) (hA : 1 ≤ A.n) (hB : 1 ≤ B.n) {m : K}
    (mA : ∀ c < A.n, ∀ i, |A.pts c i| ≤ m) (mB : ∀ c < B.n, ∀ i, |B.pts c i| ≤ m) :
    ∃ r, overlap rnd A B = some r ∧
      (∀ ρ, (∀ v : Fin N → K, (∀ i, |v i| ≤ ρ) → ∃ x ∈ HullOf A, ∃ y ∈ HullOf B, x = y + v) → 6 * ((1 + eps K p) ^ (N + 1) - 1) * m < ρ → r.hit = true) ∧
      (r.hit = false → ∃ d : Fin N → K, d ≠ 0 ∧ ∀ x ∈ HullOf A, ∀ y ∈ HullOf B, (x - y) ⬝ᵥ d ≤ 6 * ((1 + eps K p) ^ (N + 1) - 1) * m * ∑ i, |d i|) := by
  have e0 := eps_pos (K := K) p
  obtain ⟨lim, hl⟩ : ∃ lim, gjkLimit N = some lim := by
    rcases hN with rfl | rfl <;> exact ⟨_, rfl⟩
  have sup : ∀ s : Simp K N, 1 ≤ s.n → (∀ c < s.n, ∀ i, |s.pts c i| ≤ m) → (∀ d, ∀ x ∈ HullOf s,
      x ⬝ᵥ d ≤ simpSupport rnd s d ⬝ᵥ d + 2 * ((1 + eps K p) ^ N - 1) * m * ∑ i, |d i|) ∧ ∀ d i, |simpSupport rnd s d i| ≤ m := by
    intro s hs hm
    refine ⟨fun d x hx => ?_, fun d i => ?_⟩
    · obtain ⟨l, l0, l1, lx⟩ := hx
      have h1 := (C130_support hp h s hs hm d).2
      have h2 : x ⬝ᵥ d = ∑ c, l c * (s.pts c ⬝ᵥ d) := by
        simp only [dotProduct, lx, Finset.sum_mul, Finset.mul_sum]
        rw [Finset.sum_comm]
        simp only [mul_assoc]
      rw [h2]
      calc ∑ c, l c * (s.pts c ⬝ᵥ d) ≤ ∑ c, l c * (simpSupport rnd s d ⬝ᵥ d + 2 * ((1 + eps K p) ^ N - 1) * m * ∑ i, |d i|) :=
            sum_le_sum fun c _ => mul_le_mul_of_nonneg_left (h1 c c.2) (l0 c)
        _ = _ := by rw [← Finset.sum_mul, l1, one_mul]
    · obtain ⟨c, hc, e, -, -⟩ := (C130_support hp h s hs hm d).1
      rw [e]
      exact hm c hc i
  obtain ⟨r, hr, -, -⟩ := C130_answer (rnd := rnd) (simpSupport rnd A) (simpSupport rnd B) lim (fun i => if (i : ℕ) = 0 then 1 else 0) ⟨fun _ => 0, 0⟩
  have i0 : (0 : ℕ) < N := by omega
  have m0 : 0 ≤ m := (abs_nonneg _).trans (mA 0 hA ⟨0, i0⟩)
  have hpow : (1 + eps K p) ^ N ≤ (1 + eps K p) ^ (N + 1) := pow_le_pow_right₀ (by linarith) (Nat.le_succ N)
  have hle : 2 * (2 * ((1 + eps K p) ^ N - 1) * m) + 2 * ((1 + eps K p) ^ (N + 1) - 1) * m ≤ 6 * ((1 + eps K p) ^ (N + 1) - 1) * m := by
    have := mul_le_mul_of_nonneg_right hpow m0
    linarith
  have hpos : 0 ≤ 6 * ((1 + eps K p) ^ (N + 1) - 1) * m :=
    mul_nonneg (mul_nonneg (by norm_num) (sub_nonneg.2 (one_le_pow₀ (by linarith)))) m0
  refine ⟨r, ?_, fun ρ hbox hρ => ?_, fun hh => ?_⟩
  · rw [overlap, hl, Option.bind_some, hr]
  · exact C130_overlap hp h _ (sup A hA mA).1 (sup B hB mB).1 (sup A hA mA).2 (sup B hB mB).2 hbox (hle.trans_lt hρ) (hpos.trans hρ.le) _ _ _ hr
  · obtain ⟨d, d0, hd⟩ := C130_apart hp h _ (sup A hA mA).1 (sup B hB mB).1 (sup A hA mA).2 (sup B hB mB).2 _ _ _ hr hh
    exact ⟨d, d0, fun x hx y hy => (hd x hx y hy).trans (mul_le_mul_of_nonneg_right hle (sum_nonneg fun i _ => abs_nonneg _))⟩

/-- Triangles in `double`: two that overlap, and two that do not. -/
example : (overlap (nearest 53) (tri ![0, 0] ![4, 0] ![0, 4]) (tri ![1, 1] ![5, 1] ![1, 5])).map (·.hit) = some true ∧
    (overlap (nearest 53) (tri ![0, 0] ![4, 0] ![0, 4]) (tri ![3, 3] ![5, 3] ![3, 5])).map (·.hit) = some false := by
  decide +kernel

/-- A direction along which a triangle is farthest, and one along which two vertices are, in `double`. -/
example : simpSupport (nearest 53) (tri ![0, 0] ![4, 0] ![0, 4]) ![1, 2] = ![0, 4] ∧
    simpSupport (nearest 53) (tri ![0, 0] ![4, 0] ![0, 4]) ![1, 1] = ![4, 0] := by
  decide +kernel

end Geomc.Flt
