import Verif.Float.PlacedModel
import Verif.Float.Oriented
import Verif.Float.Range
import Verif.Shape.Oriented

/-! # Property C145: placed boxes in floating point -/

namespace Geomc.Flt

open Geomc.Affine (XF)
open Geomc.Rect (Box)
open Geomc.Vec (vmin vmax)
open Geomc.Shape (fold_bounds exists_corner corner_mem)

variable {K : Type} [Field K] [LinearOrder K] [IsStrictOrderedRing K] [FloorRing K] {n p : ℕ} {rnd : K → K}

/-- Sums of rounded products grow with their terms. -/
theorem run_mono {ι : Type} (h : IsRound p rnd) {f g : ι → K} {l : List ι} (hl : ∀ i ∈ l, f i ≤ g i) {s t : K} (hs : s ≤ t) :
    l.foldl (fun x i => rnd (x + rnd (f i))) s ≤ l.foldl (fun x i => rnd (x + rnd (g i))) t := by
  induction l generalizing s t with
  | nil => exact hs
  | cons c l ih =>
    exact ih (fun i hi => hl i (List.mem_cons_of_mem _ hi)) (h.mono (add_le_add hs (h.mono (hl c List.mem_cons_self))))

/-- A component of a moved point grows with the products in it. -/
theorem apply_mono (h : IsRound p rnd) (A : Fin (n + 1) → Fin (n + 1) → K) {q r : Fin n → K} (i : Fin n)
    (hq : ∀ j : Fin n, A i.castSucc j.castSucc * q j ≤ A i.castSucc j.castSucc * r j) : apply rnd A q i ≤ apply rnd A r i := by
  refine run_mono h (fun c _ => ?_) le_rfl
  refine Fin.lastCases ?_ (fun j => ?_) c
  · rw [Fin.snoc_last, Fin.snoc_last]
  · rw [Fin.snoc_castSucc, Fin.snoc_castSucc]
    exact hq j

/-- The support points of a box along a row are those with the greatest component. -/
theorem apply_extreme (h : IsRound p rnd) (b : Box K n) (x : XF K n) {q : Fin n → K} (hq : q ∈ b.pts) (i : Fin n) :
    apply rnd x.mat (b.support (-Shape.matRow x i)) i ≤ apply rnd x.mat q i ∧ apply rnd x.mat q i ≤ apply rnd x.mat (b.support (Shape.matRow x i)) i := by
  rw [Rect.mem_pts] at hq
  constructor
  · refine apply_mono h _ i fun j => ?_
    simp only [Box.support, Pi.neg_apply, Shape.matRow, neg_lt_zero]
    split_ifs with hj
    · exact mul_le_mul_of_nonneg_left (hq j).1 hj.le
    · exact mul_le_mul_of_nonpos_left (hq j).2 (not_lt.1 hj)
  · refine apply_mono h _ i fun j => ?_
    show _ ≤ _ * (if x.mat i.castSucc j.castSucc < 0 then b.lo j else b.hi j)
    by_cases hj : x.mat i.castSucc j.castSucc < 0
    · rw [if_pos hj]
      exact mul_le_mul_of_nonpos_left (hq j).1 hj.le
    · rw [if_neg hj]
      exact mul_le_mul_of_nonneg_left (hq j).2 (not_lt.1 hj)

theorem support_corner (b : Box K n) (d : Fin n → K) : ∃ c < 2 ^ n, b.support d = Shape.corner b c := by
  obtain ⟨c, hc, e⟩ := exists_corner b (fun i => !decide (d i < 0))
  refine ⟨c, hc, ?_⟩
  rw [e]
  funext i
  by_cases hi : d i < 0 <;> simp [Box.support, hi]

/-- **C145.** The bounds computed from the corners of a placed box are those computed from its support points: rounding makes no difference between the two. -/
theorem C145_same (h : IsRound p rnd) (hn : n ≤ 30) (b : Box K n) (hb : b.isEmpty = false) (x : XF K n) :
    placedBounds rnd b x = some (orientedBounds rnd b.support x) := by
  have hr := fold_bounds (fun c => apply rnd x.mat (Shape.corner b c)) (List.range' 1 (2 ^ n - 1)) (apply rnd x.mat b.lo, apply rnd x.mat b.lo)
  rw [placedBounds, if_neg (by omega)]
  refine congrArg some ?_
  generalize (List.range' 1 (2 ^ n - 1)).foldl (fun (s : (Fin n → K) × (Fin n → K)) i =>
      (vmin s.1 (apply rnd x.mat (Shape.corner b i)), vmax s.2 (apply rnd x.mat (Shape.corner b i)))) (apply rnd x.mat b.lo, apply rnd x.mat b.lo) = r at hr ⊢
  simp only at hr
  have h0 : Shape.corner b 0 = b.lo := by ext j; simp [Shape.corner]
  have hall : ∀ c < 2 ^ n, ∀ i, r.1 i ≤ apply rnd x.mat (Shape.corner b c) i ∧ apply rnd x.mat (Shape.corner b c) i ≤ r.2 i := by
    intro c hc i
    rcases Nat.eq_zero_or_pos c with rfl | hpos
    · rw [h0]
      exact ⟨(hr i).2.1, (hr i).2.2.1⟩
    · exact (hr i).1 c (List.mem_range'.2 ⟨c - 1, by omega, by omega⟩)
  have lo : r.1 = (orientedBounds rnd b.support x).lo := by
    funext i
    apply le_antisymm
    · obtain ⟨c, hc, e⟩ := support_corner b (-Shape.matRow x i)
      simp only [orientedBounds]
      rw [e]
      exact (hall c hc i).1
    · rcases (hr i).2.2.2.1 with e | ⟨c, -, e⟩
      · rw [e, ← h0]
        exact (apply_extreme h b x (corner_mem b hb 0) i).1
      · rw [e]
        exact (apply_extreme h b x (corner_mem b hb c) i).1
  have hi : r.2 = (orientedBounds rnd b.support x).hi := by
    funext i
    apply le_antisymm
    · rcases (hr i).2.2.2.2 with e | ⟨c, -, e⟩
      · rw [e, ← h0]
        exact (apply_extreme h b x (corner_mem b hb 0) i).2
      · rw [e]
        exact (apply_extreme h b x (corner_mem b hb c) i).2
    · obtain ⟨c, hc, e⟩ := support_corner b (Shape.matRow x i)
      simp only [orientedBounds]
      rw [e]
      exact (hall c hc i).2
  rw [lo, hi]

/-- **C145.** The bounds of a placed box contain every point of the box as moved in floating point, without exception for rounding; and no smaller box does. -/
theorem C145_bounds (h : IsRound p rnd) (hn : n ≤ 30) (b : Box K n) (hb : b.isEmpty = false) (x : XF K n) :
    ∃ r, placedBounds rnd b x = some r ∧ Shape.IsHull {y | ∃ q ∈ b.pts, y = apply rnd x.mat q} r := by
  refine ⟨_, C145_same h hn b hb x, Shape.hull_of_faces ?_ ?_ ?_⟩
  · rintro y ⟨q, hq, rfl⟩
    rw [Rect.mem_pts]
    exact fun i => apply_extreme h b x hq i
  · intro i
    obtain ⟨c, -, e⟩ := support_corner b (-Shape.matRow x i)
    exact ⟨_, ⟨_, e ▸ corner_mem b hb c, rfl⟩, rfl⟩
  · intro i
    obtain ⟨c, -, e⟩ := support_corner b (Shape.matRow x i)
    exact ⟨_, ⟨_, e ▸ corner_mem b hb c, rfl⟩, rfl⟩

/-- **C145.** They contain the exact image up to rounding: `m` bounds the box, `μ` and `τ` the elements of the matrix and the translation. -/
theorem C145_bounds_error (hp : 1 ≤ p) (h : IsRound p rnd) (hn : n ≤ 30) (b : Box K n) (hb : b.isEmpty = false) {m μ τ : K}
    (hm : ∀ i, |b.lo i| ≤ m ∧ |b.hi i| ≤ m) (x : XF K n) (hμ : ∀ i j : Fin n, |x.mat i.castSucc j.castSucc| ≤ μ)
    (hτ : ∀ i : Fin n, |x.mat i.castSucc (Fin.last n)| ≤ τ) (μ0 : 0 ≤ μ) :
    ∃ r, placedBounds rnd b x = some r ∧ ∀ q ∈ b.pts, ∀ i : Fin n,
      r.lo i - ((1 + eps K p) ^ (n + 2) - 1) * (n * μ * m + τ) ≤ ∑ j : Fin n, x.mat i.castSucc j.castSucc * q j + x.mat i.castSucc (Fin.last n) ∧
      ∑ j : Fin n, x.mat i.castSucc j.castSucc * q j + x.mat i.castSucc (Fin.last n) ≤ r.hi i + ((1 + eps K p) ^ (n + 2) - 1) * (n * μ * m + τ) := by
  refine ⟨_, C145_same h hn b hb x, fun q hq i => ?_⟩
  have := C144_bounds hp h (C141_box b (fun i => (hm i).1) fun i => (hm i).2) le_rfl x hμ hτ μ0 hq (fun _ => rfl) i
  rwa [zero_mul, zero_add] at this

/-- **C145** refuted for empty boxes: the bounds of a placed empty box are never empty. -/
theorem C145_empty_refuted (hn : n ≤ 30) (b : Box K n) (x : XF K n) : ∃ r, placedBounds rnd b x = some r ∧ r.isEmpty = false := by
  have hr := fold_bounds (fun c => apply rnd x.mat (Shape.corner b c)) (List.range' 1 (2 ^ n - 1)) (apply rnd x.mat b.lo, apply rnd x.mat b.lo)
  refine ⟨_, if_neg (by omega), ?_⟩
  rw [Rect.not_empty_iff]
  exact fun i => (hr i).2.1.trans (hr i).2.2.1

omit [IsStrictOrderedRing K] [FloorRing K] in
/-- **C145** refuted: from 31 dimensions on the number of corners overflows, whatever the box. -/
theorem C145_bounds_refuted (hn : 31 ≤ n) (b : Box K n) (x : XF K n) : placedBounds rnd b x = none := if_pos hn

/-- **C145.** A point is reported to be in a placed box where the exact preimage is in it by more than a bound on the rounding errors, and only where the
preimage is in it up to that bound. -/
theorem C145_contains (hp : 1 ≤ p) (h : IsRound p rnd) (b : Box K n) (x : XF K n) (q : Fin n → K) :
    let y := fun i : Fin n => ∑ j : Fin n, x.inv i.castSucc j.castSucc * q j + x.inv i.castSucc (Fin.last n)
    let δ := fun i : Fin n => ((1 + eps K p) ^ (n + 2) - 1) * (∑ j : Fin n, |x.inv i.castSucc j.castSucc * q j| + |x.inv i.castSucc (Fin.last n)|)
    ((∀ i, b.lo i + δ i ≤ y i ∧ y i ≤ b.hi i - δ i) → placedContains rnd b.contains x q = true) ∧
    (placedContains rnd b.contains x q = true → ∀ i, b.lo i - δ i ≤ y i ∧ y i ≤ b.hi i + δ i) := by
  intro y δ
  have e : ∀ i, |apply rnd x.inv q i - y i| ≤ δ i := fun i => (C111_apply hp h (fun r c => x.inv r c) q i).1
  rw [placedContains, (Rect.C45_contains b _).1]
  refine ⟨fun hy i => ?_, fun hy i => ?_⟩
  · obtain ⟨e1, e2⟩ := abs_le.1 (e i)
    have := hy i
    constructor <;> linarith
  · obtain ⟨e1, e2⟩ := abs_le.1 (e i)
    have := Set.mem_Icc.1 (hy i)
    constructor <;> linarith

/-- **C145** refuted: a corner of a box, moved exactly into the world, is reported to be outside of the placed box. -/
theorem C145_contains_refuted : ∀ t ∈ [(24, 41), (53, 49)], ∃ (b : Box ℚ 1) (x : XF ℚ 1) (q y : Fin 1 → ℚ),
    b.contains q = true ∧ apply (nearest t.1) x.mat q = y ∧ y 0 = t.2 * q 0 ∧ x.inv 0 0 = nearest t.1 (1 / x.mat 0 0) ∧
    placedContains (nearest t.1) b.contains x y = false := by
  intro t ht
  refine ⟨⟨![1], ![2]⟩, ⟨!![(t.2 : ℚ), 0; 0, 1], !![nearest t.1 (1 / (t.2 : ℚ)), 0; 0, 1]⟩, ![1], ![(t.2 : ℚ)], ?_⟩
  simp only [List.mem_cons, List.not_mem_nil, or_false] at ht
  rcases ht with rfl | rfl <;> decide +kernel

omit [IsStrictOrderedRing K] [FloorRing K] in
/-- **C145.** Without rounding the model is that of C54. -/
theorem C145_exact (contains : (Fin n → K) → Bool) (b : Box K n) (x : XF K n) (q : Fin n → K) :
    placedBounds (fun x => x) b x = Shape.oriRectBounds b x ∧ placedContains (fun x => x) contains x q = Shape.oriContains contains x q := ⟨rfl, rfl⟩

/-- In `double`: a square turned and stretched, its bounds, and points in it and beside it. -/
example :
    let x : XF ℚ 2 := ⟨!![1, -1, 3; 1, 1, 0; 0, 0, 1], !![1/2, 1/2, -3/2; -1/2, 1/2, 3/2; 0, 0, 1]⟩
    let b : Box ℚ 2 := ⟨![0, 0], ![1, 1]⟩
    placedBounds (nearest 53) b x = some ⟨![2, 0], ![4, 2]⟩ ∧ placedContains (nearest 53) b.contains x ![3, 1] = true ∧
    placedContains (nearest 53) b.contains x ![2, 0] = false ∧ placedBounds (nearest 53) ⟨![1, 0], ![0, 1]⟩ x = some ⟨![2, 0], ![4, 2]⟩ := by
  decide +kernel

end Geomc.Flt
