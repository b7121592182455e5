import Mathlib.MeasureTheory.Measure.Lebesgue.Basic
import Mathlib.Data.Int.Interval
import Mathlib.Order.Interval.Finset.Fin
import Mathlib.Data.Pi.Interval
import Mathlib.Data.Set.Card
import Verif.Rect.Props

/-!
# C76: sizes of boxes and boxes of given sizes
-/

namespace Geomc.Rect

open Geomc.Vec

variable {K : Type} {n : ℕ}

theorem volumeOf_eq [LinearOrder K] [CommRing K] (d : Fin n → K) : volumeOf d = ∏ i, max (d i) 0 := by
  have key : ∀ (l : List (Fin n)) (a : K),
      l.foldl (fun v i => v * stdMax (d i) 0) a = a * (l.map fun i => max (d i) 0).prod := by
    intro l
    induction l with
    | nil => intro a; simp
    | cons i l ih =>
      intro a
      rw [List.foldl_cons, ih, List.map_cons, List.prod_cons, stdMax_eq, mul_assoc]
  rw [volumeOf, key, one_mul, ← List.ofFn_eq_map, List.prod_ofFn]

/-- **C76**: the volume of a box of real numbers is the measure of its points. -/
theorem C76_volume_real (b : Box ℝ n) : volumeOf (b.dimensions 0) = (MeasureTheory.volume b.pts).toReal := by
  rw [Box.pts, Real.volume_Icc_pi, ENNReal.toReal_prod, volumeOf_eq]
  refine Finset.prod_congr rfl fun i _ => ?_
  rw [ENNReal.toReal_ofReal', Box.dimensions, add_zero]

/-- **C76**: the volume of a box of integers is the number of its points. -/
theorem C76_volume_int (b : Box ℤ n) : volumeOf (b.dimensions 1) = (b.pts.ncard : ℤ) := by
  have h : b.pts = ((Finset.Icc b.lo b.hi : Finset (Fin n → ℤ)) : Set (Fin n → ℤ)) := by
    rw [Finset.coe_Icc, Box.pts]
  rw [h, Set.ncard_coe_finset, Pi.card_Icc, volumeOf_eq, Nat.cast_prod]
  refine Finset.prod_congr rfl fun i _ => ?_
  rw [Int.card_Icc, Int.toNat_eq_max, Box.dimensions]
  congr 1
  ring

section Field
variable [LinearOrder K] [Field K] [IsStrictOrderedRing K]

theorem span_dims (c₁ c₂ : Fin n → K) (i : Fin n) :
    (spanningCorners c₁ c₂).dimensions 0 i = |c₂ i - c₁ i| ∧ (spanningCorners c₁ c₂).centerF i = (c₁ i + c₂ i) / 2 := by
  simp only [Box.dimensions, spanningCorners, vmin_apply, vmax_apply, Box.centerF]
  rcases le_total (c₁ i) (c₂ i) with h | h
  · rw [max_eq_right h, min_eq_left h, abs_of_nonneg (by linarith)]
    constructor <;> ring
  · rw [max_eq_left h, min_eq_right h, abs_of_nonpos (by linarith)]
    constructor <;> ring

/-- **C76**: real boxes made from a centre or a corner and their sizes have that centre (corner) and those sizes. -/
theorem C76_construct_real (c d : Fin n → K) :
    (fromCenterF c d).centerF = c ∧ (fromCenterF c d).dimensions 0 = (fun i => |d i|) ∧
    (fromCorner 0 c d).dimensions 0 = (fun i => |d i|) ∧
    (∀ i, (fromCorner 0 c d).lo i = c i ∨ (fromCorner 0 c d).hi i = c i) ∧
    (fromCenterF c d).isEmpty = false ∧ (fromCorner 0 c d).isEmpty = false := by
  refine ⟨?_, ?_, ?_, fun i => ?_, (C45_spanning _ _).2.2.1, (C45_spanning _ _).2.2.1⟩
  · ext i
    rw [fromCenterF, (span_dims _ _ i).2]
    ring
  · ext i
    rw [fromCenterF, (span_dims _ _ i).1]
    congr 1
    ring
  · ext i
    rw [fromCorner, (span_dims _ _ i).1]
    congr 1
    ring
  · simp only [fromCorner, spanningCorners, vmin_apply, vmax_apply]
    rcases le_total (c i) (c i + d i - 0) with h | h
    · exact Or.inl (min_eq_left h)
    · exact Or.inr (max_eq_left h)

omit [IsStrictOrderedRing K] in
/-- **C76**: resizing a real box keeps its centre and sets its sizes; moving it keeps its sizes if it has points. -/
theorem C76_resize_real [IsStrictOrderedRing K] (b : Box K n) (d : Fin n → K) :
    (b.setDimensionsF d).centerF = b.centerF ∧ (b.setDimensionsF d).dimensions 0 = (fun i => |d i|) ∧
    (b.isEmpty = false → ∀ c, (fromCenterF c (b.dimensions 0)).dimensions 0 = b.dimensions 0 ∧
      (fromCenterF c (b.dimensions 0)).centerF = c) := by
  refine ⟨?_, ?_, fun hb c => ⟨?_, (C76_construct_real _ _).1⟩⟩
  · ext i
    simp only [Box.centerF, Box.setDimensionsF]
    ring
  · ext i
    simp only [Box.dimensions, Box.setDimensionsF]
    ring
  · rw [(C76_construct_real _ _).2.1]
    ext i
    have := (not_empty_iff b).1 hb i
    rw [abs_of_nonneg]
    simp only [Box.dimensions]
    linarith

theorem foldl_max (r : Fin n → K) (l : List (Fin n)) (m : K) :
    m ≤ l.foldl (fun m i => stdMax m (r i)) m ∧ (∀ i ∈ l, r i ≤ l.foldl (fun m i => stdMax m (r i)) m) ∧
    (l.foldl (fun m i => stdMax m (r i)) m = m ∨ ∃ i ∈ l, l.foldl (fun m i => stdMax m (r i)) m = r i) := by
  induction l generalizing m with
  | nil => simp
  | cons i l ih =>
    rw [List.foldl_cons, stdMax_eq]
    obtain ⟨h1, h2, h3⟩ := ih (max m (r i))
    refine ⟨(le_max_left _ _).trans h1, fun j hj => ?_, ?_⟩
    · rcases List.mem_cons.1 hj with rfl | hj
      · exact (le_max_right _ _).trans h1
      · exact h2 j hj
    · rcases h3 with h3 | ⟨j, hj, h3⟩
      · rw [h3]
        rcases max_choice m (r i) with h | h
        · exact Or.inl h
        · exact Or.inr ⟨i, by simp, h⟩
      · exact Or.inr ⟨j, by simp [hj], h3⟩

/-- **C76**: a box with positive sizes fitted to another has the other's centre, its own proportions, contains the other, and
is the smallest such box. -/
theorem C76_fitted (a b : Box K n) (ha : ∀ i, a.lo i < a.hi i) (hb : b.isEmpty = false) :
    ∃ m : K, 0 ≤ m ∧ (a.fittedTo b).dimensions 0 = (fun i => m * a.dimensions 0 i) ∧
      (a.fittedTo b).centerF = b.centerF ∧ b.pts ⊆ (a.fittedTo b).pts ∧
      ∀ (c : Box K n) (k : K), 0 ≤ k → c.dimensions 0 = (fun i => k * a.dimensions 0 i) → b.pts ⊆ c.pts → m ≤ k := by
  have hb' := (not_empty_iff b).1 hb
  have hd : ∀ i, 0 < a.dimensions 0 i := fun i => by
    simp only [Box.dimensions]
    linarith [ha i]
  obtain ⟨h1, h2, h3⟩ := foldl_max (fun i => |if a.dimensions 0 i = 0 then 0 else b.dimensions 0 i / a.dimensions 0 i|)
    (List.finRange n) (0 : K)
  set m := (List.finRange n).foldl (fun m i => stdMax m |if a.dimensions 0 i = 0 then 0 else b.dimensions 0 i / a.dimensions 0 i|)
    (0 : K) with hm
  have hf : a.fittedTo b = fromCenterF b.centerF (fun i => a.dimensions 0 i * m) := rfl
  have hr : ∀ i, |if a.dimensions 0 i = 0 then 0 else b.dimensions 0 i / a.dimensions 0 i| =
      b.dimensions 0 i / a.dimensions 0 i := by
    intro i
    rw [if_neg (hd i).ne', abs_of_nonneg]
    refine div_nonneg ?_ (hd i).le
    simp only [Box.dimensions]
    linarith [hb' i]
  have hle : ∀ i, b.dimensions 0 i ≤ m * a.dimensions 0 i := by
    intro i
    have := h2 i (List.mem_finRange i)
    rw [hr i, div_le_iff₀ (hd i)] at this
    exact this
  refine ⟨m, h1, ?_, ?_, ?_, ?_⟩
  · rw [hf, (C76_construct_real _ _).2.1]
    ext i
    rw [abs_of_nonneg (mul_nonneg (hd i).le h1), mul_comm]
  · rw [hf, (C76_construct_real _ _).1]
  · intro p hp
    rw [mem_pts] at hp ⊢
    intro i
    have h4 := hle i
    have h5 := hp i
    have h6 : b.centerF i - a.dimensions 0 i * m / 2 ≤ b.centerF i + a.dimensions 0 i * m / 2 := by
      have := mul_nonneg (hd i).le h1
      linarith
    simp only [hf, fromCenterF, spanningCorners, vmin_apply, vmax_apply]
    rw [min_eq_left h6, max_eq_right h6]
    have h7 : b.centerF i = (b.hi i + b.lo i) / 2 := rfl
    have h8 : b.dimensions 0 i = b.hi i - b.lo i + 0 := rfl
    rw [h7]
    rw [h8] at h4
    constructor <;> linarith
  · intro c k hk hc hs
    rcases h3 with h3 | ⟨i, -, h3⟩
    · rw [h3]
      exact hk
    · rw [h3, hr i, div_le_iff₀ (hd i)]
      have h4 := mem_pts.1 (hs (mem_pts.2 fun j => ⟨le_refl _, hb' j⟩ : b.lo ∈ b.pts)) i
      have h5 := mem_pts.1 (hs (mem_pts.2 fun j => ⟨hb' j, le_refl _⟩ : b.hi ∈ b.pts)) i
      have h6 := congrFun hc i
      have h7 : c.dimensions 0 i = c.hi i - c.lo i + 0 := rfl
      have h8 : b.dimensions 0 i = b.hi i - b.lo i + 0 := rfl
      rw [← h6, h7, h8]
      linarith [h4.1, h5.2]

/-- **C76** refuted: the fitted box never has a negative size, though documented to keep the signs. -/
theorem C76_fitted_refuted (a b : Box K n) (i : Fin n) : 0 ≤ (a.fittedTo b).dimensions 0 i := by
  rw [Box.fittedTo, (C76_construct_real _ _).2.1]
  exact abs_nonneg _

end Field

/-! ### Integers -/

/-- **C76**: integer boxes made from a corner have the requested sizes if these are positive, and two more cells than
requested otherwise. -/
theorem C76_corner_int (c d : Fin n → ℤ) (i : Fin n) :
    (fromCorner 1 c d).dimensions 1 i = if 1 ≤ d i then d i else 2 + |d i| := by
  simp only [Box.dimensions, fromCorner, spanningCorners, vmin_apply, vmax_apply]
  split_ifs with h
  · omega
  · rw [abs_of_nonpos (by omega)]
    omega

/-- **C76**: those made from a centre have the requested sizes if these are positive, and one more cell otherwise. -/
theorem C76_center_int (c d : Fin n → ℤ) (i : Fin n) :
    (fromCenterZ c d).dimensions 1 i = (if 1 ≤ d i then d i else 1 + |d i|) ∧
    (1 ≤ d i → ((fromCenterZ c d).centerZ i = c i ↔ (0 ≤ c i ∨ d i % 2 = 0))) := by
  have t : ∀ x : ℤ, 0 ≤ x → x.tdiv 2 = x / 2 := fun x hx => Int.tdiv_eq_ediv_of_nonneg hx
  have t' : ∀ x : ℤ, x ≤ 0 → x.tdiv 2 = -((-x) / 2) := fun x hx => by
    rw [← t (-x) (by omega), Int.neg_tdiv, neg_neg]
  simp only [Box.dimensions, fromCenterZ, spanningCorners, vmin_apply, vmax_apply, Box.centerZ]
  constructor
  · split_ifs with h
    · rw [t _ (by omega), t _ (by omega)]
      omega
    · rw [t' _ (by omega), t' _ (by omega), abs_of_nonpos (by omega)]
      omega
  · intro h
    rw [t (d i) (by omega), t (d i - 1) (by omega)]
    by_cases hc : 0 ≤ c i
    · rw [t _ (by omega)]
      omega
    · rw [t' _ (by omega)]
      omega

/-- **C76**: resizing an integer box gives the requested size exactly if the parity does not change. -/
theorem C76_resize_int (b : Box ℤ n) (d : Fin n → ℤ) (i : Fin n) :
    (b.setDimensionsZ d).dimensions 1 i = |d i| ↔ (b.dimensions 1 i) % 2 = |d i| % 2 := by
  have t : ∀ x : ℤ, 0 ≤ x → x.tdiv 2 = x / 2 := fun x hx => Int.tdiv_eq_ediv_of_nonneg hx
  have t' : ∀ x : ℤ, x ≤ 0 → x.tdiv 2 = -((-x) / 2) := fun x hx => by
    rw [← t (-x) (by omega), Int.neg_tdiv, neg_neg]
  simp only [Box.dimensions, Box.setDimensionsZ]
  generalize |d i| = e
  rcases le_total 0 (e - (b.hi i - b.lo i + 1)) with h | h
  · rw [t _ h]
    omega
  · rw [t' _ h]
    omega

/-- **C76** refuted for integers: a size of zero gives two cells from a corner and one from a centre, the centre of an odd
box around a negative point is off by one, and resizing 4 to 3 does nothing. -/
theorem C76_int_refuted :
    (fromCorner (1 : ℤ) ![5] ![0]).dimensions 1 = ![2] ∧ (fromCenterZ ![5] ![0]).dimensions 1 = ![1] ∧
    (fromCenterZ ![-5] ![3]).centerZ = ![-4] ∧
    ((⟨![0], ![3]⟩ : Box ℤ 1).setDimensionsZ ![3]).dimensions 1 = ![4] := by
  decide +kernel

/-! ### Examples -/

example : volumeOf ((⟨![0, 0], ![3, 1]⟩ : Box ℤ 2).dimensions 1) = 8 := by decide +kernel
example : (⟨![0, 0], ![2, 1]⟩ : Box ℚ 2).fittedTo ⟨![5, 5], ![6, 6]⟩ = ⟨![9/2, 5], ![13/2, 6]⟩ := by decide +kernel
example : fromCenterZ ![5] ![4] = ⟨![3], ![6]⟩ := by decide +kernel

end Geomc.Rect
