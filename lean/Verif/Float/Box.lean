import Verif.Float.BoxModel
import Verif.Float.Geom
import Verif.Rect.Dist

/-! # Property C121: boxes of floating-point numbers -/

namespace Geomc.Flt

open Geomc.Rect (Box spanningCorners Ext mem_pts vmin_apply vmax_apply not_empty_iff)
open Geomc.Vec (stdMin stdMax stdMin_eq stdMax_eq)

variable {K : Type} [Field K] [LinearOrder K] [IsStrictOrderedRing K] [FloorRing K] {n : ℕ}

/-! ## Rounding -/

theorem float_half {p : ℕ} {x : K} (h : IsFloat p x) : IsFloat p (x / 2) := by
  obtain ⟨m, e, hm, rfl⟩ := h
  refine ⟨m, e - 1, hm, ?_⟩
  rw [show e - 1 = e + -1 by ring, zadd]
  norm_num
  ring

theorem float_double {p : ℕ} {x : K} (h : IsFloat p x) : IsFloat p (x * 2) := by
  obtain ⟨m, e, hm, rfl⟩ := h
  refine ⟨m, e + 1, hm, ?_⟩
  rw [zadd, zpow_one]
  ring

theorem IsRound.pos_iff {p : ℕ} (hp : 1 ≤ p) {rnd : K → K} (h : IsRound p rnd) (x : K) : 0 < rnd x ↔ 0 < x := by
  rw [← not_le, ← not_le, h.nonpos hp]

theorem IsRound.zero_iff {p : ℕ} (hp : 1 ≤ p) {rnd : K → K} (h : IsRound p rnd) (x : K) : rnd x = 0 ↔ x = 0 := by
  refine ⟨fun h0 => ?_, fun h0 => by rw [h0, h.fix (float_zero p)]⟩
  have h1 := h.rel hp x
  rw [h0, zero_sub, abs_neg] at h1
  have e1 := eps_le (K := K) hp
  by_contra hx
  have := abs_pos.2 hx
  nlinarith

theorem IsRound.nonneg_iff {p : ℕ} (hp : 1 ≤ p) {rnd : K → K} (h : IsRound p rnd) (x : K) : 0 ≤ rnd x ↔ 0 ≤ x := by
  rw [le_iff_lt_or_eq, le_iff_lt_or_eq, h.pos_iff hp, eq_comm, h.zero_iff hp, eq_comm]

/-- The rounded value of a positive number that is nearer to a float than half the distance of its neighbours. -/
theorem IsRound.eq_of_near {p : ℕ} {rnd : K → K} (hp : 1 ≤ p) (h : IsRound p rnd) {x : K} {E : ℤ} (k : ℤ) (hx : 2 ^ E ≤ x)
    (hy : IsFloat p ((k : K) * 2 ^ (E + 1 - p))) (hn : |x - k * 2 ^ (E + 1 - p)| < 2 ^ (E - p)) : rnd x = k * 2 ^ (E + 1 - p) := by
  have hE : (2 : K) ^ E ≤ |rnd x| := (h.ge_of_ge (float_pow hp E) hx).trans (le_abs_self _)
  obtain ⟨k', hk'⟩ := grid_of_float (h.mem x) hE
  have n1 := h.near x _ hy
  rw [abs_sub_comm _ x, abs_sub_comm _ x, abs_sub_comm x (rnd x)] at n1
  have g2 : (2 : K) ^ (E + 1 - p) = 2 * 2 ^ (E - p) := by
    rw [show E + 1 - (p : ℤ) = 1 + (E - p) by ring, zadd, zpow_one]
  have gp := two_zpow_pos (K := K) (E - p)
  rw [hk', g2] at n1 ⊢
  rw [g2] at hn
  have hlt : |((k' - k : ℤ) : K)| < 1 := by
    have h1 : |(k' : K) * (2 * 2 ^ (E - p)) - k * (2 * 2 ^ (E - p))| < 2 * 2 ^ (E - p) := by
      have := abs_sub_le ((k' : K) * (2 * 2 ^ (E - p))) x (k * (2 * 2 ^ (E - p)))
      linarith
    rw [← sub_mul, abs_mul, abs_of_pos (show (0 : K) < 2 * 2 ^ (E - p) by linarith)] at h1
    rw [Int.cast_sub]
    by_contra hc
    push Not at hc
    nlinarith
  have : k' = k := by
    have h2 : |k' - k| < 1 := by
      have : ((|k' - k| : ℤ) : K) < ((1 : ℤ) : K) := by
        rw [Int.cast_abs, Int.cast_one]
        exact hlt
      exact Int.cast_lt.1 this
    have := Int.abs_lt_one_iff.1 h2
    omega
  rw [this]

variable {p : ℕ} {rnd : K → K}

/-- A box whose corners are floats. -/
def FloatBox (p : ℕ) (b : Box K n) : Prop := ∀ i, IsFloat p (b.lo i) ∧ IsFloat p (b.hi i)

/-! ## Centre and size -/

/-- **C121.** The centre is in the box, and off by the rounding of one sum. -/
theorem C121_center (hp : 1 ≤ p) (h : IsRound p rnd) {b : Box K n} (hf : FloatBox p b) (hb : ∀ i, b.lo i ≤ b.hi i) :
    boxCenter rnd b ∈ b.pts ∧ ∀ i, IsFloat p (boxCenter rnd b i) ∧ |boxCenter rnd b i - (b.lo i + b.hi i) / 2| ≤ eps K p * |(b.lo i + b.hi i) / 2| := by
  have e : ∀ i, boxCenter rnd b i = rnd (b.hi i + b.lo i) / 2 := fun i => by
    rw [boxCenter, add_zero, h.fix (h.mem _), h.fix (float_half (h.mem _))]
  refine ⟨mem_pts.2 fun i => ?_, fun i => ⟨by rw [e]; exact float_half (h.mem _), ?_⟩⟩
  · rw [e]
    have h1 := h.ge_of_ge (x := b.hi i + b.lo i) (float_double (hf i).1) (by linarith [hb i])
    have h2 := h.le_of_le (x := b.hi i + b.lo i) (float_double (hf i).2) (by linarith [hb i])
    constructor <;> linarith
  · rw [e]
    have h1 := h.rel hp (b.hi i + b.lo i)
    rw [show rnd (b.hi i + b.lo i) / 2 - (b.lo i + b.hi i) / 2 = (rnd (b.hi i + b.lo i) - (b.hi i + b.lo i)) / 2 by ring, abs_div, abs_div,
      add_comm (b.lo i), abs_of_pos (show (0 : K) < 2 by norm_num)]
    linarith

/-- **C121.** The sizes along the axes are within rounding; they are zero, positive and negative where the exact ones are. -/
theorem C121_dimensions (hp : 1 ≤ p) (h : IsRound p rnd) (b : Box K n) (i : Fin n) :
    boxDimensions rnd b i = rnd (b.hi i - b.lo i) ∧ |boxDimensions rnd b i - (b.hi i - b.lo i)| ≤ eps K p * |b.hi i - b.lo i| ∧
      (boxDimensions rnd b i = 0 ↔ b.lo i = b.hi i) ∧ (0 < boxDimensions rnd b i ↔ b.lo i < b.hi i) := by
  have e : boxDimensions rnd b i = rnd (b.hi i - b.lo i) := by rw [boxDimensions, add_zero, h.fix (h.mem _)]
  refine ⟨e, by rw [e]; exact h.rel hp _, ?_, ?_⟩
  · rw [e, h.zero_iff hp, sub_eq_zero, eq_comm]
  · rw [e, h.pos_iff hp, sub_pos]

theorem volume_list (hp : 1 ≤ p) (h : IsRound p rnd) (b : Box K n) (l : List (Fin n)) {v V : K} (hV : 0 ≤ V) {k : ℕ}
    (h1 : (1 - eps K p) ^ k * V ≤ v) (h2 : v ≤ (1 + eps K p) ^ k * V) :
    (1 - eps K p) ^ (k + 2 * l.length) * (V * (l.map fun i => max (b.hi i - b.lo i) 0).prod) ≤
      l.foldl (fun v i => rnd (v * stdMax (boxDimensions rnd b i) 0)) v ∧
    l.foldl (fun v i => rnd (v * stdMax (boxDimensions rnd b i) 0)) v ≤
      (1 + eps K p) ^ (k + 2 * l.length) * (V * (l.map fun i => max (b.hi i - b.lo i) 0).prod) := by
  have e0 := eps_pos (K := K) p
  have e1 := eps_le (K := K) hp
  induction l generalizing v V k with
  | nil => simpa using ⟨h1, h2⟩
  | cons i l ih =>
    have hw : (1 - eps K p) * max (b.hi i - b.lo i) 0 ≤ stdMax (boxDimensions rnd b i) 0 ∧
        stdMax (boxDimensions rnd b i) 0 ≤ (1 + eps K p) * max (b.hi i - b.lo i) 0 := by
      rw [stdMax_eq, (C121_dimensions hp h b i).1]
      rcases le_total (b.hi i - b.lo i) 0 with hs | hs
      · rw [max_eq_right hs, max_eq_right ((h.nonpos hp _).2 hs)]
        simp
      · rw [max_eq_left hs, max_eq_left ((h.nonneg_iff hp _).2 hs)]
        exact h.bounds hp hs
    set w := stdMax (boxDimensions rnd b i) 0
    set W := max (b.hi i - b.lo i) 0 with hW
    have hW0 : 0 ≤ W := le_max_right _ _
    have hlo : 0 ≤ (1 - eps K p) ^ k := pow_nonneg (by linarith) _
    have hv0 : 0 ≤ v := (mul_nonneg hlo hV).trans h1
    have hw0 : 0 ≤ w := (mul_nonneg (by linarith) hW0).trans hw.1
    obtain ⟨r1, r2⟩ := h.bounds hp (mul_nonneg hv0 hw0)
    have hu1 : (1 - eps K p) ^ k * V * ((1 - eps K p) * W) ≤ v * w := mul_le_mul h1 hw.1 (mul_nonneg (by linarith) hW0) hv0
    have hu2 : v * w ≤ (1 + eps K p) ^ k * V * ((1 + eps K p) * W) :=
      mul_le_mul h2 hw.2 hw0 (mul_nonneg (pow_nonneg (by linarith) _) hV)
    have := ih (v := rnd (v * w)) (V := V * W) (k := k + 2) (mul_nonneg hV hW0) (by
      refine le_trans (le_of_eq ?_) ((mul_le_mul_of_nonneg_left hu1 (show 0 ≤ 1 - eps K p by linarith)).trans r1)
      ring) (by
      refine (r2.trans (mul_le_mul_of_nonneg_left hu2 (show 0 ≤ 1 + eps K p by linarith))).trans (le_of_eq ?_)
      ring)
    rw [List.foldl_cons, List.map_cons, List.prod_cons, List.length_cons, ← mul_assoc V,
      show k + 2 * (l.length + 1) = k + 2 + 2 * l.length by ring]
    exact this

/-- **C121.** The volume is within `2 n` roundings of the exact one, and zero exactly for boxes that are flat or empty. -/
theorem C121_volume (hp : 1 ≤ p) (h : IsRound p rnd) (b : Box K n) :
    (1 - eps K p) ^ (2 * n) * ∏ i, max (b.hi i - b.lo i) 0 ≤ boxVolume rnd b ∧
    boxVolume rnd b ≤ (1 + eps K p) ^ (2 * n) * ∏ i, max (b.hi i - b.lo i) 0 ∧
    (boxVolume rnd b = 0 ↔ ∃ i, b.hi i ≤ b.lo i) := by
  obtain ⟨h1, h2⟩ := volume_list hp h b (List.finRange n) (v := 1) (V := 1) (k := 0) (by norm_num) (by simp) (by simp)
  have e : ((List.finRange n).map fun i => max (b.hi i - b.lo i) 0).prod = ∏ i, max (b.hi i - b.lo i) 0 := by
    rw [Fin.prod_univ_def]
  rw [e, one_mul, List.length_finRange, zero_add] at h1 h2
  refine ⟨h1, h2, ?_⟩
  have e0 := eps_pos (K := K) p
  have e1 := eps_le (K := K) hp
  have hz : (∃ i, b.hi i ≤ b.lo i) ↔ ∏ i, max (b.hi i - b.lo i) 0 = 0 := by
    rw [Finset.prod_eq_zero_iff]
    simp [sub_nonpos]
  rw [hz]
  refine ⟨fun h0 => ?_, fun h0 => ?_⟩
  · rw [boxVolume] at h0
    rw [h0] at h1
    have hnn : 0 ≤ ∏ i, max (b.hi i - b.lo i) 0 := Finset.prod_nonneg fun i _ => le_max_right _ _
    have hpw : 0 < (1 - eps K p) ^ (2 * n) := pow_pos (by linarith) _
    by_contra hne
    have := mul_pos hpw (lt_of_le_of_ne hnn (Ne.symm hne))
    linarith
  · rw [h0, mul_zero] at h1 h2
    exact le_antisymm h2 h1

/-- **C121.** A box made from its centre and its sizes, of either sign, contains the centre. -/
theorem C121_from_center (h : IsRound p rnd) {c dims : Fin n → K} (hc : ∀ i, IsFloat p (c i)) (hd : ∀ i, IsFloat p (dims i)) :
    c ∈ (boxFromCenter rnd c dims).pts := by
  refine mem_pts.2 fun i => ?_
  simp only [boxFromCenter, spanningCorners, vmin_apply, vmax_apply]
  rw [sub_zero, h.fix (hd i), h.fix (float_half (hd i)), min_le_iff, le_max_iff]
  rcases le_total 0 (dims i) with h0 | h0
  · exact ⟨.inl (h.le_of_le (hc i) (by linarith)), .inr (h.ge_of_ge (hc i) (by linarith))⟩
  · exact ⟨.inr (h.le_of_le (hc i) (by linarith)), .inl (h.ge_of_ge (hc i) (by linarith))⟩

/-! ## Moved and grown boxes -/

/-- **C121.** A moved box contains the moved points. -/
theorem C121_translate (h : IsRound p rnd) {b : Box K n} {x : Fin n → K} (hx : x ∈ b.pts) (d : Fin n → K) :
    (fun i => rnd (x i + d i)) ∈ (boxTranslate rnd b d).pts := by
  rw [mem_pts] at hx ⊢
  exact fun i => ⟨h.mono (by linarith [(hx i).1]), h.mono (by linarith [(hx i).2])⟩

/-- **C121.** A box grown by positive amounts contains the original, and the points moved by no more than that. -/
theorem C121_dilated (h : IsRound p rnd) {b : Box K n} (hf : FloatBox p b) {c : Fin n → K} (hc : ∀ i, 0 ≤ c i) :
    b.pts ⊆ (boxDilated rnd b c).pts ∧
    ∀ x ∈ b.pts, ∀ d : Fin n → K, (∀ i, |d i| ≤ c i) → (fun i => rnd (x i + d i)) ∈ (boxDilated rnd b c).pts := by
  constructor
  · intro x hx
    rw [mem_pts] at hx ⊢
    exact fun i => ⟨(h.le_of_le (hf i).1 (by linarith [hc i])).trans (hx i).1, (hx i).2.trans (h.ge_of_ge (hf i).2 (by linarith [hc i]))⟩
  · intro x hx d hd
    rw [mem_pts] at hx ⊢
    intro i
    have := abs_le.1 (hd i)
    exact ⟨h.mono (by linarith [(hx i).1]), h.mono (by linarith [(hx i).2])⟩

/-- **C121.** The Minkowski sum contains the rounded sums of points. -/
theorem C121_minkowski (h : IsRound p rnd) {a b : Box K n} {x y : Fin n → K} (hx : x ∈ a.pts) (hy : y ∈ b.pts) :
    (fun i => rnd (x i + y i)) ∈ (boxMinkowski rnd a b).pts := by
  rw [mem_pts] at hx hy ⊢
  exact fun i => ⟨h.mono (by linarith [(hx i).1, (hy i).1]), h.mono (by linarith [(hx i).2, (hy i).2])⟩

/-! ## Distance -/

/-- **C121.** The squared distance to a box is within `n + 2` roundings of the exact one, and zero exactly for the points of the box. -/
theorem C121_dist2 (hp : 1 ≤ p) (h : IsRound p rnd) {b : Box K n} (hb : b.isEmpty = false) (x : Fin n → K) :
    (1 - eps K p) ^ (n + 2) * b.dist2 x ≤ boxDist2 rnd b x ∧ boxDist2 rnd b x ≤ (1 + eps K p) ^ (n + 2) * b.dist2 x ∧
      (boxDist2 rnd b x = 0 ↔ x ∈ b.pts) := by
  obtain ⟨h1, h2, h3⟩ := C104_dist2 hp h x (b.clip x)
  have e : b.dist2 x = ∑ i, (x i - b.clip x i) ^ 2 := by
    rw [Box.dist2, Vec.mag2_eq]
    simp [dotProduct, pow_two]
  refine ⟨by rw [e]; exact h1, by rw [e]; exact h2, h3.trans ⟨fun hx => ?_, fun hx => ((Rect.C47_clip b hb x).2.2.1 hx).symm⟩⟩
  rw [hx]
  exact Rect.clip_mem b hb x

/-! ## Coordinates in the box -/

/-- **C121.** `unmap` of a point of the box is between zero and one, zero and one at the corners, ordered as the point, and has a
relative error of at most three roundings; it is defined for boxes that are not flat. -/
theorem C121_unmap (hp : 1 ≤ p) (h : IsRound p rnd) {b : Box K n} (hb : ∀ i, b.lo i < b.hi i) :
    ∃ f : (Fin n → K) → Fin n → K, (∀ x, boxUnmap rnd b x = some (f x)) ∧ f b.lo = (fun _ => 0) ∧ f b.hi = (fun _ => 1) ∧
      (∀ x ∈ b.pts, ∀ i, 0 ≤ f x i ∧ f x i ≤ 1) ∧ (∀ x y i, x i ≤ y i → f x i ≤ f y i) ∧
      ∀ x i, b.lo i ≤ x i → (1 - eps K p) ^ 2 / (1 + eps K p) * ((x i - b.lo i) / (b.hi i - b.lo i)) ≤ f x i ∧
        f x i ≤ (1 + eps K p) ^ 2 / (1 - eps K p) * ((x i - b.lo i) / (b.hi i - b.lo i)) := by
  have e0 := eps_pos (K := K) p
  have e1 := eps_le (K := K) hp
  have f1 : IsFloat p (1 : K) := by simpa using float_pow (K := K) hp 0
  have hd : ∀ i, 0 < rnd (b.hi i - b.lo i) := fun i => (h.pos_iff hp _).2 (sub_pos.2 (hb i))
  have hmono : ∀ (x y : Fin n → K) i, x i ≤ y i → rnd (rnd (x i - b.lo i) / rnd (b.hi i - b.lo i)) ≤
      rnd (rnd (y i - b.lo i) / rnd (b.hi i - b.lo i)) := fun x y i hxy =>
    h.mono (div_le_div_of_nonneg_right (h.mono (by linarith)) (hd i).le)
  have hlo : (fun i => rnd (rnd (b.lo i - b.lo i) / rnd (b.hi i - b.lo i))) = fun _ => 0 := by
    funext i
    rw [sub_self, h.fix (float_zero p), zero_div, h.fix (float_zero p)]
  have hhi : (fun i => rnd (rnd (b.hi i - b.lo i) / rnd (b.hi i - b.lo i))) = fun _ => 1 := by
    funext i
    rw [div_self (hd i).ne', h.fix f1]
  refine ⟨fun x i => rnd (rnd (x i - b.lo i) / rnd (b.hi i - b.lo i)), fun x => ?_, hlo, hhi, fun x hx i => ⟨?_, ?_⟩, hmono, fun x i hx => ?_⟩
  · rw [boxUnmap, if_neg]
    rintro ⟨i, hi⟩
    exact (hd i).ne' hi
  · rw [← congrFun hlo i]
    exact hmono b.lo x i (mem_pts.1 hx i).1
  · rw [← congrFun hhi i]
    exact hmono x b.hi i (mem_pts.1 hx i).2
  · have hn : 0 ≤ x i - b.lo i := by linarith
    have hdp : 0 < b.hi i - b.lo i := sub_pos.2 (hb i)
    obtain ⟨n1, n2⟩ := h.bounds hp hn
    obtain ⟨d1, d2⟩ := h.bounds hp hdp.le
    have hrn : 0 ≤ rnd (x i - b.lo i) := (h.nonneg_iff hp _).2 hn
    obtain ⟨q1, q2⟩ := h.bounds hp (div_nonneg hrn (hd i).le)
    have hdl : 0 < (1 - eps K p) * (b.hi i - b.lo i) := mul_pos (by linarith) hdp
    constructor
    · have : (1 - eps K p) * (x i - b.lo i) / ((1 + eps K p) * (b.hi i - b.lo i)) ≤ rnd (x i - b.lo i) / rnd (b.hi i - b.lo i) :=
        div_le_div₀ hrn n1 (hd i) d2
      refine le_trans (le_of_eq ?_) ((mul_le_mul_of_nonneg_left this (show 0 ≤ 1 - eps K p by linarith)).trans q1)
      have : (1 + eps K p) ≠ 0 := by linarith
      field_simp
    · have : rnd (x i - b.lo i) / rnd (b.hi i - b.lo i) ≤ (1 + eps K p) * (x i - b.lo i) / ((1 - eps K p) * (b.hi i - b.lo i)) :=
        div_le_div₀ (mul_nonneg (by linarith) hn) n2 hdl d1
      refine (q2.trans (mul_le_mul_of_nonneg_left this (show 0 ≤ 1 + eps K p by linarith))).trans (le_of_eq ?_)
      have : (1 - eps K p) ≠ 0 := by linarith
      field_simp

/-- **C121.** For boxes flat along an axis `unmap` divides by zero. -/
theorem C121_unmap_flat (h : IsRound p rnd) {b : Box K n} {i : Fin n} (hi : b.lo i = b.hi i) (x : Fin n → K) : boxUnmap rnd b x = none := by
  rw [boxUnmap, if_pos]
  exact ⟨i, by rw [hi, sub_self, h.fix (float_zero p)]⟩

/-- **C121.** `remap` is exact at the corners, and otherwise within three roundings of the two terms of the sum. -/
theorem C121_remap (hp : 1 ≤ p) (h : IsRound p rnd) (b : Box K n) :
    (FloatBox p b → boxRemap rnd b (fun _ => 0) = b.lo ∧ boxRemap rnd b (fun _ => 1) = b.hi) ∧
    ∀ s i, |boxRemap rnd b s i - b.remap s i| ≤ ((1 + eps K p) ^ 3 - 1) * (|(1 - s i) * b.lo i| + |s i * b.hi i|) := by
  have e0 := eps_pos (K := K) p
  have f1 : IsFloat p (1 : K) := by simpa using float_pow (K := K) hp 0
  have z := float_zero (K := K) p
  refine ⟨fun hf => ⟨?_, ?_⟩, fun s i => ?_⟩
  · funext i
    simp only [boxRemap, sub_zero, h.fix f1, one_mul, zero_mul, h.fix z, add_zero, h.fix (hf i).1]
  · funext i
    simp only [boxRemap, sub_self, h.fix z, one_mul, zero_mul, zero_add, h.fix (hf i).2]
  · simp only [boxRemap, Box.remap]
    set e := eps K p
    set A := (1 - s i) * b.lo i with hA
    set B := s i * b.hi i with hB
    have a1 := h.rel hp (1 - s i)
    have a2 := h.rel hp (rnd (1 - s i) * b.lo i)
    have b2 := h.rel hp B
    have s2 := h.rel hp (rnd (rnd (1 - s i) * b.lo i) + rnd B)
    have a3 : |rnd (1 - s i) * b.lo i - A| ≤ e * |A| := by
      rw [hA, ← sub_mul, abs_mul, abs_mul, ← mul_assoc]
      exact mul_le_mul_of_nonneg_right a1 (abs_nonneg _)
    set A1 := rnd (1 - s i) * b.lo i
    set A2 := rnd A1
    set B2 := rnd B
    have hA0 := abs_nonneg A
    have hB0 := abs_nonneg B
    have a4 : |A1| ≤ (1 + e) * |A| := by
      have := abs_sub_abs_le_abs_sub A1 A
      linarith
    have a5 : |A2 - A| ≤ ((1 + e) ^ 2 - 1) * |A| := by
      have := abs_sub_le A2 A1 A
      have := mul_le_mul_of_nonneg_left a4 e0.le
      nlinarith
    have s3 : |A2 + B2 - (A + B)| ≤ ((1 + e) ^ 2 - 1) * (|A| + |B|) := by
      have := abs_add_le (A2 - A) (B2 - B)
      rw [show A2 - A + (B2 - B) = A2 + B2 - (A + B) by ring] at this
      have : e * |B| ≤ ((1 + e) ^ 2 - 1) * |B| := mul_le_mul_of_nonneg_right (by nlinarith) hB0
      linarith
    have s4 : |A2 + B2| ≤ (1 + e) ^ 2 * (|A| + |B|) := by
      have h1 := abs_sub_abs_le_abs_sub (A2 + B2) (A + B)
      have h2 := abs_add_le A B
      linarith
    have h1 := abs_sub_le (rnd (A2 + B2)) (A2 + B2) (A + B)
    have h2 := mul_le_mul_of_nonneg_left s4 e0.le
    calc _ ≤ e * ((1 + e) ^ 2 * (|A| + |B|)) + ((1 + e) ^ 2 - 1) * (|A| + |B|) := by linarith
      _ = _ := by ring

/-- **C121** refuted for `remap`: in every format with at least three bits there is a box of one point that some parameter between zero
and one is not mapped to. -/
theorem C121_remap_refuted (hp : 3 ≤ p) (h : IsRound p rnd) :
    ∃ (b : Box K 1) (s : K), FloatBox p b ∧ b.lo = b.hi ∧ IsFloat p s ∧ 0 ≤ s ∧ s ≤ 1 ∧ boxRemap rnd b (fun _ => s) 0 < b.lo 0 := by
  have hp1 : 1 ≤ p := by omega
  set u : K := 2 ^ (-(p : ℤ)) with hu
  have u0 : 0 < u := two_zpow_pos _
  have u8 : u ≤ 1 / 8 := by
    rw [hu, show (1 / 8 : K) = 2 ^ (-3 : ℤ) by norm_num]
    exact zle (by omega)
  have f1 : IsFloat p (1 : K) := by simpa using float_pow (K := K) hp1 0
  have hP : ((2 ^ p : ℤ) : K) * u = 1 := by
    rw [hu, Int.cast_pow, Int.cast_ofNat, ← zpow_natCast, ← zadd, add_neg_cancel, zpow_zero]
  have fs : IsFloat p (5 / 8 * u) := by
    refine ⟨5, -p - 3, ?_, ?_⟩
    · have : (2 : ℤ) ^ 3 ≤ 2 ^ p := pow_le_pow_right₀ (by norm_num) hp
      rw [abs_of_nonneg (by norm_num)]
      omega
    · rw [show (-(p : ℤ) - 3) = -p + -3 by ring, zadd, ← hu]
      norm_num
      ring
  have f7 : IsFloat p (7 / 8 * u) := by
    refine ⟨7, -p - 3, ?_, ?_⟩
    · have : (2 : ℤ) ^ 3 ≤ 2 ^ p := pow_le_pow_right₀ (by norm_num) hp
      rw [abs_of_nonneg (by norm_num)]
      omega
    · rw [show (-(p : ℤ) - 3) = -p + -3 by ring, zadd, ← hu]
      norm_num
      ring
  have fa : IsFloat p (1 + 2 * u) := by
    have : (1 + 2 * u : K) = ((2 ^ (p - 1) + 1 : ℤ) : K) * 2 ^ (-(p : ℤ) + 1) := by
      rw [zadd, zpow_one, ← hu, Int.cast_add, Int.cast_one]
      have : ((2 ^ p : ℤ) : K) = ((2 ^ (p - 1) : ℤ) : K) * 2 := by
        rw [show p = p - 1 + 1 by omega, pow_succ]
        simp
      rw [this] at hP
      linear_combination -hP
    rw [this]
    refine mem_le hp1 _ _ ?_
    have h1 : (2 : ℤ) ^ p = 2 ^ (p - 1) * 2 := by
      rw [← pow_succ]
      congr 1
      omega
    have h2 : (1 : ℤ) ≤ 2 ^ (p - 1) := one_le_pow₀ (by norm_num)
    rw [abs_of_nonneg (by omega)]
    omega
  have fu : IsFloat p (1 - u) := by
    have : (1 - u : K) = ((2 ^ p - 1 : ℤ) : K) * 2 ^ (-(p : ℤ)) := by
      rw [← hu, Int.cast_sub, sub_mul, hP]
      simp
    rw [this]
    refine mem_le hp1 _ _ ?_
    have h2 : (1 : ℤ) ≤ 2 ^ p := one_le_pow₀ (by norm_num)
    rw [abs_of_nonneg (by omega)]
    omega
  have r1 : rnd (1 - 5 / 8 * u) = 1 - u := by
    have hE : (-1 : ℤ) + 1 - p = -p := by ring
    have e : ((2 ^ p - 1 : ℤ) : K) * 2 ^ ((-1 : ℤ) + 1 - p) = 1 - u := by
      rw [hE, ← hu, Int.cast_sub, sub_mul, hP]
      simp
    have := h.eq_of_near hp1 (x := 1 - 5 / 8 * u) (E := -1) (2 ^ p - 1) (by norm_num; linarith) (by rw [e]; exact fu) (by
      rw [e, show (-1 : ℤ) - p = -p + -1 by ring, zadd, ← hu, show 1 - 5 / 8 * u - (1 - u) = 3 / 8 * u by ring, abs_of_pos (by linarith)]
      norm_num
      linarith)
    rw [this, e]
  have r2 : rnd ((1 - u) * (1 + 2 * u)) ≤ 1 := by
    have h1 : rnd ((1 - u) * (1 + 2 * u)) ≤ rnd (1 + (u - 2 * u ^ 2)) := h.mono (by nlinarith)
    rw [absorb hp1 h (by nlinarith) (by rw [← hu]; nlinarith)] at h1
    exact h1
  have r3 : rnd (5 / 8 * u * (1 + 2 * u)) ≤ 7 / 8 * u := h.le_of_le f7 (by nlinarith)
  refine ⟨⟨fun _ => 1 + 2 * u, fun _ => 1 + 2 * u⟩, 5 / 8 * u, fun _ => ⟨fa, fa⟩, rfl, fs, by linarith, by linarith, ?_⟩
  simp only [boxRemap, r1]
  have h1 : rnd (rnd ((1 - u) * (1 + 2 * u)) + rnd (5 / 8 * u * (1 + 2 * u))) ≤ rnd (1 + 7 / 8 * u) := h.mono (by linarith)
  rw [absorb hp1 h (by linarith) (by rw [← hu]; linarith)] at h1
  linarith

/-! ## Boxes of given sizes -/

/-- A small number is lost when subtracted from one. -/
theorem absorb_sub (hp : 1 ≤ p) (h : IsRound p rnd) {δ : K} (h0 : 0 ≤ δ) (h1 : δ < 2 ^ (-(p : ℤ) - 1)) : rnd (1 - δ) = 1 := by
  have f1 : IsFloat p (1 : K) := by simpa using float_pow (K := K) hp 0
  have hh : (2 : K) ^ (-(p : ℤ) - 1) ≤ 1 / 2 := by
    rw [show (1 / 2 : K) = 2 ^ (-1 : ℤ) by norm_num]
    exact zle (by omega)
  have e : ((2 ^ p : ℤ) : K) * 2 ^ ((-1 : ℤ) + 1 - p) = 1 := by
    rw [Int.cast_pow, Int.cast_ofNat, ← zpow_natCast, ← zadd, show (p : ℤ) + (-1 + 1 - p) = 0 by ring, zpow_zero]
  have := h.eq_of_near hp (x := 1 - δ) (E := -1) (2 ^ p) (by norm_num; linarith) (by rw [e]; exact f1) (by
    rw [e, show (1 - δ - 1 : K) = -δ by ring, abs_neg, abs_of_nonneg h0, show (-1 : ℤ) - p = -p - 1 by ring]
    exact h1)
  rw [this, e]

/-- **C121** refuted for sizes: in every format and dimension a box of positive sizes made about a centre, or given positive sizes, can
be a single point. -/
theorem C121_size_refuted (hp : 1 ≤ p) (h : IsRound p rnd) : ∃ δ : K, 0 < δ ∧ IsFloat p δ ∧
    boxFromCenter rnd (fun _ => 1) (fun _ => δ) = (⟨fun _ => 1, fun _ => 1⟩ : Box K n) ∧
    boxSetDimensions rnd ⟨fun _ => 1, fun _ => 1⟩ (fun _ => δ) = (⟨fun _ => 1, fun _ => 1⟩ : Box K n) := by
  set δ : K := 2 ^ (-(p : ℤ) - 1) with hδ
  have h0 : 0 < δ := two_zpow_pos _
  have fd : IsFloat p δ := float_pow hp _
  have hu : δ < 2 ^ (-(p : ℤ)) := zpow_lt_zpow_right₀ (by norm_num) (by omega)
  have r1 : rnd (1 - δ / 2) = 1 := absorb_sub hp h (by linarith) (by linarith)
  have r2 : rnd (1 + δ / 2) = 1 := absorb hp h (by linarith) (by linarith)
  refine ⟨δ, h0, fd, ?_, ?_⟩
  · simp only [boxFromCenter, spanningCorners, sub_zero, h.fix fd, h.fix (float_half fd), r1, r2, Box.mk.injEq]
    constructor <;> funext i <;> simp
  · simp only [boxSetDimensions, boxDimensions, sub_self, add_zero, h.fix (float_zero p), sub_zero, abs_of_pos h0, h.fix fd,
      h.fix (float_half fd), r1, r2]

theorem fitted_aux (hp : 6 ≤ p) (h : IsRound p rnd) (d : ℕ) (k : ℤ) (hd0 : 32 < d) (hd1 : d < 64) (hk : |k| ≤ 2 ^ p)
    (h1 : |(1 / d : K) - k * 2 ^ (-5 - (p : ℤ))| < 2 ^ (-6 - (p : ℤ)))
    (h2 : |(d * k * 2 ^ (-5 - (p : ℤ)) : K) - (1 - 2 ^ (-(p : ℤ)))| < 2 ^ (-1 - (p : ℤ))) :
    FloatBox p (⟨fun _ => 0, fun _ => (d : K)⟩ : Box K 1) ∧
    (fun _ => 0) ∉ (boxFittedTo rnd ⟨fun _ => 0, fun _ => (d : K)⟩ (⟨fun _ => 0, fun _ => 1⟩ : Box K 1)).pts := by
  have hp1 : 1 ≤ p := by omega
  have f1 : IsFloat p (1 : K) := by simpa using float_pow (K := K) hp1 0
  have z := float_zero (K := K) p
  have fd : IsFloat p (d : K) := by
    refine ⟨d, 0, ?_, by simp⟩
    have : (2 : ℤ) ^ 6 ≤ 2 ^ p := pow_le_pow_right₀ (by norm_num) hp
    rw [abs_of_nonneg (by omega)]
    omega
  have hdp : (0 : K) < d := by exact_mod_cast (by omega : 0 < d)
  set u : K := 2 ^ (-(p : ℤ)) with hu
  have u0 : 0 < u := two_zpow_pos _
  have u8 : u ≤ 1 / 8 := by
    rw [hu, show (1 / 8 : K) = 2 ^ (-3 : ℤ) by norm_num]
    exact zle (by omega)
  have hP : ((2 ^ p : ℤ) : K) * u = 1 := by
    rw [hu, Int.cast_pow, Int.cast_ofNat, ← zpow_natCast, ← zadd, add_neg_cancel, zpow_zero]
  have hm : rnd (1 / d) = k * 2 ^ (-5 - (p : ℤ)) := by
    have := h.eq_of_near hp1 (x := (1 / d : K)) (E := -6) k (by
      rw [show ((2 : K) ^ (-6 : ℤ)) = 1 / 64 by norm_num]
      refine one_div_le_one_div_of_le hdp ?_
      exact_mod_cast hd1.le) (mem_le hp1 _ _ hk) (by rw [show (-6 : ℤ) + 1 - p = -5 - p by ring]; exact h1)
    rw [this, show (-6 : ℤ) + 1 - p = -5 - p by ring]
  have e : ((2 ^ p - 1 : ℤ) : K) * 2 ^ ((-1 : ℤ) + 1 - p) = 1 - u := by
    rw [show (-1 : ℤ) + 1 - p = -p by ring, ← hu, Int.cast_sub, sub_mul, hP]
    simp
  have hh : (2 : K) ^ (-1 - (p : ℤ)) = u / 2 := by
    rw [show -1 - (p : ℤ) = -p + -1 by ring, zadd, ← hu]
    norm_num
    ring
  have fu : IsFloat p (1 - u) := by
    rw [← e]
    refine mem_le hp1 _ _ ?_
    have h2 : (1 : ℤ) ≤ 2 ^ p := one_le_pow₀ (by norm_num)
    rw [abs_of_nonneg (by omega)]
    omega
  have hr : rnd (d * rnd (1 / d)) = 1 - u := by
    rw [hm, ← mul_assoc]
    have := h.eq_of_near hp1 (x := (d * k * 2 ^ (-5 - (p : ℤ)) : K)) (E := -1) (2 ^ p - 1) (by
      rw [hh] at h2
      have := (abs_lt.1 h2).1
      norm_num
      linarith) (by rw [e]; exact fu) (by rw [e]; exact h2)
    rw [this, e]
  have hpos : 0 < rnd (1 / d) := (h.pos_iff hp1 _).2 (by positivity)
  refine ⟨fun _ => ⟨z, fd⟩, fun hc => ?_⟩
  have := (mem_pts.1 hc 0).1
  simp only [boxFittedTo, boxDimensions, boxCenter, sub_zero, add_zero, h.fix fd, h.fix f1, h.fix (float_half f1),
    show List.finRange 1 = [0] from rfl, List.foldl_cons, List.foldl_nil, if_neg hdp.ne', stdMax_eq, abs_of_pos hpos, max_eq_right hpos.le,
    hr, boxFromCenter, spanningCorners, vmin_apply, h.fix fu, h.fix (float_half fu)] at this
  rw [show (1 / 2 - (1 - u) / 2 : K) = u / 2 by ring, h.fix (float_half (float_pow hp1 _))] at this
  have h3 : 0 < rnd (1 / 2 + (1 - u) / 2) := (h.pos_iff hp1 _).2 (by linarith)
  rcases min_le_iff.1 this with h4 | h4 <;> linarith

/-- **C121** refuted for `fitted_to`: fitted to the unit interval, the interval from 0 to 41 in single and that from 0 to 49 in double
precision do not contain the point zero. -/
theorem C121_fitted_refuted (h : IsRound p rnd) :
    (p = 24 → (fun _ => 0) ∉ (boxFittedTo rnd ⟨fun _ => 0, fun _ => 41⟩ (⟨fun _ => 0, fun _ => 1⟩ : Box K 1)).pts) ∧
    (p = 53 → (fun _ => 0) ∉ (boxFittedTo rnd ⟨fun _ => 0, fun _ => 49⟩ (⟨fun _ => 0, fun _ => 1⟩ : Box K 1)).pts) := by
  constructor
  · rintro rfl
    have := (fitted_aux (by norm_num) h 41 13094412 (by norm_num) (by norm_num) (by norm_num)
      (by norm_num [abs_lt]) (by norm_num [abs_lt])).2
    simpa using this
  · rintro rfl
    have := (fitted_aux (by norm_num) h 49 5882252574524729 (by norm_num) (by norm_num) (by norm_num)
      (by norm_num [abs_lt]) (by norm_num [abs_lt])).2
    simpa using this

/-! ## Rays -/

/-- Two ends of intervals that are both infinite, or finite and within a relative error of `c` of the first. -/
def NearExt (c : K) (x y : Ext K) : Prop :=
  (x = ⊥ ∧ y = ⊥) ∨ (x = ((⊤ : WithTop K) : Ext K) ∧ y = ((⊤ : WithTop K) : Ext K)) ∨
    ∃ a b : K, x = (a : Ext K) ∧ y = (b : Ext K) ∧ |b - a| ≤ c * |a|

theorem near_iff {c a b : K} : |b - a| ≤ c * |a| ↔ a - c * |a| ≤ b ∧ b ≤ a + c * |a| := by
  rw [abs_le]
  constructor <;> rintro ⟨h1, h2⟩ <;> constructor <;> linarith

theorem lower_mono {c : K} (h0 : 0 ≤ c) (h1 : c ≤ 1) : Monotone fun a : K => a - c * |a| := by
  intro a b hab
  have h2 : |b| - |a| ≤ b - a := (abs_sub_abs_le_abs_sub b a).trans_eq (abs_of_nonneg (by linarith))
  have h3 := mul_le_mul_of_nonneg_left h2 h0
  have h4 : c * (b - a) ≤ 1 * (b - a) := mul_le_mul_of_nonneg_right h1 (by linarith)
  show a - c * |a| ≤ b - c * |b|
  linarith

theorem upper_mono {c : K} (h0 : 0 ≤ c) (h1 : c ≤ 1) : Monotone fun a : K => a + c * |a| := by
  intro a b hab
  have h2 : |a| - |b| ≤ b - a := (abs_sub_abs_le_abs_sub a b).trans_eq (by rw [abs_sub_comm, abs_of_nonneg (by linarith)])
  have h3 := mul_le_mul_of_nonneg_left h2 h0
  have h4 : c * (b - a) ≤ 1 * (b - a) := mul_le_mul_of_nonneg_right h1 (by linarith)
  show a + c * |a| ≤ b + c * |b|
  linarith

theorem near_max {c a b a' b' : K} (h0 : 0 ≤ c) (h1 : c ≤ 1) (ha : |a' - a| ≤ c * |a|) (hb : |b' - b| ≤ c * |b|) :
    |max a' b' - max a b| ≤ c * |max a b| := by
  rw [near_iff] at *
  have l : max a b - c * |max a b| = max (a - c * |a|) (b - c * |b|) := (lower_mono h0 h1).map_max
  have u : max a b + c * |max a b| = max (a + c * |a|) (b + c * |b|) := (upper_mono h0 h1).map_max
  rw [l, u]
  exact ⟨max_le_max ha.1 hb.1, max_le_max ha.2 hb.2⟩

theorem near_min {c a b a' b' : K} (h0 : 0 ≤ c) (h1 : c ≤ 1) (ha : |a' - a| ≤ c * |a|) (hb : |b' - b| ≤ c * |b|) :
    |min a' b' - min a b| ≤ c * |min a b| := by
  rw [near_iff] at *
  have l : min a b - c * |min a b| = min (a - c * |a|) (b - c * |b|) := (lower_mono h0 h1).map_min
  have u : min a b + c * |min a b| = min (a + c * |a|) (b + c * |b|) := (upper_mono h0 h1).map_min
  rw [l, u]
  exact ⟨min_le_min ha.1 hb.1, min_le_min ha.2 hb.2⟩

theorem coe_max (a b : K) : max ((a : K) : Ext K) (b : Ext K) = ((max a b : K) : Ext K) := by
  rw [← WithBot.coe_max, ← WithTop.coe_max]
theorem coe_min (a b : K) : min ((a : K) : Ext K) (b : Ext K) = ((min a b : K) : Ext K) := by
  rw [← WithBot.coe_min, ← WithTop.coe_min]

theorem NearExt.max {c : K} (h0 : 0 ≤ c) (h1 : c ≤ 1) {x y : Ext K} (h : NearExt c x y) {b b' : K} (hb : |b' - b| ≤ c * |b|) :
    NearExt c (max x (b : Ext K)) (max y (b' : Ext K)) := by
  rcases h with ⟨rfl, rfl⟩ | ⟨rfl, rfl⟩ | ⟨a, a', rfl, rfl, ha⟩
  · exact .inr (.inr ⟨b, b', by simp, by simp, hb⟩)
  · refine .inr (.inl ⟨max_eq_left (WithBot.coe_le_coe.2 le_top), max_eq_left (WithBot.coe_le_coe.2 le_top)⟩)
  · exact .inr (.inr ⟨_, _, coe_max _ _, coe_max _ _, near_max h0 h1 ha hb⟩)

theorem NearExt.min {c : K} (h0 : 0 ≤ c) (h1 : c ≤ 1) {x y : Ext K} (h : NearExt c x y) {b b' : K} (hb : |b' - b| ≤ c * |b|) :
    NearExt c (min x (b : Ext K)) (min y (b' : Ext K)) := by
  rcases h with ⟨rfl, rfl⟩ | ⟨rfl, rfl⟩ | ⟨a, a', rfl, rfl, ha⟩
  · exact .inl ⟨min_eq_left bot_le, min_eq_left bot_le⟩
  · exact .inr (.inr ⟨b, b', min_eq_right (WithBot.coe_le_coe.2 le_top), min_eq_right (WithBot.coe_le_coe.2 le_top), hb⟩)
  · exact .inr (.inr ⟨_, _, coe_min _ _, coe_min _ _, near_min h0 h1 ha hb⟩)

/-- The quotient of a difference has a relative error of two roundings. -/
theorem quot_near (hp : 1 ≤ p) (h : IsRound p rnd) (x d : K) : |rnd (rnd x / d) - x / d| ≤ ((1 + eps K p) ^ 2 - 1) * |x / d| := by
  have e0 := eps_pos (K := K) p
  have h1 := h.rel hp x
  have h2 := h.rel hp (rnd x / d)
  have h3 : |rnd x / d - x / d| ≤ eps K p * |x / d| := by
    rw [← sub_div, abs_div, abs_div, ← mul_div_assoc]
    exact div_le_div_of_nonneg_right h1 (abs_nonneg _)
  have h4 := abs_sub_le (rnd (rnd x / d)) (rnd x / d) (x / d)
  have h5 := abs_sub_abs_le_abs_sub (rnd x / d) (x / d)
  have h6 := mul_le_mul_of_nonneg_left (show |rnd x / d| ≤ (1 + eps K p) * |x / d| by linarith) e0.le
  nlinarith

theorem slabs_near (hp : 2 ≤ p) (h : IsRound p rnd) (b : Box K n) (o d : Fin n → K) (l : List (Fin n)) (s s' : Ext K × Ext K)
    (h1 : NearExt ((1 + eps K p) ^ 2 - 1) s.1 s'.1) (h2 : NearExt ((1 + eps K p) ^ 2 - 1) s.2 s'.2) :
    (boxSlabs rnd b o d l s' = none ↔ b.slabs o d l s = none) ∧ ∀ r r', b.slabs o d l s = some r → boxSlabs rnd b o d l s' = some r' →
      NearExt ((1 + eps K p) ^ 2 - 1) r.1 r'.1 ∧ NearExt ((1 + eps K p) ^ 2 - 1) r.2 r'.2 := by
  have e0 := eps_pos (K := K) p
  have e1 : eps K p ≤ 1 / 4 := by
    rw [eps, show (1 / 4 : K) = 2 ^ (-2 : ℤ) by norm_num]
    exact zle (by omega)
  have c0 : 0 ≤ (1 + eps K p) ^ 2 - 1 := by nlinarith
  have c1 : (1 + eps K p) ^ 2 - 1 ≤ 1 := by nlinarith
  induction l generalizing s s' with
  | nil =>
    simp only [boxSlabs, Box.slabs, Option.some.injEq, reduceCtorEq, true_and]
    rintro r r' rfl rfl
    exact ⟨h1, h2⟩
  | cons i is ih =>
    rw [boxSlabs, Box.slabs]
    split_ifs with hd ho
    · simp
    · exact ih s s' h1 h2
    · have q0 := quot_near (by omega) h (b.hi i - o i) (d i)
      have q1 := quot_near (by omega) h (b.lo i - o i) (d i)
      refine ih _ _ ?_ ?_
      · simp only [stdMax_eq, stdMin_eq]
        exact h1.max c0 c1 (near_min c0 c1 q0 q1)
      · simp only [stdMax_eq, stdMin_eq]
        exact h2.min c0 c1 (near_max c0 c1 q0 q1)

/-- **C121.** A ray and a box: the computed interval is that of the exact intersection with each end off by a relative error of two
roundings.  Rays missed because they are parallel to a slab are the same, and infinite ends are the same. -/
theorem C121_ray (hp : 2 ≤ p) (h : IsRound p rnd) (b : Box K n) (o d : Fin n → K) :
    (boxIntersectRay rnd b o d = none ↔ b.intersectRay o d = none) ∧
    ∀ r r', b.intersectRay o d = some r → boxIntersectRay rnd b o d = some r' →
      NearExt ((1 + eps K p) ^ 2 - 1) r.1 r'.1 ∧ NearExt ((1 + eps K p) ^ 2 - 1) r.2 r'.2 :=
  slabs_near hp h b o d _ _ _ (.inl ⟨rfl, rfl⟩) (.inr (.inl ⟨rfl, rfl⟩))

/-- **C121.** A ray from a point of the box always hits it, at an interval around zero. -/
theorem C121_ray_inside (hp : 2 ≤ p) (h : IsRound p rnd) {b : Box K n} {o : Fin n → K} (ho : o ∈ b.pts) (d : Fin n → K) :
    ∃ r, boxIntersectRay rnd b o d = some r ∧ r.1 ≤ ((0 : K) : Ext K) ∧ ((0 : K) : Ext K) ≤ r.2 := by
  have hb : ∀ i, b.lo i ≤ b.hi i := fun i => (mem_pts.1 ho i).1.trans (mem_pts.1 ho i).2
  have key : ∀ (l : List (Fin n)) (s : Ext K × Ext K), s.1 ≤ ((0 : K) : Ext K) → ((0 : K) : Ext K) ≤ s.2 →
      ∃ r, boxSlabs rnd b o d l s = some r ∧ r.1 ≤ ((0 : K) : Ext K) ∧ ((0 : K) : Ext K) ≤ r.2 := by
    intro l
    induction l with
    | nil => exact fun s h1 h2 => ⟨s, rfl, h1, h2⟩
    | cons i is ih =>
      intro s h1 h2
      rw [boxSlabs]
      have hl := (mem_pts.1 ho i).1
      have hh := (mem_pts.1 ho i).2
      split_ifs with hd hm
      · rcases hm with hm | hm <;> exact absurd hm (by rw [not_lt]; assumption)
      · exact ih s h1 h2
      · have a0 : 0 ≤ rnd (b.hi i - o i) := (h.nonneg_iff (by omega) _).2 (by linarith)
        have a1 : rnd (b.lo i - o i) ≤ 0 := (h.nonpos (by omega) _).2 (by linarith)
        have z := float_zero (K := K) p
        refine ih _ ?_ ?_
        · simp only [stdMax_eq, stdMin_eq]
          refine max_le h1 (WithBot.coe_le_coe.2 (WithTop.coe_le_coe.2 ?_))
          rcases lt_or_gt_of_ne hd with hd | hd
          · exact min_le_of_left_le (h.le_of_le z (div_nonpos_of_nonneg_of_nonpos a0 hd.le))
          · exact min_le_of_right_le (h.le_of_le z (div_nonpos_of_nonpos_of_nonneg a1 hd.le))
        · simp only [stdMax_eq, stdMin_eq]
          refine le_min h2 (WithBot.coe_le_coe.2 (WithTop.coe_le_coe.2 ?_))
          rcases lt_or_gt_of_ne hd with hd | hd
          · exact le_max_of_le_right (h.ge_of_ge z (div_nonneg_of_nonpos a1 hd.le))
          · exact le_max_of_le_left (h.ge_of_ge z (div_nonneg a0 hd.le))
  exact key _ _ bot_le (WithBot.coe_le_coe.2 le_top)

/-- **C121** refuted for rays: in every format with at least four bits some ray through the interior of a rectangle is reported to miss it. -/
theorem C121_ray_refuted (hp : 4 ≤ p) (h : IsRound p rnd) :
    ∃ (b : Box K 2) (o d : Fin 2 → K), FloatBox p b ∧ (∀ i, IsFloat p (o i)) ∧ (∀ i, IsFloat p (d i)) ∧
      (∃ t, 0 < t ∧ ∀ i, b.lo i < o i + t * d i ∧ o i + t * d i < b.hi i) ∧
      ∃ r, boxIntersectRay rnd b o d = some r ∧ r.2 < r.1 := by
  have hp1 : 1 ≤ p := by omega
  have z := float_zero (K := K) p
  set u : K := 2 ^ (-(p : ℤ)) with hu
  have u0 : 0 < u := two_zpow_pos _
  have u8 : u ≤ 1 / 16 := by
    rw [hu, show (1 / 16 : K) = 2 ^ (-4 : ℤ) by norm_num]
    exact zle (by omega)
  have f1 : IsFloat p (1 : K) := by simpa using float_pow (K := K) hp1 0
  have small : ∀ (m : ℤ) (e : ℤ), |m| ≤ 16 → IsFloat p ((m : K) * 2 ^ e) := fun m e hm => mem_le hp1 _ _ (by
    have : (2 : ℤ) ^ 4 ≤ 2 ^ p := pow_le_pow_right₀ (by norm_num) hp
    omega)
  have hu3 : (2 : K) ^ (-(p : ℤ) - 3) = u / 8 := by
    rw [show (-(p : ℤ) - 3) = -p + -3 by ring, zadd, ← hu]
    norm_num
    ring
  have f9 : IsFloat p (9 / 8 * u) := by
    have := small 9 (-p - 3) (by norm_num)
    rw [hu3] at this
    convert this using 1
    push_cast
    ring
  have f7 : IsFloat p (7 / 8 * u) := by
    have := small 7 (-p - 3) (by norm_num)
    rw [hu3] at this
    convert this using 1
    push_cast
    ring
  have f32 : IsFloat p (3 / 2 : K) := by
    convert small 3 (-1) (by norm_num) using 1
    norm_num
  have f52 : IsFloat p (5 / 2 : K) := by
    convert small 5 (-1) (by norm_num) using 1
    norm_num
  have f3 : IsFloat p (-3 : K) := by
    convert small (-3) 0 (by norm_num) using 1
    norm_num
  have f2 : IsFloat p (-2 : K) := by
    convert small (-2) 0 (by norm_num) using 1
    norm_num
  obtain ⟨q, rfl⟩ : ∃ q, p = q + 1 := ⟨p - 1, by omega⟩
  have hP : ((2 ^ q : ℤ) : K) * (2 * u) = 1 := by
    rw [hu, Int.cast_pow, Int.cast_ofNat, ← zpow_natCast, mul_comm 2, ← mul_assoc, ← zadd, show (q : ℤ) + -((q + 1 : ℕ) : ℤ) = -1 by push_cast; ring]
    norm_num
  have he : (2 : K) ^ ((0 : ℤ) + 1 - ((q + 1 : ℕ) : ℤ)) = 2 * u := by
    rw [hu, show ((0 : ℤ) + 1 - ((q + 1 : ℕ) : ℤ)) = -((q + 1 : ℕ) : ℤ) + 1 by ring, zadd, zpow_one, mul_comm]
  have hq : (8 : ℤ) ≤ 2 ^ q := by
    have : (2 : ℤ) ^ 3 ≤ 2 ^ q := pow_le_pow_right₀ (by norm_num) (by omega)
    linarith
  have hq2 : (2 : ℤ) ^ (q + 1) = 2 ^ q * 2 := pow_succ _ _
  obtain ⟨w, hw⟩ : ∃ w : ℤ, (2 : ℤ) ^ q = 2 * w := ⟨2 ^ (q - 1), by rw [← pow_succ']; congr 1; omega⟩
  have hW : (w : K) * (2 * u) = 1 / 2 := by
    rw [hw] at hP
    push_cast at hP
    linear_combination hP / 2
  have ea : ((3 * w + 1 : ℤ) : K) * 2 ^ ((0 : ℤ) + 1 - ((q + 1 : ℕ) : ℤ)) = 3 / 2 + 2 * u := by
    rw [he]
    push_cast
    linear_combination 3 * hW
  have eb : ((2 * w + 1 : ℤ) : K) * 2 ^ ((0 : ℤ) + 1 - ((q + 1 : ℕ) : ℤ)) = 1 + 2 * u := by
    rw [he]
    push_cast
    linear_combination 2 * hW
  have r1 : rnd (9 / 8 * u - -(3 / 2)) = 3 / 2 + 2 * u := by
    have := h.eq_of_near hp1 (x := 9 / 8 * u - -(3 / 2)) (E := 0) (3 * w + 1) (by norm_num; linarith)
      (mem_le hp1 _ _ (by rw [abs_of_nonneg (by omega)]; omega)) (by
        rw [ea, zero_sub, ← hu, show 9 / 8 * u - -(3 / 2) - (3 / 2 + 2 * u) = -(7 / 8 * u) by ring, abs_neg, abs_of_pos (by linarith)]
        linarith)
    rw [this, ea]
  have r2 : rnd ((3 / 2 + 2 * u) / (3 / 2)) = 1 + 2 * u := by
    have := h.eq_of_near hp1 (x := (3 / 2 + 2 * u) / (3 / 2)) (E := 0) (2 * w + 1) (by norm_num; rw [le_div_iff₀ (by norm_num)]; linarith)
      (mem_le hp1 _ _ (by rw [abs_of_nonneg (by omega)]; omega)) (by
        rw [eb, zero_sub, ← hu, show (3 / 2 + 2 * u) / (3 / 2) - (1 + 2 * u) = -(2 / 3 * u) by ring, abs_neg, abs_of_pos (by linarith)]
        linarith)
    rw [this, eb]
  have r3 : 3 / 2 ≤ rnd (5 / 2 / (3 / 2)) := h.ge_of_ge f32 (by norm_num)
  have r4 : rnd (7 / 8 * u - -1) = 1 := by
    rw [show 7 / 8 * u - -1 = 1 + 7 / 8 * u by ring]
    exact absorb hp1 h (by linarith) (by rw [← hu]; linarith)
  refine ⟨⟨![9 / 8 * u, -3], ![1, 7 / 8 * u]⟩, ![-(3 / 2), -1], ![3 / 2, 1], ?_, ?_, ?_, ⟨1 + 13 / 16 * u, by linarith, ?_⟩, ?_⟩
  · intro i
    fin_cases i
    · exact ⟨f9, f1⟩
    · exact ⟨f3, f7⟩
  · intro i
    fin_cases i
    · exact float_neg f32
    · exact float_neg f1
  · intro i
    fin_cases i
    · exact f32
    · exact f1
  · intro i
    fin_cases i <;> simp <;> constructor <;> linarith
  · refine ⟨(((1 + 2 * u : K) : Ext K), ((1 : K) : Ext K)), ?_, WithBot.coe_lt_coe.2 (WithTop.coe_lt_coe.2 (by linarith))⟩
    rw [boxIntersectRay, show List.finRange 2 = [0, 1] from rfl]
    simp only [boxSlabs, Matrix.cons_val_zero, Matrix.cons_val_one, stdMax_eq, stdMin_eq, r1, r2, r4, div_one,
      show (1 - -(3 / 2) : K) = 5 / 2 by norm_num, h.fix f52, show (-3 - -1 : K) = -2 by norm_num, h.fix f2, h.fix f1]
    rw [if_neg (by norm_num), if_neg (by norm_num), min_eq_right (show 1 + 2 * u ≤ rnd (5 / 2 / (3 / 2)) by linarith),
      max_eq_left (show 1 + 2 * u ≤ rnd (5 / 2 / (3 / 2)) by linarith), min_eq_right (show (-2 : K) ≤ 1 by norm_num),
      max_eq_left (show (-2 : K) ≤ 1 by norm_num), max_eq_right bot_le, coe_max,
      min_eq_right (WithBot.coe_le_coe.2 le_top : ((rnd (5 / 2 / (3 / 2)) : K) : Ext K) ≤ ((⊤ : WithTop K) : Ext K)), coe_min,
      max_eq_left (by linarith), min_eq_right (by linarith)]

/-! ## Corners -/

theorem near_round (hp : 1 ≤ p) (h : IsRound p rnd) {c x y : K} (hc : |y - x| ≤ c * |x|) : |rnd y - x| ≤ ((1 + c) * (1 + eps K p) - 1) * |x| := by
  have e0 := eps_pos (K := K) p
  have h1 := h.rel hp y
  have h2 := abs_sub_le (rnd y) y x
  have h3 := abs_sub_abs_le_abs_sub y x
  have h4 := mul_le_mul_of_nonneg_left (show |y| ≤ (1 + c) * |x| by linarith) e0.le
  linarith

theorem near_mul {c d x y x' y' : K} (hx : |x' - x| ≤ c * |x|) (hy : |y' - y| ≤ d * |y|) :
    |x' * y' - x * y| ≤ ((1 + c) * (1 + d) - 1) * |x * y| := by
  have h1 : |x' * y' - x * y| ≤ |x' - x| * |y' - y| + |x' - x| * |y| + |x| * |y' - y| := by
    rw [← abs_mul, ← abs_mul, ← abs_mul, show x' * y' - x * y = (x' - x) * (y' - y) + (x' - x) * y + x * (y' - y) by ring]
    exact abs_add_three _ _ _
  have h2 : |x' - x| * |y' - y| ≤ c * |x| * (d * |y|) := mul_le_mul hx hy (abs_nonneg _) ((abs_nonneg _).trans hx)
  have h3 := mul_le_mul_of_nonneg_right hx (abs_nonneg y)
  have h4 := mul_le_mul_of_nonneg_left hy (abs_nonneg x)
  rw [abs_mul]
  linarith

theorem near_inv {d y y' : K} (d1 : d < 1) (hy : |y' - y| ≤ d * |y|) : |y'⁻¹ - y⁻¹| ≤ (1 / (1 - d) - 1) * |y⁻¹| := by
  rcases eq_or_ne y 0 with rfl | h0
  · simp only [abs_zero, mul_zero, sub_zero, abs_nonpos_iff] at hy
    simp [hy]
  have hy0 : 0 < |y| := abs_pos.2 h0
  have h1 : (1 - d) * |y| ≤ |y'| := by
    have := abs_sub_abs_le_abs_sub y y'
    rw [abs_sub_comm] at this
    linarith
  have h2 : 0 < |y'| := lt_of_lt_of_le (mul_pos (by linarith) hy0) h1
  have h3 : y' ≠ 0 := abs_pos.1 h2
  have hd : 0 < 1 - d := by linarith
  have d0 : 0 ≤ d := by
    by_contra hc
    push Not at hc
    have := mul_neg_of_neg_of_pos hc hy0
    linarith [abs_nonneg (y' - y)]
  rw [show y'⁻¹ - y⁻¹ = (y - y') / (y' * y) by field_simp, abs_div, abs_mul, abs_sub_comm, abs_inv, div_le_iff₀ (mul_pos h2 hy0)]
  have e : (1 / (1 - d) - 1) * |y|⁻¹ * (|y'| * |y|) = d / (1 - d) * |y'| := by
    field_simp
    ring
  rw [e]
  calc _ ≤ d * |y| := hy
    _ = d / (1 - d) * ((1 - d) * |y|) := by field_simp
    _ ≤ _ := mul_le_mul_of_nonneg_left h1 (div_nonneg d0 hd.le)

/-- **C121.** Every corner of a box moved, grown, added or made from its centre and sizes is within rounding of the exact one. -/
theorem C121_corners (hp : 1 ≤ p) (h : IsRound p rnd) (b a : Box K n) (d : Fin n → K) (i : Fin n) :
    |(boxTranslate rnd b d).lo i - (b.translate d).lo i| ≤ eps K p * |(b.translate d).lo i| ∧
    |(boxTranslate rnd b d).hi i - (b.translate d).hi i| ≤ eps K p * |(b.translate d).hi i| ∧
    |(boxDilated rnd b d).lo i - (b.dilated d).lo i| ≤ eps K p * |(b.dilated d).lo i| ∧
    |(boxDilated rnd b d).hi i - (b.dilated d).hi i| ≤ eps K p * |(b.dilated d).hi i| ∧
    |(boxMinkowski rnd a b).lo i - (a.minkowski b).lo i| ≤ eps K p * |(a.minkowski b).lo i| ∧
    |(boxMinkowski rnd a b).hi i - (a.minkowski b).hi i| ≤ eps K p * |(a.minkowski b).hi i| :=
  ⟨h.rel hp _, h.rel hp _, h.rel hp _, h.rel hp _, h.rel hp _, h.rel hp _⟩

/-- **C121.** A box made from its centre and sizes is the exact one with each corner rounded. -/
theorem C121_from_center_corners (h : IsRound p rnd) {c dims : Fin n → K} (hd : ∀ i, IsFloat p (dims i)) (i : Fin n) :
    (boxFromCenter rnd c dims).lo i = rnd ((Rect.fromCenterF c dims).lo i) ∧ (boxFromCenter rnd c dims).hi i = rnd ((Rect.fromCenterF c dims).hi i) := by
  simp only [boxFromCenter, Rect.fromCenterF, spanningCorners, vmin_apply, vmax_apply, sub_zero, h.fix (hd i), h.fix (float_half (hd i))]
  have hm : Monotone rnd := fun _ _ hab => h.mono hab
  exact ⟨hm.map_min.symm, hm.map_max.symm⟩

/-- **C121.** The corners of a box given other sizes are within three roundings of the terms they are the sum of. -/
theorem C121_set_dimensions (hp : 1 ≤ p) (h : IsRound p rnd) (b : Box K n) (dim : Fin n → K) (i : Fin n) :
    |(boxSetDimensions rnd b dim).lo i - (b.setDimensionsF dim).lo i| ≤ ((1 + eps K p) ^ 3 - 1) * (|b.lo i| + (|dim i| + |b.hi i - b.lo i|) / 2) ∧
    |(boxSetDimensions rnd b dim).hi i - (b.setDimensionsF dim).hi i| ≤ ((1 + eps K p) ^ 3 - 1) * (|b.hi i| + (|dim i| + |b.hi i - b.lo i|) / 2) := by
  have e0 := eps_pos (K := K) p
  have hD := (C121_dimensions hp h b i).2.1
  simp only [boxSetDimensions, Box.setDimensionsF, Box.dimensions, add_zero, Pi.add_apply, Pi.sub_apply, Pi.zero_apply]
  set D' := boxDimensions rnd b i
  set D := b.hi i - b.lo i
  have hr := h.rel hp (|dim i| - D')
  rw [h.fix (float_half (h.mem _))]
  set g := rnd (|dim i| - D')
  set e := eps K p
  have d0 := abs_nonneg D
  have m0 := abs_nonneg (dim i)
  have h1 : |D'| ≤ (1 + e) * |D| := by
    have := abs_sub_abs_le_abs_sub D' D
    linarith
  have h2 : |(|dim i| - D')| ≤ |dim i| + (1 + e) * |D| := by
    have := abs_sub |dim i| D'
    rw [abs_abs] at this
    linarith
  have h3 := hr.trans (mul_le_mul_of_nonneg_left h2 e0.le)
  have h4 : |g - (|dim i| - D)| ≤ ((1 + e) ^ 2 - 1) * (|dim i| + |D|) := by
    have := abs_sub_le g (|dim i| - D') (|dim i| - D)
    rw [show |dim i| - D' - (|dim i| - D) = -(D' - D) by ring, abs_neg] at this
    have h7 : e * |dim i| ≤ ((1 + e) ^ 2 - 1) * |dim i| := mul_le_mul_of_nonneg_right (by nlinarith) m0
    linarith
  have h5 : |(|dim i| - D)| ≤ |dim i| + |D| := by
    have := abs_sub |dim i| D
    rwa [abs_abs] at this
  have h6 : |g| ≤ (1 + e) ^ 2 * (|dim i| + |D|) := by
    have := abs_sub_abs_le_abs_sub g (|dim i| - D)
    linarith
  have key : ∀ x y t : K, |t| ≤ |x| + |g| / 2 → |t - y| = |g - (|dim i| - D)| / 2 → |rnd t - y| ≤ ((1 + e) ^ 3 - 1) * (|x| + (|dim i| + |D|) / 2) := by
    intro x y t ht hy
    have r := h.rel hp t
    have r2 := abs_sub_le (rnd t) t y
    have r3 := mul_le_mul_of_nonneg_left ht e0.le
    have r4 := mul_le_mul_of_nonneg_left h6 e0.le
    have x0 : e * |x| ≤ ((1 + e) ^ 3 - 1) * |x| := mul_le_mul_of_nonneg_right (by nlinarith [pow_pos e0 3]) (abs_nonneg _)
    nlinarith
  constructor
  · refine key _ _ _ ?_ ?_
    · have := abs_sub (b.lo i) (g / 2)
      rwa [abs_div, abs_of_pos (show (0 : K) < 2 by norm_num)] at this
    · rw [show b.lo i - g / 2 - (b.lo i - (|dim i| - D) / 2) = -((g - (|dim i| - D)) / 2) by ring, abs_neg, abs_div, abs_of_pos (show (0 : K) < 2 by norm_num)]
  · refine key _ _ _ ?_ ?_
    · have := abs_add_le (b.hi i) (g / 2)
      rwa [abs_div, abs_of_pos (show (0 : K) < 2 by norm_num)] at this
    · rw [show b.hi i + g / 2 - (b.hi i + (|dim i| - D) / 2) = (g - (|dim i| - D)) / 2 by ring, abs_div, abs_of_pos (show (0 : K) < 2 by norm_num)]

theorem near_fold (f f' : Fin n → K) {c : K} (c0 : 0 ≤ c) (c1 : c ≤ 1) (hf : ∀ i, |f' i - f i| ≤ c * |f i|) (l : List (Fin n)) {m m' : K}
    (hm : |m' - m| ≤ c * |m|) :
    |l.foldl (fun m i => stdMax m |f' i|) m' - l.foldl (fun m i => stdMax m |f i|) m| ≤ c * |l.foldl (fun m i => stdMax m |f i|) m| := by
  induction l generalizing m m' with
  | nil => exact hm
  | cons i is ih =>
    simp only [List.foldl_cons]
    refine ih ?_
    rw [stdMax_eq, stdMax_eq]
    refine near_max c0 c1 hm ?_
    rw [abs_abs]
    exact (abs_abs_sub_abs_le _ _).trans (hf i)

/-- **C121.** The corners of a fitted box are within six roundings of the terms they are the sum of: the centre and half the size. -/
theorem C121_fitted (hp : 3 ≤ p) (h : IsRound p rnd) (a b : Box K n) (i : Fin n) :
    let s := (a.fittedTo b).hi i - (a.fittedTo b).lo i
    let c := (b.lo i + b.hi i) / 2
    |(boxFittedTo rnd a b).lo i - (a.fittedTo b).lo i| ≤ ((1 + eps K p) ^ 5 / (1 - eps K p) - 1) * (|c| + s / 2) ∧
    |(boxFittedTo rnd a b).hi i - (a.fittedTo b).hi i| ≤ ((1 + eps K p) ^ 5 / (1 - eps K p) - 1) * (|c| + s / 2) := by
  have hp1 : 1 ≤ p := by omega
  have e0 := eps_pos (K := K) p
  have e1 : eps K p ≤ 1 / 8 := by
    rw [eps, show (1 / 8 : K) = 2 ^ (-3 : ℤ) by norm_num]
    exact zle (by omega)
  intro s c
  set e := eps K p with he
  have hi : 0 < 1 - e := by linarith
  have hD : ∀ (b : Box K n) i, |boxDimensions rnd b i - b.dimensions 0 i| ≤ e * |b.dimensions 0 i| := fun b i => by
    simpa [Box.dimensions] using (C121_dimensions hp1 h b i).2.1
  have hz : ∀ (b : Box K n) i, boxDimensions rnd b i = 0 ↔ b.dimensions 0 i = 0 := fun b i => by
    rw [(C121_dimensions hp1 h b i).2.2.1]
    simp [Box.dimensions, sub_eq_zero, eq_comm (a := b.hi i)]
  have hq : ∀ i, |(if boxDimensions rnd a i = 0 then 0 else rnd (boxDimensions rnd b i / boxDimensions rnd a i)) -
      (if a.dimensions 0 i = 0 then 0 else b.dimensions 0 i / a.dimensions 0 i)| ≤
      ((1 + e) ^ 2 / (1 - e) - 1) * |if a.dimensions 0 i = 0 then 0 else b.dimensions 0 i / a.dimensions 0 i| := by
    intro i
    by_cases h0 : a.dimensions 0 i = 0
    · rw [if_pos h0, if_pos ((hz a i).2 h0)]
      simp
    · rw [if_neg h0, if_neg (fun hc => h0 ((hz a i).1 hc)), div_eq_mul_inv, div_eq_mul_inv]
      refine (near_round hp1 h (near_mul (hD b i) (near_inv (by linarith) (hD a i)))).trans (le_of_eq ?_)
      rw [← he]
      congr 1
      field_simp
      ring
  have c0 : 0 ≤ (1 + e) ^ 2 / (1 - e) - 1 := by
    rw [sub_nonneg, le_div_iff₀ hi]
    nlinarith
  have c1 : (1 + e) ^ 2 / (1 - e) - 1 ≤ 1 := by
    rw [sub_le_iff_le_add, div_le_iff₀ hi]
    nlinarith
  have hm := near_fold _ _ c0 c1 hq (List.finRange n) (m := 0) (m' := 0) (by simp)
  have hsz : ∀ i, 0 ≤ (a.fittedTo b).hi i - (a.fittedTo b).lo i := fun i => by
    rw [sub_nonneg]
    simp only [Box.fittedTo, Rect.fromCenterF, spanningCorners, vmin_apply, vmax_apply]
    exact min_le_max
  have hc := (near_round hp1 h (c := 0) (x := b.hi i + b.lo i) (y := b.hi i + b.lo i) (by simp))
  simp only [boxFittedTo, Box.fittedTo] at *
  set m := (List.finRange n).foldl (fun m i => stdMax m |if a.dimensions 0 i = 0 then 0 else b.dimensions 0 i / a.dimensions 0 i|) 0
  set m' := (List.finRange n).foldl (fun m i => stdMax m |if boxDimensions rnd a i = 0 then 0 else rnd (boxDimensions rnd b i / boxDimensions rnd a i)|) 0
  have hw : |rnd (boxDimensions rnd a i * m') - a.dimensions 0 i * m| ≤ ((1 + e) ^ 4 / (1 - e) - 1) * |a.dimensions 0 i * m| := by
    refine (near_round hp1 h (near_mul (hD a i) hm)).trans (le_of_eq ?_)
    rw [← he]
    congr 1
    field_simp
    ring
  have hcc := C121_from_center_corners h (c := boxCenter rnd b) (dims := fun i => rnd (boxDimensions rnd a i * m')) (fun i => h.mem _) i
  rw [hcc.1, hcc.2]
  set w' := rnd (boxDimensions rnd a i * m') with hw'
  set w := a.dimensions 0 i * m with hwd
  have hmin : ∀ c w : K, min (c - w / 2) (c + w / 2) = c - |w| / 2 := fun c w => by
    rcases le_total 0 w with h0 | h0
    · rw [abs_of_nonneg h0, min_eq_left (by linarith)]
    · rw [abs_of_nonpos h0, min_eq_right (by linarith)]
      ring
  have hmax : ∀ c w : K, max (c - w / 2) (c + w / 2) = c + |w| / 2 := fun c w => by
    rcases le_total 0 w with h0 | h0
    · rw [abs_of_nonneg h0, max_eq_right (by linarith)]
    · rw [abs_of_nonpos h0, max_eq_left (by linarith)]
      ring
  have hs : s = |w| := by
    simp only [s, Box.fittedTo, Rect.fromCenterF, spanningCorners, vmin_apply, vmax_apply, hmin, hmax]
    rw [hwd]
    ring
  simp only [Rect.fromCenterF, spanningCorners, vmin_apply, vmax_apply, hmin, hmax, ← hw', ← hwd, hs]
  have hC : |boxCenter rnd b i - c| ≤ e * |c| := by
    have h1 := h.rel hp1 (b.hi i + b.lo i)
    rw [boxCenter, add_zero, h.fix (h.mem _), h.fix (float_half (h.mem _)), show c = (b.hi i + b.lo i) / 2 by simp only [c]; ring, ← sub_div,
      abs_div, abs_div, ← mul_div_assoc]
    exact div_le_div_of_nonneg_right h1 (abs_nonneg _)
  have hcF : b.centerF i = c := by
    simp only [Box.centerF, c]
    ring
  rw [hcF]
  set c' := boxCenter rnd b i
  set A := (1 + e) ^ 4 / (1 - e) - 1 with hA
  have hAe : e ≤ A := by
    rw [hA, le_sub_iff_add_le, le_div_iff₀ hi]
    nlinarith [pow_pos e0 3, pow_pos e0 4]
  have hA2 : (1 + e) ^ 5 / (1 - e) - 1 = (1 + A) * (1 + e) - 1 := by
    rw [hA]
    field_simp
    ring
  have hW : |(|w'| - |w|)| ≤ A * |w| := (abs_abs_sub_abs_le _ _).trans hw
  have key : ∀ t x : K, |t - x| ≤ |c' - c| + |(|w'| - |w|)| / 2 → |x| ≤ |c| + |w| / 2 → |rnd t - x| ≤ ((1 + e) ^ 5 / (1 - e) - 1) * (|c| + |w| / 2) := by
    intro t x ht hx
    have h1 := abs_sub_le (rnd t) t x
    have h2 := h.rel hp1 t
    have h3 : e * |c| ≤ A * |c| := mul_le_mul_of_nonneg_right hAe (abs_nonneg _)
    have h4 : |t - x| ≤ A * (|c| + |w| / 2) := by linarith
    have h5 := abs_sub_abs_le_abs_sub t x
    have h6 := mul_le_mul_of_nonneg_left (show |t| ≤ (1 + A) * (|c| + |w| / 2) by linarith) e0.le
    rw [hA2]
    linarith
  have two : |(2 : K)| = 2 := abs_of_pos (by norm_num)
  constructor
  · refine key _ _ ?_ ?_
    · have := abs_sub (c' - c) ((|w'| - |w|) / 2)
      rw [abs_div, two] at this
      rwa [show c' - |w'| / 2 - (c - |w| / 2) = c' - c - (|w'| - |w|) / 2 by ring]
    · have := abs_sub c (|w| / 2)
      rwa [abs_div (|w|), two, abs_abs] at this
  · refine key _ _ ?_ ?_
    · have := abs_add_le (c' - c) ((|w'| - |w|) / 2)
      rw [abs_div, two] at this
      rwa [show c' + |w'| / 2 - (c + |w| / 2) = c' - c + (|w'| - |w|) / 2 by ring]
    · have := abs_add_le c (|w| / 2)
      rwa [abs_div (|w|), two, abs_abs] at this

/-! ## Examples -/

example : boxCenter id (⟨![0, 1], ![4, 2]⟩ : Box ℚ 2) = ![2, 3 / 2] := by decide +kernel
example : boxVolume id (⟨![0, 1], ![4, 2]⟩ : Box ℚ 2) = 4 := by decide +kernel
example : boxFittedTo id (⟨![0, 0], ![4, 2]⟩ : Box ℚ 2) ⟨![0, 0], ![1, 1]⟩ = ⟨![-(1 / 2), 0], ![3 / 2, 1]⟩ := by
  simp [boxFittedTo, boxFromCenter, spanningCorners, boxDimensions, boxCenter, show List.finRange 2 = [0, 1] from rfl, stdMax]
  decide +kernel
example : boxUnmap id (⟨![0, 1], ![4, 2]⟩ : Box ℚ 2) ![1, 3 / 2] = some ![1 / 4, 1 / 2] := by decide +kernel
example : boxUnmap id (⟨![0, 1], ![4, 1]⟩ : Box ℚ 2) ![1, 1] = none := by decide +kernel
example : boxIntersectRay id (⟨![1, 1], ![3, 2]⟩ : Box ℚ 2) ![0, 0] ![2, 2] = some (((1 / 2 : ℚ) : Ext ℚ), ((1 : ℚ) : Ext ℚ)) := by
  decide +kernel

end Geomc.Flt
