import Mathlib.Algebra.BigOperators.Fin
import Mathlib.Order.Interval.Finset.Basic
import Verif.Vec.Int
import Verif.Rect.Measure
import Verif.Rect.IntModel

/-!
# Boxes of machine integers: properties

C118: when the sizes, volumes, centres, translations, projections and distances of boxes of machine integers are the exact ones, when they
are undefined, and what they are otherwise.
-/

namespace Geomc.RectInt

open Geomc.VecInt Geomc.Rect

variable {n : ℕ}

theorem has_one {t : ITy} (ht : 2 ≤ t.w) : t.Has 1 := by
  unfold ITy.Has ITy.lo ITy.hi
  have h1 : (2 : ℤ) ^ 1 ≤ 2 ^ (t.w - 1) := pow_le_pow_right₀ (by norm_num) (by omega)
  have h2 : (2 : ℤ) ^ 1 ≤ 2 ^ t.w := pow_le_pow_right₀ (by norm_num) (by omega)
  constructor <;> split_ifs <;> omega

theorem has_two {t : ITy} (ht : 3 ≤ t.w) : t.Has 2 := by
  unfold ITy.Has ITy.lo ITy.hi
  have h1 : (2 : ℤ) ^ 2 ≤ 2 ^ (t.w - 1) := pow_le_pow_right₀ (by norm_num) (by omega)
  have h2 : (2 : ℤ) ^ 2 ≤ 2 ^ t.w := pow_le_pow_right₀ (by norm_num) (by omega)
  constructor <;> split_ifs <;> omega

theorem hi_lo {t : ITy} (ht : 1 ≤ t.w) : t.hi - t.lo + 1 = 2 ^ t.w := by
  unfold ITy.lo ITy.hi
  have : (2 : ℤ) ^ t.w = 2 ^ (t.w - 1) * 2 := by rw [← pow_succ]; congr 1; omega
  split_ifs <;> omega

theorem bind_none {α β : Type} {x : Option α} {f : α → Option β} : (x >>= f) = none ↔ x = none ∨ ∃ a, x = some a ∧ f a = none := by
  cases x <;> simp

theorem tdiv2 (x : ℤ) : (0 ≤ x ∧ 2 * x.tdiv 2 ≤ x ∧ x ≤ 2 * x.tdiv 2 + 1) ∨ (x < 0 ∧ x ≤ 2 * x.tdiv 2 ∧ 2 * x.tdiv 2 ≤ x + 1) := by
  rcases le_or_gt 0 x with h | h
  · left
    rw [Int.tdiv_eq_ediv_of_nonneg h]
    omega
  · right
    have e : x.tdiv 2 = -((-x) / 2) := by
      rw [← Int.tdiv_eq_ediv_of_nonneg (by omega), Int.neg_tdiv, neg_neg]
    rw [e]
    omega

theorem has_tdiv2 {t : ITy} {x : ℤ} (h : t.Has x) : t.Has (x.tdiv 2) := by
  obtain ⟨a, c⟩ := h
  obtain ⟨h1, h2⟩ := has_zero (t := t)
  have := tdiv2 x
  constructor <;> omega

/-! ## Sizes -/

/-- **C118.** The size of a box that is not empty is exact if it fits; otherwise it is undefined for `int` and wider signed types, and
wrapped for the others. -/
theorem C118_dimensions {t : ITy} (ht : 2 ≤ t.w) (ht31 : t.w < 31 ∨ 32 ≤ t.w) {b : Box ℤ n} (hb : Fits t b) (hne : ∀ i, b.lo i ≤ b.hi i) :
    (dimensions t b = none ↔ t.Traps ∧ ∃ i, t.hi < b.hi i - b.lo i + 1) ∧
    ∀ d, dimensions t b = some d → ∀ i, d i = conv t (b.hi i - b.lo i + 1) ∧ (b.hi i - b.lo i + 1 ≤ t.hi → d i = b.hi i - b.lo i + 1) := by
  have hlo : t.lo ≤ 0 := (has_zero (t := t)).1
  obtain ⟨w1, w2⟩ := (C117_add (by omega) ht31 (fun i => (hb i).2) (fun i => (hb i).1)).2.1
  constructor
  · unfold dimensions
    rw [bind_none, w1]
    constructor
    · rintro (⟨h1, i, h2⟩ | ⟨d, hd, h⟩)
      · refine ⟨h1, i, ?_⟩
        by_contra hc
        have h3 := hne i
        exact h2 (show t.Has (b.hi i - b.lo i) from ⟨by omega, by omega⟩)
      · have hdi : ∀ i, t.Has (d i) := fun i => (w2 d hd i).1
        obtain ⟨h1, i, h2⟩ := ((C117_add (by omega) ht31 hdi (fun _ => has_one ht)).1).1.1 h
        refine ⟨h1, i, ?_⟩
        by_contra hc
        have h3 := hne i
        have : d i = b.hi i - b.lo i := (w2 d hd i).2.2 (show t.Has (b.hi i - b.lo i) from ⟨by omega, by omega⟩)
        exact h2 (show t.Has (d i + 1) from ⟨by omega, by omega⟩)
    · rintro ⟨h1, i, h2⟩
      by_cases h3 : ∃ i, ¬ t.Has (b.hi i - b.lo i)
      · exact Or.inl ⟨h1, h3⟩
      · right
        push Not at h3
        refine ⟨fun i => b.hi i - b.lo i, each_some.2 fun i => store_has (by omega) (h3 i), ?_⟩
        refine ((C117_add (by omega) ht31 h3 (fun _ => has_one ht)).1).1.2 ⟨h1, i, fun h => ?_⟩
        exact absurd (show b.hi i - b.lo i + 1 ≤ t.hi from h.2) (by omega)
  · intro d hd i
    unfold dimensions at hd
    obtain ⟨e, he, hd⟩ := Option.bind_eq_some_iff.1 hd
    have e1 := w2 e he i
    have hc : d i = conv t (b.hi i - b.lo i + 1) := by
      have := store_sound (by omega) (each_some.1 hd i)
      rw [this]
      exact conv_congr (by omega) (e1.2.1.add_right 1)
    refine ⟨hc, fun h => ?_⟩
    rw [hc]
    exact conv_fix (by omega) ⟨by have := hne i; omega, h⟩

/-- A box that fits has exact dimensions. -/
theorem dimensions_fit {t : ITy} (ht : 2 ≤ t.w) (ht31 : t.w < 31 ∨ 32 ≤ t.w) {b : Box ℤ n} (hb : Fits t b) (hne : ∀ i, b.lo i ≤ b.hi i)
    (h : ∀ i, b.hi i - b.lo i + 1 ≤ t.hi) : dimensions t b = some fun i => b.hi i - b.lo i + 1 := by
  obtain ⟨h1, h2⟩ := C118_dimensions ht ht31 hb hne
  have : dimensions t b ≠ none := fun hc => by
    obtain ⟨-, i, hi⟩ := h1.1 hc
    have := h i
    omega
  obtain ⟨d, hd⟩ := Option.ne_none_iff_exists'.1 this
  rw [hd]
  congr 1
  funext i
  exact (h2 d hd i).2 (h i)

/-! ## Volumes -/

theorem prod_pos {dim : Fin n → ℤ} (hd : ∀ i, 1 ≤ dim i) : ∀ l : List (Fin n), 1 ≤ (l.map dim).prod
  | [] => by simp
  | i :: l => by
    have h1 := prod_pos hd l
    have h2 := hd i
    rw [List.map_cons, List.prod_cons]
    nlinarith

theorem fold_fit {t : ITy} (ht : 1 ≤ t.w) {dim : Fin n → ℤ} (hd : ∀ i, 1 ≤ dim i) : ∀ (l : List (Fin n)) (a : ℤ), 1 ≤ a →
    a * (l.map dim).prod ≤ t.hi → l.foldlM (fun vol i => mul t vol (max (dim i) 0)) a = some (a * (l.map dim).prod)
  | [], a, _, _ => by simp
  | i :: l, a, ha, h => by
    have hp : 1 ≤ (l.map dim).prod := prod_pos hd l
    have hi := hd i
    have e : a * ((i :: l).map dim).prod = (a * dim i) * (l.map dim).prod := by simp [mul_assoc]
    rw [e] at h ⊢
    have h0 : 1 ≤ a * dim i := by nlinarith
    have h1 : a * dim i ≤ t.hi := (le_mul_of_one_le_right (by omega) hp).trans h
    have h2 : mul t a (max (dim i) 0) = some (a * dim i) := by
      unfold mul
      rw [max_eq_left (by omega)]
      exact store_has ht ⟨(has_zero (t := t)).1.trans (by positivity), h1⟩
    rw [List.foldlM_cons, h2]
    exact fold_fit ht hd l _ (by nlinarith) h

theorem fold_trap {t : ITy} (hT : t.Traps) {dim : Fin n → ℤ} (hd : ∀ i, 1 ≤ dim i) : ∀ (l : List (Fin n)) (a : ℤ), 1 ≤ a → a ≤ t.hi →
    t.hi < a * (l.map dim).prod → l.foldlM (fun vol i => mul t vol (max (dim i) 0)) a = none
  | [], a, _, h0, h => by simp at h; omega
  | i :: l, a, ha, h0, h => by
    have ht : 1 ≤ t.w := by have := hT.1; omega
    have hi := hd i
    have e : a * ((i :: l).map dim).prod = (a * dim i) * (l.map dim).prod := by simp [mul_assoc]
    rw [e] at h
    rw [List.foldlM_cons]
    by_cases h1 : a * dim i ≤ t.hi
    · have h2 : mul t a (max (dim i) 0) = some (a * dim i) := by
        unfold mul
        rw [max_eq_left (by omega)]
        exact store_has ht ⟨(has_zero (t := t)).1.trans (by positivity), h1⟩
      rw [h2]
      exact fold_trap hT hd l _ (by nlinarith) h1 h
    · have h2 : mul t a (max (dim i) 0) = none := by
        unfold mul
        rw [max_eq_left (by omega)]
        exact (store_none _).2 (Or.inl ⟨hT, fun hh => h1 hh.2⟩)
      rw [h2]
      rfl

theorem fold_unsigned {t : ITy} (hw : 32 ≤ t.w) (hs : t.signed = false) {dim : Fin n → ℤ} (hd : ∀ i, 0 ≤ dim i) : ∀ (l : List (Fin n)) (a : ℤ),
    ∃ r, l.foldlM (fun vol i => mul t vol (max (dim i) 0)) a = some r ∧ r ≡ a * (l.map dim).prod [ZMOD 2 ^ t.w] ∧ (t.Has a → t.Has r)
  | [], a => ⟨a, by simp, by simp, id⟩
  | i :: l, a => by
    obtain ⟨r, hr⟩ : ∃ r, mul t a (max (dim i) 0) = some r := by
      refine Option.isSome_iff_exists.1 ((store_isSome _).2 ⟨fun h => ?_, fun h => by omega⟩)
      rw [h.2] at hs; cases hs
    have ht : 1 ≤ t.w := by omega
    have hr2 := store_sound ht hr
    obtain ⟨q, h1, h2, h3⟩ := fold_unsigned hw hs hd l r
    refine ⟨q, by rw [List.foldlM_cons, hr]; exact h1, ?_, fun _ => h3 (hr2 ▸ conv_has ht _)⟩
    have : r ≡ a * dim i [ZMOD 2 ^ t.w] := by
      rw [hr2, max_eq_left (hd i)]
      exact conv_mod ht _
    refine h2.trans ?_
    rw [List.map_cons, List.prod_cons, ← mul_assoc]
    exact this.mul_right _

theorem cells {b : Box ℤ n} (hne : ∀ i, b.lo i ≤ b.hi i) : (b.pts.ncard : ℤ) = ((List.finRange n).map fun i => b.hi i - b.lo i + 1).prod := by
  rw [← C76_volume_int, volumeOf_eq, ← Fin.prod_univ_def]
  refine Finset.prod_congr rfl fun i _ => ?_
  have := hne i
  unfold Box.dimensions
  exact max_eq_left (by omega)

/-- **C118.** The volume of a box that is not empty is the number of its cells if that fits; otherwise it is undefined for `int` and wider
signed types, and the number modulo the size of the type for `unsigned int` and wider. -/
theorem C118_volume {t : ITy} (ht : 2 ≤ t.w) (ht31 : t.w < 31 ∨ 32 ≤ t.w) {b : Box ℤ n} (hb : Fits t b) (hne : ∀ i, b.lo i ≤ b.hi i) :
    ((b.pts.ncard : ℤ) ≤ t.hi → volume t b = some (b.pts.ncard : ℤ)) ∧
    (t.Traps → t.hi < b.pts.ncard → volume t b = none) ∧
    (32 ≤ t.w → t.signed = false → volume t b = some ((b.pts.ncard : ℤ) % 2 ^ t.w)) := by
  have hd1 : ∀ i, 1 ≤ b.hi i - b.lo i + 1 := fun i => by have := hne i; omega
  have hle : ∀ i, b.hi i - b.lo i + 1 ≤ b.pts.ncard := by
    intro i
    rw [cells hne, ← Fin.prod_univ_def, ← Finset.mul_prod_erase _ _ (Finset.mem_univ i)]
    refine le_mul_of_one_le_right (by have := hd1 i; omega) ?_
    refine Finset.prod_induction _ (fun x : ℤ => 1 ≤ x) (fun x y hx hy => by nlinarith) le_rfl fun j _ => hd1 j
  have h1hi : 1 ≤ t.hi := (has_one ht).2
  refine ⟨fun h => ?_, fun hT h => ?_, fun hw hs => ?_⟩
  · unfold volume
    rw [dimensions_fit ht ht31 hb hne fun i => (hle i).trans h]
    show volumeOf t _ = _
    unfold volumeOf
    rw [fold_fit (by omega) hd1 _ _ le_rfl (by rw [one_mul, ← cells hne]; exact h), one_mul, ← cells hne]
  · unfold volume
    by_cases hf : ∀ i, b.hi i - b.lo i + 1 ≤ t.hi
    · rw [dimensions_fit ht ht31 hb hne hf]
      exact fold_trap hT hd1 _ _ le_rfl h1hi (by rw [one_mul, ← cells hne]; exact h)
    · push Not at hf
      rw [(C118_dimensions ht ht31 hb hne).1.2 ⟨hT, hf⟩]
      rfl
  · obtain ⟨h1, h2⟩ := C118_dimensions ht ht31 hb hne
    have hno : dimensions t b ≠ none := fun hc => by
      have := (h1.1 hc).1.2
      rw [this] at hs; cases hs
    obtain ⟨d, hd⟩ := Option.ne_none_iff_exists'.1 hno
    have hd2 : ∀ i, d i = (b.hi i - b.lo i + 1) % 2 ^ t.w := fun i => by
      rw [(h2 d hd i).1]; unfold conv; rw [hs]; rfl
    have hpos : (0 : ℤ) < 2 ^ t.w := by positivity
    obtain ⟨r, r1, r2, r3⟩ := fold_unsigned hw hs (dim := d) (fun i => by rw [hd2]; exact Int.emod_nonneg _ hpos.ne') (List.finRange n) 1
    unfold volume
    rw [hd]
    show volumeOf t d = _
    unfold volumeOf
    rw [r1]
    congr 1
    have hr := r3 (has_one ht)
    have hmod : r ≡ b.pts.ncard [ZMOD 2 ^ t.w] := by
      refine r2.trans ?_
      rw [one_mul, cells hne, ← Fin.prod_univ_def, ← Fin.prod_univ_def]
      rw [Finset.prod_congr rfl fun i _ => hd2 i]
      exact (Finset.prod_int_mod _ _ _).symm
    rw [← hmod]
    refine (Int.emod_eq_of_lt ?_ ?_).symm
    · have := hr.1; unfold ITy.lo at this; rw [hs] at this; simpa using this
    · have := hr.2; unfold ITy.hi at this; rw [hs] at this; simp at this; omega

/-- **C118, refuted.** The volume of the empty box (as constructed by default) is undefined for `int` and wider signed types, and for all
other types it is 2ⁿ, not zero; the volume of the box of all values is undefined or zero. -/
theorem C118_empty_refuted {t : ITy} (ht : 3 ≤ t.w) (ht31 : t.w < 31 ∨ 32 ≤ t.w) (hn : 0 < n) :
    ((empty t : Box ℤ n).isEmpty = true) ∧
    (t.Traps → volume t (empty t : Box ℤ n) = none ∧ volume t (full t : Box ℤ n) = none) ∧
    (¬ t.Traps → (2 ^ n ≤ t.hi → volume t (empty t : Box ℤ n) = some (2 ^ n)) ∧ volume t (full t : Box ℤ n) = some 0) := by
  have hhl := hi_lo (t := t) (by omega)
  have ht1 : 1 ≤ t.w := by omega
  have hz := has_zero (t := t)
  have h2 := has_two ht
  have h1 := has_one (t := t) (by omega)
  have hwpos : (2 : ℤ) ^ 3 ≤ 2 ^ t.w := pow_le_pow_right₀ (by norm_num) ht
  have hlo : t.Has t.lo := ⟨le_rfl, hz.1.trans hz.2⟩
  have hhi : t.Has t.hi := ⟨hz.1.trans hz.2, le_rfl⟩
  have hlt : t.lo < t.hi := lt_of_le_of_lt hz.1 (lt_of_lt_of_le (by norm_num) h2.2)
  have E : ∀ {f : Fin n → Option ℤ} {r}, (∀ i, f i = some (r i)) → each f = some r := fun h => each_some.2 h
  refine ⟨?_, fun hT => ⟨?_, ?_⟩, fun hT => ⟨fun hfit => ?_, ?_⟩⟩
  · unfold Box.isEmpty empty
    simp only [List.any_eq_true, decide_eq_true_eq]
    exact ⟨⟨0, hn⟩, List.mem_finRange _, hlt⟩
  · unfold volume dimensions
    have : subV t (empty t : Box ℤ n).hi (empty t : Box ℤ n).lo = none :=
      each_none.2 ⟨⟨0, hn⟩, (store_none _).2 (Or.inl ⟨hT, fun h => by have := h.1; simp only [empty] at this; have := h2.2; omega⟩)⟩
    rw [this]
    rfl
  · unfold volume
    have := (C118_dimensions (b := (full t : Box ℤ n)) (by omega) ht31 (fun _ => ⟨hlo, hhi⟩) (fun _ => hlt.le)).1.2
      ⟨hT, ⟨0, hn⟩, by simp only [full]; have := hz.1; omega⟩
    rw [this]
    rfl
  · have hnarrow : ∀ x y : ℤ, t.Has x → t.Has y → store t (x - y) = some (conv t (x - y)) := by
      intro x y hx hy
      have w := (C117_add (n := 1) ht1 ht31 (u := fun _ => x) (v := fun _ => y) (fun _ => hx) (fun _ => hy)).2.1
      have hs : subV t (fun _ : Fin 1 => x) (fun _ => y) ≠ none := fun hc => hT (w.1.1 hc).1
      obtain ⟨z, hz'⟩ := Option.ne_none_iff_exists'.1 hs
      have h0 := each_some.1 hz' 0
      have := store_sound ht1 h0
      rw [← this]
      exact h0
    have hs : subV t (empty t : Box ℤ n).hi (empty t : Box ℤ n).lo = some fun _ => 1 := by
      refine E fun i => ?_
      show store t (t.lo - t.hi) = _
      rw [hnarrow _ _ hlo hhi]
      congr 1
      refine (C117_conv ht1 _ _).2 ⟨h1, ?_⟩
      rw [Int.modEq_iff_dvd]
      exact ⟨-1, by omega⟩
    have ha : addV t (fun _ : Fin n => (1 : ℤ)) (fun _ => 1) = some fun _ => 2 := E fun i => store_has ht1 h2
    unfold volume dimensions
    rw [hs]
    show (addV t (fun _ : Fin n => (1 : ℤ)) (fun _ => 1) >>= _) = _
    rw [ha]
    show volumeOf t _ = _
    unfold volumeOf
    have hp : ((List.finRange n).map fun _ : Fin n => (2 : ℤ)).prod = 2 ^ n := by simp
    rw [fold_fit ht1 (dim := fun _ => 2) (fun _ => by norm_num) _ _ le_rfl (by rw [hp, one_mul]; exact hfit), hp, one_mul]
  · obtain ⟨d1, d2⟩ := C118_dimensions (b := (full t : Box ℤ n)) (by omega) ht31 (fun _ => ⟨hlo, hhi⟩) (fun _ => hlt.le)
    have hno : dimensions t (full t : Box ℤ n) ≠ none := fun hc => hT (d1.1 hc).1
    obtain ⟨d, hd⟩ := Option.ne_none_iff_exists'.1 hno
    have hd0 : d = fun _ => 0 := by
      funext i
      rw [(d2 d hd i).1]
      refine (C117_conv ht1 _ _).2 ⟨hz, ?_⟩
      simp only [full]
      rw [hhl]
      exact (Int.modEq_zero_iff_dvd.2 dvd_rfl).symm
    unfold volume
    rw [hd]
    show volumeOf t d = _
    rw [hd0]
    unfold volumeOf
    have key : ∀ l : List (Fin n), l.foldlM (fun vol _ => mul t vol (max (0 : ℤ) 0)) 0 = some 0 := by
      intro l
      induction l with
      | nil => rfl
      | cons i l ih =>
        rw [List.foldlM_cons]
        have : mul t 0 (max (0 : ℤ) 0) = some 0 := by unfold mul; simpa using store_has ht1 hz
        rw [this]
        exact ih
    obtain ⟨m, rfl⟩ : ∃ m, n = m + 1 := ⟨n - 1, by omega⟩
    rw [List.finRange_succ, List.foldlM_cons]
    have : mul t 1 (max (0 : ℤ) 0) = some 0 := by unfold mul; simpa using store_has ht1 hz
    rw [this]
    exact key _

example : volume ⟨32, false⟩ (⟨![4, 10], ![9, 19]⟩ : Box ℤ 2) = some 60 ∧ volume ⟨32, false⟩ (empty ⟨32, false⟩ : Box ℤ 3) = some 8 ∧
    volume ⟨32, true⟩ (⟨![0, 0], ![65535, 32767]⟩ : Box ℤ 2) = none ∧ volume ⟨32, true⟩ (⟨![5], ![2]⟩ : Box ℤ 1) = some 0 ∧
    volume ⟨32, false⟩ (⟨![5], ![2]⟩ : Box ℤ 1) = some 4294967294 := by
  decide +kernel

/-! ## One dimension -/

theorem arith_narrow {t : ITy} (hw : t.w < 32) {x : ℤ} (h : -2 ^ 31 ≤ x ∧ x < 2 ^ 31) : arith t.promote x = some x := by
  rw [promote_narrow hw]
  unfold arith
  have : ITy.Has ⟨32, true⟩ x := by
    unfold ITy.Has ITy.lo ITy.hi
    norm_num at h ⊢
    omega
  simp [this]

theorem store_narrow {t : ITy} (hw : t.w < 32) {x : ℤ} (h : -2 ^ 31 ≤ x ∧ x < 2 ^ 31) : store t x = some (conv t x) := by
  unfold store
  rw [arith_narrow hw h]
  rfl

/-- For the types from `int` on, an intermediate result is what would be stored. -/
theorem arith_wide {t : ITy} (hw : 32 ≤ t.w) (x : ℤ) : arith t.promote x = store t x := by
  unfold store
  rw [promote_wide hw]
  unfold arith
  cases hs : t.signed
  · have e : conv t (x % 2 ^ t.w) = x % 2 ^ t.w := by
      refine (C117_conv (by omega) _ _).2 ⟨?_, rfl⟩
      unfold ITy.Has ITy.lo ITy.hi
      have hpos : (0 : ℤ) < 2 ^ t.w := by positivity
      have := Int.emod_nonneg x hpos.ne'
      have := Int.emod_lt_of_pos x hpos
      simp only [hs, Bool.false_eq_true, if_false]
      omega
    simp [e]
  · simp only [if_true]
    split_ifs with h
    · simp [conv_fix (by omega : 1 ≤ t.w) h]
    · rfl

/-- The corners of narrow types are small. -/
theorem narrow_abs {t : ITy} (ht : 1 ≤ t.w) (hw : t.w < 31) {x : ℤ} (h : t.Has x) : -2 ^ 30 ≤ x ∧ x < 2 ^ 30 := by
  have p1 : (2 : ℤ) ^ t.w ≤ 2 ^ 30 := pow_le_pow_right₀ (by norm_num) (by omega)
  have p2 : (2 : ℤ) ^ (t.w - 1) ≤ 2 ^ 30 := pow_le_pow_right₀ (by norm_num) (by omega)
  have p3 : (0 : ℤ) < 2 ^ (t.w - 1) := by positivity
  obtain ⟨a, b⟩ := h
  unfold ITy.lo at a
  unfold ITy.hi at b
  split_ifs at a b <;> constructor <;> omega

theorem narrow_lt {t : ITy} (ht : 1 ≤ t.w) (hw : t.w < 31) {x y : ℤ} (hx : t.Has x) (hy : t.Has y) : y - x < 2 ^ 30 := by
  have h := hi_lo ht
  have : (2 : ℤ) ^ t.w ≤ 2 ^ 30 := pow_le_pow_right₀ (by norm_num) (by omega)
  obtain ⟨a, b⟩ := hx
  obtain ⟨c, d⟩ := hy
  omega

/-- **C118.** Sizes of boxes with one dimension, whose expressions are evaluated as a whole, agree with those of the others. -/
theorem C118_one {t : ITy} (ht : 2 ≤ t.w) (ht31 : t.w < 31 ∨ 32 ≤ t.w) {lo hi : ℤ} (hl : t.Has lo) (hh : t.Has hi) :
    dimensions1 t lo hi = (dimensions t (⟨fun _ => lo, fun _ => hi⟩ : Box ℤ 1)).map (· 0) ∧
    volume1 t lo hi = volume t (⟨fun _ => lo, fun _ => hi⟩ : Box ℤ 1) := by
  have each1 : ∀ f : Fin 1 → Option ℤ, each f = (f 0).map fun x _ => x := by
    intro f
    cases h : f 0 with
    | none => exact each_none.2 ⟨0, h⟩
    | some x => exact each_some.2 fun i => by rw [Subsingleton.elim i 0]; exact h
  have hd : dimensions t (⟨fun _ => lo, fun _ => hi⟩ : Box ℤ 1) = (dimensions1 t lo hi).map fun x _ => x := by
    unfold dimensions dimensions1 subV addV
    rw [each1]
    rcases ht31 with hw | hw
    · have b1 := narrow_abs (by omega) hw hl
      have b2 := narrow_abs (by omega) hw hh
      norm_num at b1 b2
      have e1 : sub t hi lo = some (conv t (hi - lo)) := store_narrow (by omega) (by norm_num; omega)
      have e2 : arith t.promote (hi - lo) = some (hi - lo) := arith_narrow (by omega) (by norm_num; omega)
      have b3 := narrow_abs (by omega) hw (conv_has (t := t) (by omega) (hi - lo))
      norm_num at b3
      have e3 : store t (hi - lo + 1) = some (conv t (hi - lo + 1)) := store_narrow (by omega) (by norm_num; have := narrow_lt (by omega) hw hl hh; omega)
      have e4 : add t (conv t (hi - lo)) 1 = some (conv t (conv t (hi - lo) + 1)) := store_narrow (by omega) (by norm_num; omega)
      have e5 : conv t (conv t (hi - lo) + 1) = conv t (hi - lo + 1) := conv_congr (by omega) ((conv_mod (by omega) _).add_right 1)
      show Option.bind (Option.map _ (sub t hi lo)) _ = Option.map _ (Option.bind (arith t.promote (hi - lo)) _)
      rw [e1, e2, Option.map_some, Option.bind_some, Option.bind_some, each1, e3]
      show Option.map _ (add t (conv t (hi - lo)) 1) = _
      rw [e4, e5]
    · show Option.bind (Option.map _ (store t (hi - lo))) _ = Option.map _ (Option.bind (arith t.promote (hi - lo)) _)
      rw [arith_wide hw]
      cases store t (hi - lo) with
      | none => rfl
      | some d => rw [Option.map_some, Option.bind_some, Option.bind_some, each1]; rfl
  constructor
  · rw [hd, Option.map_map]
    exact (Option.map_id' ▸ rfl)
  · unfold volume volume1
    rw [hd]
    cases dimensions1 t lo hi with
    | none => rfl
    | some d =>
      show mul t 1 (max d 0) = volumeOf t fun _ => d
      unfold volumeOf
      simp [List.finRange_succ]

/-! ## Centres -/

theorem center_val {t : ITy} (ht : 2 ≤ t.w) {b : Box ℤ n} {z : Fin n → ℤ} (h : center t b = some z) (i : Fin n) :
    z i = (conv t (b.lo i + b.hi i + 1)).tdiv 2 := by
  unfold center at h
  obtain ⟨s, hs, h⟩ := Option.bind_eq_some_iff.1 h
  obtain ⟨s', hs', h⟩ := Option.bind_eq_some_iff.1 h
  have e1 := store_sound (by omega) (each_some.1 hs i)
  have e2 := store_sound (by omega) (each_some.1 hs' i)
  have e3 := each_some.1 h i
  unfold div at e3
  rw [if_neg (by norm_num)] at e3
  have e4 := store_sound (by omega) e3
  have e5 : s' i = conv t (b.lo i + b.hi i + 1) := by
    rw [e2]
    refine conv_congr (by omega) ?_
    rw [e1, add_comm (b.lo i)]
    exact (conv_mod (by omega) _).add_right 1
  rw [e4, e5]
  exact conv_fix (by omega) (has_tdiv2 (conv_has (by omega) _))

/-- **C118.** With `int` and wider signed types, the centre is half the sum of the corners plus one, rounded towards zero, if that sum fits,
and undefined otherwise. -/
theorem C118_center_signed {t : ITy} (hT : t.Traps) {b : Box ℤ n} (hb : Fits t b) :
    (center t b = none ↔ ∃ i, ¬ (t.Has (b.lo i + b.hi i) ∧ t.Has (b.lo i + b.hi i + 1))) ∧
    ∀ z, center t b = some z → ∀ i, z i = (b.lo i + b.hi i + 1).tdiv 2 := by
  have ht : 2 ≤ t.w := by have := hT.1; omega
  have key : center t b = none ↔ ∃ i, ¬ (t.Has (b.lo i + b.hi i) ∧ t.Has (b.lo i + b.hi i + 1)) := by
    constructor
    · intro h
      by_contra hc
      push Not at hc
      have e1 : addV t b.hi b.lo = some fun i => b.hi i + b.lo i :=
        each_some.2 fun i => store_has (by omega) (by rw [add_comm]; exact (hc i).1)
      have e2 : addV t (fun i => b.hi i + b.lo i) (fun _ => 1) = some fun i => b.lo i + b.hi i + 1 :=
        each_some.2 fun i => by
          show store t (b.hi i + b.lo i + 1) = _
          rw [add_comm (b.hi i)]
          exact store_has (by omega) (hc i).2
      have e3 : divV t (fun i => b.lo i + b.hi i + 1) (fun _ => 2) ≠ none := by
        intro hn
        obtain ⟨i, hi⟩ := each_none.1 hn
        unfold div at hi
        rw [if_neg (by norm_num), store_has (by omega) (has_tdiv2 (hc i).2)] at hi
        cases hi
      unfold center at h
      rw [e1] at h
      simp only [Option.bind_eq_bind, Option.bind_some] at h
      rw [e2] at h
      exact e3 h
    · rintro ⟨i, hi⟩
      unfold center
      by_cases h1 : ∃ i, ¬ t.Has (b.lo i + b.hi i)
      · obtain ⟨i, hi⟩ := h1
        have : addV t b.hi b.lo = none := each_none.2 ⟨i, (store_none _).2 (Or.inl ⟨hT, by rw [add_comm]; exact hi⟩)⟩
        rw [this]
        rfl
      · push Not at h1
        have e1 : addV t b.hi b.lo = some fun i => b.hi i + b.lo i :=
          each_some.2 fun i => store_has (by omega) (by rw [add_comm]; exact h1 i)
        have e2 : addV t (fun i => b.hi i + b.lo i) (fun _ => 1) = none :=
          each_none.2 ⟨i, (store_none _).2 (Or.inl ⟨hT, fun h => hi ⟨h1 i, by rw [add_comm (b.lo i)]; exact h⟩⟩)⟩
        rw [e1]
        simp only [Option.bind_eq_bind, Option.bind_some]
        rw [e2]
        rfl
  refine ⟨key, fun z hz i => ?_⟩
  rw [center_val ht hz i]
  by_contra hc
  have : center t b = none := key.2 ⟨i, fun h => hc (by rw [conv_fix (by omega) h.2])⟩
  rw [this] at hz
  cases hz

/-- **C118, refuted.** With unsigned types, the centre of a box that is not empty is outside the box if the sum of the corners wraps around
along an axis (and the box does not begin at zero there). -/
theorem C118_center_refuted {t : ITy} (ht : 2 ≤ t.w) (ht31 : t.w < 31 ∨ 32 ≤ t.w) (hs : t.signed = false) {b : Box ℤ n} (hb : Fits t b)
    (hne : ∀ i, b.lo i ≤ b.hi i) :
    ∃ z, center t b = some z ∧ (z ∈ b.pts ↔ ∀ i, b.lo i + b.hi i + 1 < 2 ^ t.w ∨ b.lo i = 0) := by
  have hT : ¬ t.Traps := fun h => by rw [h.2] at hs; cases hs
  have def1 : ∀ u v : Fin n → ℤ, (∀ i, t.Has (u i)) → (∀ i, t.Has (v i)) → ∃ z, addV t u v = some z ∧ ∀ i, t.Has (z i) := by
    intro u v hu hv
    obtain ⟨h1, h2⟩ := (C117_add (by omega) ht31 hu hv).1
    obtain ⟨z, hz⟩ := Option.ne_none_iff_exists'.1 (fun hc => hT (h1.1 hc).1)
    exact ⟨z, hz, fun i => (h2 z hz i).1⟩
  obtain ⟨s, s1, s2⟩ := def1 b.hi b.lo (fun i => (hb i).2) (fun i => (hb i).1)
  obtain ⟨r, r1, r2⟩ := def1 s (fun _ => 1) s2 (fun _ => has_one ht)
  have hd : divV t r (fun _ => 2) ≠ none := by
    intro hc
    obtain ⟨i, hi⟩ := each_none.1 hc
    unfold div at hi
    rw [if_neg (by norm_num), store_has (by omega) (has_tdiv2 (r2 i))] at hi
    cases hi
  obtain ⟨z, hz⟩ := Option.ne_none_iff_exists'.1 hd
  have hc : center t b = some z := by
    unfold center
    rw [s1]
    simp only [Option.bind_eq_bind, Option.bind_some]
    rw [r1]
    exact hz
  refine ⟨z, hc, ?_⟩
  rw [mem_pts]
  refine forall_congr' fun i => ?_
  rw [center_val ht hc i]
  have hl := (hb i).1
  have hh := (hb i).2
  have hn := hne i
  unfold ITy.Has ITy.lo ITy.hi at hl hh
  simp only [hs, Bool.false_eq_true, if_false] at hl hh
  unfold conv
  simp only [hs, Bool.false_eq_true, if_false]
  by_cases hw : b.lo i + b.hi i + 1 < 2 ^ t.w
  · rw [Int.emod_eq_of_lt (by omega) hw]
    have := tdiv2 (b.lo i + b.hi i + 1)
    constructor
    · intro _; exact Or.inl hw
    · intro _; constructor <;> omega
  · have : (b.lo i + b.hi i + 1) % 2 ^ t.w = b.lo i + b.hi i + 1 - 2 ^ t.w := by
      rw [← Int.sub_emod_right, Int.emod_eq_of_lt (by omega) (by omega)]
    rw [this]
    clear this
    have := tdiv2 (b.lo i + b.hi i + 1 - 2 ^ t.w)
    generalize (2 : ℤ) ^ t.w = m at *
    constructor
    · intro h; right; omega
    · rintro (h | h)
      · omega
      · constructor <;> omega

/-- **C118.** With one dimension and a type narrower than `int` the centre never wraps; with more dimensions it does. -/
theorem C118_center_one {t : ITy} (ht : 1 ≤ t.w) (hw : t.w < 31) {lo hi : ℤ} (hl : t.Has lo) (hh : t.Has hi) (hne : lo ≤ hi) :
    center1 t lo hi = some ((lo + hi + 1).tdiv 2) := by
  have b1 := narrow_abs ht hw hl
  have b2 := narrow_abs ht hw hh
  norm_num at b1 b2
  have e1 : arith t.promote (hi + lo) = some (hi + lo) := arith_narrow (by omega) (by norm_num; omega)
  have e2 : arith t.promote (hi + lo + 1) = some (hi + lo + 1) := arith_narrow (by omega) (by norm_num; omega)
  unfold center1
  rw [e1]
  simp only [Option.bind_eq_bind, Option.bind_some]
  rw [e2]
  simp only [Option.bind_some]
  rw [add_comm hi]
  refine store_has ht ?_
  obtain ⟨h1, h2⟩ := hl
  obtain ⟨h3, h4⟩ := hh
  obtain ⟨h5, h6⟩ := has_zero (t := t)
  have := tdiv2 (lo + hi + 1)
  constructor <;> omega

/-- The centre of a pixel of a large image. -/
example : center ⟨8, false⟩ (⟨![200, 3], ![210, 5]⟩ : Box ℤ 2) = some ![77, 4] ∧ center1 ⟨8, false⟩ 200 210 = some 205 ∧
    center ⟨32, true⟩ (⟨![2 ^ 30], ![2 ^ 30]⟩ : Box ℤ 1) = none := by
  decide +kernel

/-! ## Moving boxes -/

/-- **C118.** Boxes are moved exactly if the corners stay within the type. -/
theorem C118_translate {t : ITy} (ht : 1 ≤ t.w) {b : Box ℤ n} {d : Fin n → ℤ} :
    ((∀ i, t.Has (b.lo i + d i) ∧ t.Has (b.hi i + d i)) → translate t b d = some (b.translate d)) ∧
    ((∀ i, t.Has (b.lo i - d i) ∧ t.Has (b.hi i - d i)) → untranslate t b d = some (b.untranslate d)) ∧
    ((∀ i, t.Has (b.lo i - d i) ∧ t.Has (b.hi i + d i)) → dilated t b d = some (b.dilated d)) := by
  have A : ∀ u v : Fin n → ℤ, (∀ i, t.Has (u i + v i)) → addV t u v = some (u + v) := fun u v h => each_some.2 fun i => store_has ht (h i)
  have S : ∀ u v : Fin n → ℤ, (∀ i, t.Has (u i - v i)) → subV t u v = some (u - v) := fun u v h => each_some.2 fun i => store_has ht (h i)
  refine ⟨fun h => ?_, fun h => ?_, fun h => ?_⟩
  · unfold translate
    rw [A _ _ fun i => (h i).1, A _ _ fun i => (h i).2]
    rfl
  · unfold untranslate
    rw [S _ _ fun i => (h i).1, S _ _ fun i => (h i).2]
    rfl
  · unfold dilated
    rw [S _ _ fun i => (h i).1, A _ _ fun i => (h i).2]
    rfl

theorem conv_unsigned {t : ITy} (hs : t.signed = false) (x : ℤ) : conv t x = x % 2 ^ t.w := by
  unfold conv; rw [hs]; rfl

/-- **C118, refuted.** A box of unsigned integers moved or dilated across the end of the range becomes empty. -/
theorem C118_wrap_refuted {t : ITy} (ht : 1 ≤ t.w) (hs : t.signed = false) {b r : Box ℤ n} {d : Fin n → ℤ} (hb : Fits t b) (hd : ∀ i, t.Has (d i)) (i : Fin n) :
    (b.lo i + d i < 2 ^ t.w → 2 ^ t.w ≤ b.hi i + d i → translate t b d = some r → r.isEmpty = true) ∧
    (b.lo i < d i → b.hi i - b.lo i + 2 * d i < 2 ^ t.w → dilated t b d = some r → r.isEmpty = true) := by
  have em : r.hi i < r.lo i → r.isEmpty = true := fun h => by
    unfold Box.isEmpty
    simp only [List.any_eq_true, decide_eq_true_eq]
    exact ⟨i, List.mem_finRange _, h⟩
  have hl := (hb i).1
  have hh := (hb i).2
  have hdi := hd i
  unfold ITy.Has ITy.lo ITy.hi at hl hh hdi
  simp only [hs, Bool.false_eq_true, if_false] at hl hh hdi
  constructor
  · intro h1 h2 h
    unfold translate at h
    obtain ⟨l, e1, h⟩ := Option.bind_eq_some_iff.1 h
    obtain ⟨u, e2, h⟩ := Option.bind_eq_some_iff.1 h
    rw [Option.some.injEq] at h
    have e3 := store_sound ht (each_some.1 e1 i)
    have e4 := store_sound ht (each_some.1 e2 i)
    rw [conv_unsigned hs] at e3 e4
    rw [Int.emod_eq_of_lt (by omega) h1] at e3
    rw [← Int.sub_emod_right, Int.emod_eq_of_lt (by omega) (by omega)] at e4
    refine em ?_
    rw [← h]
    show u i < l i
    omega
  · intro h1 h2 h
    unfold dilated at h
    obtain ⟨l, e1, h⟩ := Option.bind_eq_some_iff.1 h
    obtain ⟨u, e2, h⟩ := Option.bind_eq_some_iff.1 h
    rw [Option.some.injEq] at h
    have e3 := store_sound ht (each_some.1 e1 i)
    have e4 := store_sound ht (each_some.1 e2 i)
    rw [conv_unsigned hs] at e3 e4
    rw [← Int.add_emod_right, Int.emod_eq_of_lt (by omega) (by omega)] at e3
    refine em ?_
    rw [← h]
    show u i < l i
    have : u i ≤ b.hi i + d i := by
      have h3 := Int.emod_add_mul_ediv (b.hi i + d i) (2 ^ t.w)
      have h4 : 0 ≤ (b.hi i + d i) / 2 ^ t.w := Int.ediv_nonneg (by omega) (by omega)
      have h5 : 0 ≤ 2 ^ t.w * ((b.hi i + d i) / 2 ^ t.w) := mul_nonneg (by omega) h4
      omega
    omega

/-- **C118.** A box given by its least corner and its sizes; undefined for `int` and wider signed types if it reaches the greatest value. -/
theorem C118_from_corner {t : ITy} (ht : 2 ≤ t.w) (ht31 : t.w < 31 ∨ 32 ≤ t.w) {c d : Fin n → ℤ} (hc : ∀ i, t.Has (c i)) (hd : ∀ i, t.Has (d i))
    (h1 : ∀ i, 1 ≤ d i) (hf : ∀ i, c i + d i - 1 ≤ t.hi) :
    (¬ t.Traps ∨ (∀ i, c i + d i ≤ t.hi) → fromCorner t c d = some ⟨c, fun i => c i + d i - 1⟩) ∧
    (t.Traps → (∃ i, c i + d i - 1 = t.hi) → fromCorner t c d = none) := by
  have hz := has_zero (t := t)
  constructor
  · intro h
    have A : ∃ s, addV t c d = some s ∧ ∀ i, t.Has (s i) ∧ s i ≡ c i + d i [ZMOD 2 ^ t.w] := by
      obtain ⟨w1, w2⟩ := (C117_add (by omega) ht31 hc hd).1
      have : addV t c d ≠ none := by
        intro hn
        obtain ⟨hT, i, hi⟩ := w1.1 hn
        rcases h with h | h
        · exact h hT
        · exact hi (show t.Has (c i + d i) from ⟨by have := (hc i).1; have := h1 i; omega, h i⟩)
      obtain ⟨s, hs⟩ := Option.ne_none_iff_exists'.1 this
      exact ⟨s, hs, fun i => ⟨(w2 s hs i).1, (w2 s hs i).2.1⟩⟩
    obtain ⟨s, s1, s2⟩ := A
    have B : subV t s (fun _ => 1) = some fun i => c i + d i - 1 := by
      obtain ⟨w1, w2⟩ := (C117_add (by omega) ht31 (fun i => (s2 i).1) (fun _ => has_one ht)).2.1
      have : subV t s (fun _ => 1) ≠ none := by
        intro hn
        obtain ⟨hT, i, hi⟩ := w1.1 hn
        rcases h with h | h
        · exact h hT
        · have : s i = c i + d i := by
            have h3 : t.Has (c i + d i) := ⟨by have := (hc i).1; have := h1 i; omega, h i⟩
            rw [← conv_fix (by omega) h3, ← conv_fix (by omega) (s2 i).1]
            exact conv_congr (by omega) (s2 i).2
          exact hi (show t.Has (s i - 1) from ⟨by have := (hc i).1; have := h1 i; omega, by have := h i; omega⟩)
      obtain ⟨r, hr⟩ := Option.ne_none_iff_exists'.1 this
      rw [hr]
      congr 1
      funext i
      obtain ⟨r1, r2, -⟩ := w2 r hr i
      have h3 : t.Has (c i + d i - 1) := ⟨by have := (hc i).1; have := h1 i; omega, hf i⟩
      rw [← conv_fix (by omega) r1, ← conv_fix (by omega) h3]
      exact conv_congr (by omega) (r2.trans ((s2 i).2.sub_right 1))
    unfold fromCorner
    rw [s1]
    simp only [Option.bind_eq_bind, Option.bind_some]
    rw [B]
    simp only [Option.bind_some]
    have m1 : (fun i => min (c i) (c i + d i - 1)) = c := funext fun i => min_eq_left (by have := h1 i; omega)
    have m2 : (fun i => max (c i) (c i + d i - 1)) = fun i => c i + d i - 1 := funext fun i => max_eq_right (by have := h1 i; omega)
    rw [m1, m2]
  · rintro hT ⟨i, hi⟩
    unfold fromCorner
    have : addV t c d = none := each_none.2 ⟨i, (store_none _).2 (Or.inl ⟨hT, fun h => by have := h.2; omega⟩)⟩
    rw [this]
    rfl

example : fromCorner ⟨32, true⟩ ![(2 ^ 31 - 10 : ℤ)] ![10] = none ∧
    fromCorner ⟨32, false⟩ ![(2 ^ 32 - 10 : ℤ)] ![10] = some ⟨![2 ^ 32 - 10], ![2 ^ 32 - 1]⟩ := by
  decide +kernel

/-! ## Nearest points and distances -/

theorem absDiff_has {t : ITy} (ht : 1 ≤ t.w) {p q : ℤ} (h : |p - q| ≤ t.hi) (hs : t.signed = true ∨ t.w < 32) : absDiff t p q = some |p - q| := by
  have h0 : t.Has |p - q| := ⟨(has_zero (t := t)).1.trans (abs_nonneg _), h⟩
  have e : arith t.promote (p - q) = some (p - q) := by
    by_cases hw : t.w < 32
    · have h31 : |p - q| ≤ 2 ^ 31 - 1 := by
        have := has_31 ht hw h0
        rwa [abs_abs] at this
      have := abs_le.1 h31
      exact arith_narrow hw (by norm_num at this ⊢; omega)
    · have hs' : t.signed = true := by rcases hs with h | h; exact h; omega
      rw [arith_wide (by omega)]
      refine store_has ht ?_
      have := abs_le.1 h
      refine ⟨?_, this.2⟩
      unfold ITy.lo
      unfold ITy.hi at this
      simp only [hs', if_true] at this ⊢
      omega
  unfold absDiff
  rw [e]
  exact store_has ht h0

/-- **C118.** `project` agrees with the exact one where the distances to the corners fit. -/
theorem C118_project {t : ITy} (ht : 1 ≤ t.w) (hs : t.signed = true ∨ t.w < 32) {b : Box ℤ n} {p : Fin n → ℤ}
    (h : ∀ i, |p i - b.lo i| ≤ t.hi ∧ |p i - b.hi i| ≤ t.hi) : project t b p = some (b.project p) := by
  refine each_some.2 fun i => ?_
  rw [absDiff_has ht (h i).1 hs]
  simp only [Option.bind_eq_bind, Option.bind_some]
  rw [absDiff_has ht (h i).2 hs]
  rfl

/-- **C118, refuted.** With signed types narrower than `int`, a distance that does not fit becomes negative and the farther corner is
chosen. -/
theorem C118_project_refuted {t : ITy} (ht : 1 ≤ t.w) (hw : t.w < 31) (hs : t.signed = true) {b : Box ℤ n} {p z : Fin n → ℤ} (hb : Fits t b)
    (hp : ∀ i, t.Has (p i)) {i : Fin n} (h1 : t.hi < |p i - b.lo i|) (h2 : |p i - b.hi i| ≤ t.hi) (hz : project t b p = some z) :
    z i = b.lo i ∧ |p i - b.hi i| < |p i - z i| := by
  have h := each_some.1 hz i
  have b1 := narrow_abs ht hw (hp i)
  have b2 := narrow_abs ht hw (hb i).1
  norm_num at b1 b2
  have e1 : arith t.promote (p i - b.lo i) = some (p i - b.lo i) := arith_narrow (by omega) (by norm_num; omega)
  have e2 : store t |p i - b.lo i| = some (conv t |p i - b.lo i|) := by
    refine store_narrow (by omega) ?_
    have : |p i - b.lo i| ≤ 2147483647 := abs_le.2 (by omega)
    have := abs_nonneg (p i - b.lo i)
    norm_num; omega
  have e3 : absDiff t (p i) (b.lo i) = some (conv t |p i - b.lo i|) := by
    unfold absDiff; rw [e1]; exact e2
  rw [e3, absDiff_has ht h2 (Or.inl hs)] at h
  simp only [Option.bind_eq_bind, Option.bind_some, Option.some.injEq] at h
  have hneg : conv t |p i - b.lo i| < 0 := by
    have hc : conv t |p i - b.lo i| = |p i - b.lo i| - 2 ^ t.w := by
      refine (C117_conv ht _ _).2 ⟨?_, ?_⟩
      · obtain ⟨a1, a2⟩ := hp i
        obtain ⟨c1, c2⟩ := (hb i).1
        have hhl := hi_lo ht (t := t)
        have hle : |p i - b.lo i| ≤ t.hi - t.lo := abs_le.2 ⟨by omega, by omega⟩
        have := (has_zero (t := t)).1
        have h3 : (2 : ℤ) ^ t.w = 2 ^ (t.w - 1) * 2 := by rw [← pow_succ]; congr 1; omega
        unfold ITy.hi at h1
        unfold ITy.Has ITy.lo ITy.hi
        unfold ITy.lo ITy.hi at hle
        simp only [hs, if_true] at h1 hle ⊢
        constructor <;> omega
      · rw [Int.modEq_iff_dvd]
        exact ⟨1, by ring⟩
    obtain ⟨a1, a2⟩ := hp i
    obtain ⟨c1, c2⟩ := (hb i).1
    have hhl := hi_lo ht (t := t)
    have hle : |p i - b.lo i| ≤ t.hi - t.lo := abs_le.2 ⟨by omega, by omega⟩
    omega
  rw [if_pos (hneg.trans_le (abs_nonneg _))] at h
  refine ⟨h.symm, ?_⟩
  rw [← h]
  omega

example : project ⟨8, true⟩ (⟨![-100], ![50]⟩ : Box ℤ 1) ![60] = some ![-100] ∧
    project ⟨32, true⟩ (⟨![-100], ![50]⟩ : Box ℤ 1) ![60] = some ![50] := by
  decide +kernel

/-- **C118.** The squared distance is exact if it fits. -/
theorem C118_dist2 {t : ITy} (ht : 1 ≤ t.w) {b : Box ℤ n} {p : Fin n → ℤ} (hd : ∀ i, t.Has (p i - b.clip p i))
    (h : ∑ i, (p i - b.clip p i) ^ 2 ≤ t.hi) : dist2 t b p = some (∑ i, (p i - b.clip p i) ^ 2) := by
  have e1 : subV t p (b.clip p) = some fun i => p i - b.clip p i := each_some.2 fun i => store_has ht (hd i)
  have e2 : ∑ i, |(p i - b.clip p i) * (p i - b.clip p i)| = ∑ i, (p i - b.clip p i) ^ 2 :=
    Finset.sum_congr rfl fun i _ => by rw [abs_mul_self, pow_two]
  unfold dist2
  rw [e1]
  simp only [Option.bind_eq_bind, Option.bind_some]
  rw [mag2_eq, C117_dot_small ht hd hd (by rw [e2]; exact h)]
  congr 1
  exact Finset.sum_congr rfl fun i _ => (pow_two _).symm

end Geomc.RectInt
