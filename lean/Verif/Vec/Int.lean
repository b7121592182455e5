import Mathlib.Algebra.Order.BigOperators.Ring.Finset
import Mathlib.Data.Int.ModEq
import Mathlib.NumberTheory.SumFourSquares
import Mathlib.Tactic.Linarith
import Verif.Vec.IntModel
import Verif.Float.Vec
import Verif.Float.Range

/-! # Property C117: vectors of machine integers -/

namespace Geomc.VecInt

open Geomc.Flt (IsFloat IsRound)

/-! ## Conversions and arithmetic -/

theorem pow_split {w : ℕ} (h : 1 ≤ w) : (2 : ℤ) ^ w = 2 * 2 ^ (w - 1) := by
  conv_lhs => rw [show w = (w - 1) + 1 by omega, pow_succ]
  ring

/-- **C117.** A conversion keeps the value modulo the size of the type, the result fits, and nothing else would do. -/
theorem C117_conv {t : ITy} (ht : 1 ≤ t.w) (x r : ℤ) : conv t x = r ↔ t.Has r ∧ r ≡ x [ZMOD 2 ^ t.w] := by
  have hp : (0 : ℤ) < 2 ^ t.w := by positivity
  have key : t.Has (conv t x) ∧ conv t x ≡ x [ZMOD 2 ^ t.w] := by
    unfold conv ITy.Has ITy.lo ITy.hi
    cases hs : t.signed
    · simp only [Bool.false_eq_true, if_false]
      exact ⟨⟨Int.emod_nonneg _ hp.ne', by have := Int.emod_lt_of_pos x hp; omega⟩, Int.mod_modEq x _⟩
    · simp only [if_true]
      have e := pow_split ht
      have e' : ((2 ^ t.w : ℕ) : ℤ) = 2 * 2 ^ (t.w - 1) := by push_cast; exact e
      refine ⟨⟨?_, ?_⟩, ?_⟩
      · have := Int.le_bmod (x := x) (m := 2 ^ t.w) (by positivity)
        omega
      · have := Int.bmod_lt (x := x) (m := 2 ^ t.w) (by positivity)
        omega
      · have := Int.bmod_emod (x := x) (m := 2 ^ t.w)
        unfold Int.ModEq
        exact_mod_cast this
  constructor
  · rintro rfl; exact key
  · rintro ⟨hr, hm⟩
    have h := key.2.trans hm.symm
    have hd := (Int.modEq_iff_dvd.1 h)
    obtain ⟨k, hk⟩ := hd
    have b1 := key.1
    unfold ITy.Has ITy.lo ITy.hi at b1 hr
    have e := pow_split ht
    have : |r - conv t x| < 2 ^ t.w := by
      rw [abs_lt]
      split_ifs at b1 hr <;> constructor <;> omega
    rw [hk, abs_mul, abs_of_pos hp] at this
    have hk0 : k = 0 := by
      by_contra hne
      have := Int.one_le_abs hne
      nlinarith
    rw [hk0] at hk
    omega

theorem conv_has {t : ITy} (ht : 1 ≤ t.w) (x : ℤ) : t.Has (conv t x) := ((C117_conv ht x _).1 rfl).1
theorem conv_mod {t : ITy} (ht : 1 ≤ t.w) (x : ℤ) : conv t x ≡ x [ZMOD 2 ^ t.w] := ((C117_conv ht x _).1 rfl).2
theorem conv_fix {t : ITy} (ht : 1 ≤ t.w) {x : ℤ} (h : t.Has x) : conv t x = x := (C117_conv ht x x).2 ⟨h, rfl⟩
theorem conv_congr {t : ITy} (ht : 1 ≤ t.w) {x y : ℤ} (h : x ≡ y [ZMOD 2 ^ t.w]) : conv t x = conv t y :=
  (C117_conv ht x _).2 ⟨conv_has ht y, (conv_mod ht y).trans h.symm⟩

/-- The types whose arithmetic overflows: `int` and wider signed types. -/
def ITy.Traps (t : ITy) : Prop := 32 ≤ t.w ∧ t.signed = true

theorem promote_wide {t : ITy} (h : 32 ≤ t.w) : t.promote = t := by
  unfold ITy.promote; rw [if_neg (by omega)]

theorem promote_narrow {t : ITy} (h : t.w < 32) : t.promote = ⟨32, true⟩ := by
  unfold ITy.promote; rw [if_pos h]

/-- The result of an operation, if it is defined at all, is the right one modulo the size of the type. -/
theorem store_sound {t : ITy} (ht : 1 ≤ t.w) {x r : ℤ} (h : store t x = some r) : r = conv t x := by
  unfold store arith at h
  by_cases hw : t.w < 32
  · rw [promote_narrow hw] at h
    simp only [if_true] at h
    split_ifs at h with h1
    · simpa using h.symm
    · simp at h
  · rw [promote_wide (by omega)] at h
    cases hs : t.signed
    · simp only [hs, Bool.false_eq_true, if_false, Option.map_some, Option.some.injEq] at h
      rw [← h]
      exact conv_congr ht (Int.mod_modEq x _)
    · simp only [hs, if_true] at h
      split_ifs at h with h1
      · simpa using h.symm
      · simp at h

/-- An operation is undefined exactly for signed types from `int` on, if the exact result does not fit, and for narrow ones, if it does
not fit an `int`. -/
theorem store_isSome {t : ITy} (x : ℤ) : (store t x).isSome ↔ (t.Traps → t.Has x) ∧ (t.w < 32 → -2 ^ 31 ≤ x ∧ x < 2 ^ 31) := by
  unfold store arith ITy.Traps
  by_cases hw : t.w < 32
  · rw [promote_narrow hw, Option.isSome_map]
    simp only [if_true]
    constructor
    · intro h
      refine ⟨fun h' => by omega, fun _ => ?_⟩
      by_contra hc
      rw [if_neg] at h
      · simp at h
      · unfold ITy.Has ITy.lo ITy.hi; simp only [if_true]; norm_num at hc ⊢; omega
    · rintro ⟨-, h⟩
      rw [if_pos]
      · rfl
      · have := h hw
        unfold ITy.Has ITy.lo ITy.hi; simp only [if_true]; norm_num at this ⊢; omega
  · rw [promote_wide (by omega), Option.isSome_map]
    cases hs : t.signed
    · simp [hw]
    · simp only [if_true]
      by_cases h1 : t.Has x
      · simp [h1, hw]
      · simp [h1, hw]

/-! ## Element-wise operations -/

variable {n : ℕ}

theorem each_some {f : Fin n → Option ℤ} {r : Fin n → ℤ} : each f = some r ↔ ∀ i, f i = some (r i) := by
  unfold each
  constructor
  · intro h
    split_ifs at h with h1
    intro i
    rw [Option.some.injEq] at h
    rw [← h]
    simp
  · intro h
    rw [dif_pos fun i => by rw [h i]; rfl]
    congr 1
    funext i
    simp [h i]

theorem each_none {f : Fin n → Option ℤ} : each f = none ↔ ∃ i, f i = none := by
  unfold each
  constructor
  · intro h
    split_ifs at h with h1
    push Not at h1
    obtain ⟨i, hi⟩ := h1
    exact ⟨i, by simpa using hi⟩
  · rintro ⟨i, hi⟩
    rw [dif_neg]
    intro h
    have := h i
    rw [hi] at this
    simp at this

theorem store_none {t : ITy} (x : ℤ) : store t x = none ↔ (t.Traps ∧ ¬ t.Has x) ∨ (t.w < 32 ∧ ¬ (-2 ^ 31 ≤ x ∧ x < 2 ^ 31)) := by
  rw [← Option.not_isSome_iff_eq_none, store_isSome]
  tauto

/-- The elements of narrow types are small. -/
theorem has_abs {t : ITy} {x : ℤ} (h : t.Has x) : |x| ≤ 2 ^ t.w - 1 ∨ (t.w = 0) := by
  by_cases hw : t.w = 0
  · exact Or.inr hw
  left
  have e := pow_split (w := t.w) (by omega)
  have : (1 : ℤ) ≤ 2 ^ (t.w - 1) := one_le_pow₀ (by norm_num)
  unfold ITy.Has ITy.lo ITy.hi at h
  rw [abs_le]
  split_ifs at h <;> constructor <;> omega

theorem has_abs' {t : ITy} (hs : t.signed = true) {x : ℤ} (h : t.Has x) : |x| ≤ 2 ^ (t.w - 1) := by
  unfold ITy.Has ITy.lo ITy.hi at h
  rw [if_pos hs, if_pos hs] at h
  rw [abs_le]
  omega

theorem has_31 {t : ITy} (ht : 1 ≤ t.w) (hw : t.w < 32) {x : ℤ} (h : t.Has x) : |x| ≤ 2 ^ 31 - 1 := by
  rcases has_abs h with h | h
  · have : (2 : ℤ) ^ t.w ≤ 2 ^ 31 := pow_le_pow_right₀ (by norm_num) (by omega)
    omega
  · omega

theorem store_has {t : ITy} (ht : 1 ≤ t.w) {x : ℤ} (h : t.Has x) : store t x = some x := by
  have h1 : (store t x).isSome := (store_isSome x).2 ⟨fun _ => h, fun hw => by
    have := abs_le.1 (has_31 ht hw h)
    norm_num at this ⊢
    omega⟩
  obtain ⟨r, hr⟩ := Option.isSome_iff_exists.1 h1
  rw [hr, store_sound ht hr, conv_fix ht h]

/-- What is left of `store_none` where narrow types cannot overflow an `int`. -/
theorem each_store {t : ITy} (ht : 1 ≤ t.w) {x : Fin n → ℤ} (hn : t.w < 32 → ∀ i, -2 ^ 31 ≤ x i ∧ x i < 2 ^ 31) :
    (each (fun i => store t (x i)) = none ↔ t.Traps ∧ ∃ i, ¬ t.Has (x i)) ∧
    ∀ r, each (fun i => store t (x i)) = some r → ∀ i, r i = conv t (x i) := by
  refine ⟨?_, fun r h i => store_sound ht (each_some.1 h i)⟩
  rw [each_none]
  constructor
  · rintro ⟨i, hi⟩
    rcases (store_none _).1 hi with ⟨h1, h2⟩ | ⟨h1, h2⟩
    · exact ⟨h1, i, h2⟩
    · exact absurd (hn h1 i) h2
  · rintro ⟨h1, i, h2⟩
    exact ⟨i, (store_none _).2 (Or.inl ⟨h1, h2⟩)⟩

/-- The result of an operation whose exact result is `x`: undefined only for signed types from `int` on, and there exactly if an element
does not fit; otherwise the value of the type which is congruent to it. -/
def Wraps (t : ITy) (r : Option (Fin n → ℤ)) (x : Fin n → ℤ) : Prop :=
  (r = none ↔ t.Traps ∧ ∃ i, ¬ t.Has (x i)) ∧
  ∀ z, r = some z → ∀ i, t.Has (z i) ∧ z i ≡ x i [ZMOD 2 ^ t.w] ∧ (t.Has (x i) → z i = x i)

theorem wraps_of {t : ITy} (ht : 1 ≤ t.w) {x : Fin n → ℤ} (hn : t.w < 32 → ∀ i, -2 ^ 31 ≤ x i ∧ x i < 2 ^ 31) :
    Wraps t (each (fun i => store t (x i))) x := by
  refine ⟨(each_store ht hn).1, fun z hz i => ?_⟩
  rw [(each_store ht hn).2 z hz i]
  exact ⟨conv_has ht _, conv_mod ht _, conv_fix ht⟩

/-- **C117.** Sums, differences and negations of vectors of integers. -/
theorem C117_add {t : ITy} (ht : 1 ≤ t.w) (ht31 : t.w < 31 ∨ 32 ≤ t.w) {u v : Fin n → ℤ} (hu : ∀ i, t.Has (u i)) (hv : ∀ i, t.Has (v i)) :
    Wraps t (addV t u v) (fun i => u i + v i) ∧ Wraps t (subV t u v) (fun i => u i - v i) ∧ Wraps t (negV t v) (fun i => -v i) := by
  have small : t.w < 32 → ∀ x, t.Has x → |x| ≤ 2 ^ 30 - 1 := by
    intro hw x hx
    rcases has_abs hx with h | h
    · have : (2 : ℤ) ^ t.w ≤ 2 ^ 30 := pow_le_pow_right₀ (by norm_num) (by omega)
      omega
    · omega
  refine ⟨wraps_of ht fun hw i => ?_, wraps_of ht fun hw i => ?_, wraps_of ht fun hw i => ?_⟩ <;>
    · have a := abs_le.1 (small hw _ (hu i))
      have b := abs_le.1 (small hw _ (hv i))
      norm_num at a b ⊢
      omega

/-- **C117.** Absolute values. -/
theorem C117_abs {t : ITy} (ht : 1 ≤ t.w) {v : Fin n → ℤ} (hv : ∀ i, t.Has (v i)) : Wraps t (absV t v) (fun i => |v i|) := by
  refine wraps_of ht fun hw i => ?_
  have b := has_31 ht hw (hv i)
  have := abs_nonneg (v i)
  norm_num at b ⊢
  omega

/-- **C117.** Element-wise products: also undefined for `unsigned short`, where the promoted operands overflow an `int`. -/
theorem C117_mul {t : ITy} (ht : 1 ≤ t.w) (hw : t.w ≤ 16 ∨ 32 ≤ t.w) {u v : Fin n → ℤ} (hu : ∀ i, t.Has (u i)) (hv : ∀ i, t.Has (v i)) :
    (mulV t u v = none ↔ (t.Traps ∧ ∃ i, ¬ t.Has (u i * v i)) ∨ (t = ⟨16, false⟩ ∧ ∃ i, 2 ^ 31 ≤ u i * v i)) ∧
    ∀ z, mulV t u v = some z → ∀ i, t.Has (z i) ∧ z i ≡ u i * v i [ZMOD 2 ^ t.w] := by
  constructor
  · unfold mulV mul
    rw [each_none]
    constructor
    · rintro ⟨i, hi⟩
      rcases (store_none _).1 hi with ⟨h1, h2⟩ | ⟨h1, h2⟩
      · exact Or.inl ⟨h1, i, h2⟩
      · right
        have hab : |u i * v i| = |u i| * |v i| := abs_mul _ _
        have bu := has_abs (hu i)
        have bv := has_abs (hv i)
        by_cases hs : t.signed = true
        · exfalso
          have p15 : (2 : ℤ) ^ (t.w - 1) ≤ 2 ^ 15 := pow_le_pow_right₀ (by norm_num) (by omega)
          have := mul_le_mul (has_abs' hs (hu i)) (has_abs' hs (hv i)) (abs_nonneg _) (by positivity)
          have h3 : |u i * v i| ≤ 2 ^ 15 * 2 ^ 15 := by
            rw [hab]; exact this.trans (mul_le_mul p15 p15 (by positivity) (by positivity))
          have := abs_le.1 h3
          norm_num at this h2
          omega
        · have hw16 : t.w = 16 := by
            by_contra hc
            have p15 : (2 : ℤ) ^ t.w ≤ 2 ^ 15 := pow_le_pow_right₀ (by norm_num) (by omega)
            have : |u i * v i| ≤ 2 ^ 15 * 2 ^ 15 := by
              rw [hab]
              exact mul_le_mul (by omega) (by omega) (abs_nonneg _) (by positivity)
            have := abs_le.1 this
            norm_num at this h2
            omega
          refine ⟨?_, i, ?_⟩
          · obtain ⟨w, sg⟩ := t
            simp_all
          · have h0u := (hu i).1
            have h0v := (hv i).1
            unfold ITy.lo at h0u h0v
            rw [if_neg hs] at h0u h0v
            have := mul_nonneg h0u h0v
            norm_num at h2 ⊢
            omega
    · rintro (⟨h1, i, h2⟩ | ⟨rfl, i, h2⟩)
      · exact ⟨i, (store_none _).2 (Or.inl ⟨h1, h2⟩)⟩
      · exact ⟨i, (store_none _).2 (Or.inr ⟨by norm_num, by omega⟩)⟩
  · intro z hz i
    have := store_sound ht (each_some.1 hz i)
    rw [this]
    exact ⟨conv_has ht _, conv_mod ht _⟩

/-- **C117.** Element-wise quotients round towards zero. -/
theorem C117_div {t : ITy} (ht : 1 ≤ t.w) {u v : Fin n → ℤ} (hu : ∀ i, t.Has (u i)) (hv : ∀ i, t.Has (v i)) :
    (divV t u v = none ↔ ∃ i, v i = 0 ∨ (t.Traps ∧ u i = t.lo ∧ v i = -1)) ∧
    ∀ z, divV t u v = some z → ∀ i, z i = if u i = t.lo ∧ v i = -1 then t.lo else (u i).tdiv (v i) := by
  have fits : ∀ i, v i ≠ 0 → ¬ (u i = t.lo ∧ v i = -1) → t.Has ((u i).tdiv (v i)) := by
    intro i h0 h1
    have hlo : t.lo ≤ 0 := by unfold ITy.lo; split_ifs <;> simp
    have hb : |(u i).tdiv (v i)| ≤ |u i| := by
      rw [Int.abs_eq_natAbs, Int.abs_eq_natAbs, Int.natAbs_tdiv]
      exact_mod_cast Nat.div_le_self _ _
    have hux := hu i
    have hvx := hv i
    unfold ITy.Has ITy.hi at hux hvx ⊢
    have e : t.lo = if t.signed then -2 ^ (t.w - 1) else 0 := rfl
    by_cases hs : t.signed = true
    · rw [if_pos hs] at e hux hvx ⊢
      have pp : (0 : ℤ) < 2 ^ (t.w - 1) := by positivity
      have hu' : |u i| ≤ 2 ^ (t.w - 1) := by rw [abs_le]; omega
      have hq := abs_le.1 (hb.trans hu')
      refine ⟨by omega, ?_⟩
      by_contra hc
      have hqe : (u i).tdiv (v i) = 2 ^ (t.w - 1) := by omega
      have hue : |u i| = 2 ^ (t.w - 1) := le_antisymm hu' (by rw [← abs_of_pos pp, ← hqe]; exact hb)
      have hun : u i = t.lo := by
        rcases abs_choice (u i) with h | h <;> omega
      refine h1 ⟨hun, ?_⟩
      have h3 : (u i).natAbs / (v i).natAbs = (u i).natAbs := by
        have h4 : ((u i).tdiv (v i)).natAbs = (u i).natAbs := by
          rw [Int.abs_eq_natAbs] at hue
          have : (((u i).tdiv (v i)).natAbs : ℤ) = 2 ^ (t.w - 1) := by rw [hqe, Int.natAbs_of_nonneg pp.le]
          exact_mod_cast this.trans hue.symm
        rwa [Int.natAbs_tdiv] at h4
      rcases Nat.div_eq_self.1 h3 with h4 | h4
      · rw [Int.natAbs_eq_zero] at h4
        rw [h4, abs_zero] at hue
        omega
      · rcases Int.natAbs_eq (v i) with h5 | h5 <;> rw [h4] at h5
        · rw [h5, hun] at hqe
          simp at hqe
          omega
        · simpa using h5
    · rw [if_neg hs] at e hux hvx ⊢
      have : 0 ≤ (u i).tdiv (v i) := Int.tdiv_nonneg (by omega) (by omega)
      rw [abs_of_nonneg this, abs_of_nonneg (show 0 ≤ u i by omega)] at hb
      omega
  have lo_neg : ∀ i, u i = t.lo ∧ v i = -1 → (u i).tdiv (v i) = -t.lo := by
    rintro i ⟨h1, h2⟩
    rw [h1, h2]
    simp
  have key : ∀ i, v i ≠ 0 → ¬ (u i = t.lo ∧ v i = -1) → store t ((u i).tdiv (v i)) = some ((u i).tdiv (v i)) :=
    fun i h0 h1 => store_has ht (fits i h0 h1)
  have key1 : ∀ i, u i = t.lo ∧ v i = -1 → (store t ((u i).tdiv (v i)) = none ↔ t.Traps) ∧
      ∀ z, store t ((u i).tdiv (v i)) = some z → z = t.lo := by
    intro i hi
    rw [lo_neg i hi]
    have hs : t.signed = true := by
      by_contra hs
      have := (hv i).1
      unfold ITy.lo at this
      rw [if_neg hs] at this
      omega
    have e : t.lo = -2 ^ (t.w - 1) := by unfold ITy.lo; rw [if_pos hs]
    have eh : t.hi = 2 ^ (t.w - 1) - 1 := by unfold ITy.hi; rw [if_pos hs]
    have pp : (0 : ℤ) < 2 ^ (t.w - 1) := by positivity
    refine ⟨?_, fun z hz => ?_⟩
    · rw [store_none]
      constructor
      · rintro (h | ⟨h1, h2⟩)
        · exact h.1
        · have : (2 : ℤ) ^ (t.w - 1) ≤ 2 ^ 30 := pow_le_pow_right₀ (by norm_num) (by omega)
          rw [e] at h2
          norm_num at h2 this
          omega
      · intro h
        refine Or.inl ⟨h, ?_⟩
        unfold ITy.Has
        omega
    · rw [store_sound ht hz]
      refine (C117_conv ht _ _).2 ⟨⟨le_refl _, by omega⟩, ?_⟩
      rw [e]
      refine Int.modEq_iff_dvd.2 ⟨1, ?_⟩
      rw [pow_split ht]
      ring
  constructor
  · unfold divV
    rw [each_none]
    refine exists_congr fun i => ?_
    unfold div
    by_cases h0 : v i = 0
    · simp [h0]
    · rw [if_neg h0]
      by_cases h1 : u i = t.lo ∧ v i = -1
      · rw [(key1 i h1).1]
        constructor
        · exact fun h => Or.inr ⟨h, h1⟩
        · rintro (h | h)
          · exact absurd h h0
          · exact h.1
      · rw [key i h0 h1]
        constructor
        · intro h; simp at h
        · rintro (h | h)
          · exact absurd h h0
          · exact absurd h.2 h1
  · intro z hz i
    have hi := each_some.1 hz i
    unfold div at hi
    by_cases h0 : v i = 0
    · rw [if_pos h0] at hi; simp at hi
    · rw [if_neg h0] at hi
      by_cases h1 : u i = t.lo ∧ v i = -1
      · rw [if_pos h1]; exact (key1 i h1).2 _ hi
      · rw [key i h0 h1] at hi
        rw [if_neg h1]
        simpa using hi.symm

/-! ## Dot products -/

theorem arith_sound {t : ITy} {x p : ℤ} (h : arith t.promote x = some p) : p ≡ x [ZMOD 2 ^ t.w] := by
  unfold arith at h
  by_cases hw : t.w < 32
  · rw [promote_narrow hw] at h
    simp only [if_true] at h
    split_ifs at h
    simp only [Option.some.injEq] at h
    rw [h]
  · rw [promote_wide (by omega)] at h
    split_ifs at h
    · simp only [Option.some.injEq] at h
      rw [h]
    · simp only [Option.some.injEq] at h
      rw [← h]
      exact Int.mod_modEq x _

theorem multiplyAdd_sound {t : ITy} (ht : 1 ≤ t.w) {a b c r : ℤ} (h : multiplyAdd t a b c = some r) : r = conv t (a * b + c) := by
  unfold multiplyAdd at h
  obtain ⟨p, hp, h⟩ := Option.bind_eq_some_iff.1 h
  rw [store_sound ht h]
  exact conv_congr ht ((arith_sound hp).add_right c)

theorem diffOfProducts_sound {t : ITy} (ht : 1 ≤ t.w) {a b c d r : ℤ} (h : diffOfProducts t a b c d = some r) :
    r = conv t (a * b - c * d) := by
  unfold diffOfProducts at h
  obtain ⟨p, hp, h⟩ := Option.bind_eq_some_iff.1 h
  obtain ⟨q, hq, h⟩ := Option.bind_eq_some_iff.1 h
  rw [store_sound ht h]
  exact conv_congr ht ((arith_sound hp).sub (arith_sound hq))

/-- **C117.** A cross product, if it is defined, is right modulo the size of the type. -/
theorem C117_cross {t : ITy} (ht : 1 ≤ t.w) {u v z : Fin 3 → ℤ} (h : cross t u v = some z) (i : Fin 3) :
    t.Has (z i) ∧ z i ≡ u (i + 1) * v (i + 2) - u (i + 2) * v (i + 1) [ZMOD 2 ^ t.w] := by
  have hi := each_some.1 h i
  have : z i = conv t (u (i + 1) * v (i + 2) - u (i + 2) * v (i + 1)) := by
    fin_cases i <;> exact diffOfProducts_sound ht hi
  rw [this]
  exact ⟨conv_has ht _, conv_mod ht _⟩

theorem fold_sound {t : ITy} (ht : 1 ≤ t.w) (u v : Fin n → ℤ) (l : List (Fin n)) {s0 s : ℤ} (h0 : t.Has s0)
    (h : l.foldlM (fun sum i => multiplyAdd t (u i) (v i) sum) s0 = some s) : s = conv t (s0 + (l.map fun i => u i * v i).sum) := by
  induction l generalizing s0 with
  | nil =>
    simp only [List.foldlM_nil, Option.pure_def, Option.some.injEq] at h
    simp [← h, conv_fix ht h0]
  | cons i l ih =>
    rw [List.foldlM_cons] at h
    obtain ⟨p, hp, h⟩ := Option.bind_eq_some_iff.1 h
    have e := multiplyAdd_sound ht hp
    rw [ih (e ▸ conv_has ht _) h]
    refine conv_congr ht ?_
    rw [List.map_cons, List.sum_cons, ← add_assoc]
    refine Int.ModEq.add_right _ ?_
    rw [e, add_comm s0]
    exact conv_mod ht _

theorem has_zero {t : ITy} : t.Has 0 := by
  unfold ITy.Has ITy.lo ITy.hi
  have p : (1 : ℤ) ≤ 2 ^ (t.w - 1) := one_le_pow₀ (by norm_num)
  have q : (1 : ℤ) ≤ 2 ^ t.w := one_le_pow₀ (by norm_num)
  split_ifs <;> omega

theorem sum_list (f : Fin n → ℤ) : ((List.finRange n).map f).sum = ∑ i, f i := by
  rw [← List.ofFn_eq_map, List.sum_ofFn]

/-- **C117.** A dot product, if it is defined, is right modulo the size of the type, and exactly if the exact one fits. -/
theorem C117_dot {t : ITy} (ht : 1 ≤ t.w) {u v : Fin n → ℤ} {s : ℤ} (h : dot t u v = some s) :
    t.Has s ∧ s ≡ ∑ i, u i * v i [ZMOD 2 ^ t.w] ∧ (t.Has (∑ i, u i * v i) → s = ∑ i, u i * v i) := by
  have e := fold_sound ht u v _ has_zero h
  rw [zero_add, sum_list] at e
  rw [e]
  exact ⟨conv_has ht _, conv_mod ht _, conv_fix ht⟩

theorem fold_total {t : ITy} {u v : Fin n → ℤ} (h : ∀ i s, t.Has s → ∃ r, multiplyAdd t (u i) (v i) s = some r ∧ t.Has r) (l : List (Fin n))
    {s0 : ℤ} (h0 : t.Has s0) : (l.foldlM (fun sum i => multiplyAdd t (u i) (v i) sum) s0).isSome := by
  induction l generalizing s0 with
  | nil => simp
  | cons i l ih =>
    obtain ⟨r, hr, hr'⟩ := h i s0 h0
    rw [List.foldlM_cons, hr]
    exact ih hr'

theorem multiplyAdd_total {t : ITy} (ht : 1 ≤ t.w) (hw : t.w ≤ 16 ∨ (32 ≤ t.w ∧ t.signed = false)) {a b s : ℤ}
    (hab : t.w ≤ 16 → |a * b| ≤ 2 ^ 30) (hs : t.Has s) : ∃ r, multiplyAdd t a b s = some r ∧ t.Has r := by
  have : (multiplyAdd t a b s).isSome := by
    unfold multiplyAdd
    by_cases h32 : 32 ≤ t.w
    · have hsg : t.signed = false := by
        rcases hw with h | h
        · omega
        · exact h.2
      rw [promote_wide h32]
      unfold arith
      simp only [hsg, Bool.false_eq_true, if_false]
      refine (store_isSome _).2 ⟨fun h => ?_, fun h => by omega⟩
      have := h.2
      rw [hsg] at this
      simp at this
    · have h16 : t.w ≤ 16 := by omega
      have hs16 : |s| ≤ 2 ^ 16 := by
        have p16 : (2 : ℤ) ^ t.w ≤ 2 ^ 16 := pow_le_pow_right₀ (by norm_num) h16
        have := has_abs hs
        omega
      have b1 := abs_le.1 (hab h16)
      have b2 := abs_le.1 hs16
      rw [promote_narrow (by omega)]
      unfold arith
      simp only [if_true]
      rw [if_pos (by unfold ITy.Has ITy.lo ITy.hi; simp only [if_true]; norm_num at b1 ⊢; omega)]
      refine (store_isSome _).2 ⟨fun h => absurd h.1 h32, fun _ => ?_⟩
      norm_num at b1 b2 ⊢
      omega
  obtain ⟨r, hr⟩ := Option.isSome_iff_exists.1 this
  exact ⟨r, hr, multiplyAdd_sound ht hr ▸ conv_has ht _⟩

/-- **C117.** Dot products of `signed char`, `unsigned char`, `short` and of unsigned types from `unsigned int` on are always defined. -/
theorem C117_dot_total {t : ITy} (ht : 1 ≤ t.w) (hw : t.w ≤ 15 ∨ (t.w = 16 ∧ t.signed = true) ∨ (32 ≤ t.w ∧ t.signed = false))
    {u v : Fin n → ℤ} (hu : ∀ i, t.Has (u i)) (hv : ∀ i, t.Has (v i)) : (dot t u v).isSome := by
  refine fold_total (fun i s hs => multiplyAdd_total ht (by
    rcases hw with h | h | h
    exacts [Or.inl (by omega), Or.inl (by omega), Or.inr h]) (fun h16 => ?_) hs) _ has_zero
  rw [abs_mul]
  by_cases hs : t.signed = true
  · have p15 : (2 : ℤ) ^ (t.w - 1) ≤ 2 ^ 15 := pow_le_pow_right₀ (by norm_num) (by omega)
    exact (mul_le_mul ((has_abs' hs (hu i)).trans p15) ((has_abs' hs (hv i)).trans p15) (abs_nonneg _) (by positivity)).trans (by norm_num)
  · have p15 : (2 : ℤ) ^ t.w ≤ 2 ^ 15 := pow_le_pow_right₀ (by norm_num) (by
      rcases hw with h | h | h
      · exact h
      · exact absurd h.2 hs
      · omega)
    have bu := has_abs (hu i)
    have bv := has_abs (hv i)
    exact (mul_le_mul (show |u i| ≤ 2 ^ 15 by omega) (show |v i| ≤ 2 ^ 15 by omega) (abs_nonneg _) (by positivity)).trans (by norm_num)

theorem arith_has {t : ITy} (ht : 1 ≤ t.w) {x : ℤ} (h : t.Has x) : arith t.promote x = some x := by
  unfold arith
  by_cases hw : t.w < 32
  · rw [promote_narrow hw]
    have := abs_le.1 (has_31 ht hw h)
    simp only [if_true]
    rw [if_pos (by unfold ITy.Has ITy.lo ITy.hi; simp only [if_true]; norm_num at this ⊢; omega)]
  · rw [promote_wide (by omega), if_pos h]
    by_cases hs : t.signed = true
    · rw [if_pos hs]
    · rw [if_neg hs]
      unfold ITy.Has ITy.lo ITy.hi at h
      rw [if_neg hs, if_neg hs] at h
      rw [Int.emod_eq_of_lt h.1 (by omega)]

theorem multiplyAdd_has {t : ITy} (ht : 1 ≤ t.w) {a b c : ℤ} (h : t.Has (a * b)) (h' : t.Has (a * b + c)) :
    multiplyAdd t a b c = some (a * b + c) := by
  unfold multiplyAdd
  rw [arith_has ht h]
  exact store_has ht h'

/-- **C117.** A dot product whose products do not exceed the greatest value altogether is defined and exact, in every type. -/
theorem C117_dot_small {t : ITy} (ht : 1 ≤ t.w) {u v : Fin n → ℤ} (hu : ∀ i, t.Has (u i)) (hv : ∀ i, t.Has (v i))
    (h : ∑ i, |u i * v i| ≤ t.hi) : dot t u v = some (∑ i, u i * v i) := by
  have hlo : ∀ x : ℤ, (t.signed = false → 0 ≤ x) → |x| ≤ t.hi → t.Has x := by
    intro x hx0 hx
    have hx' := abs_le.1 hx
    refine ⟨?_, hx'.2⟩
    unfold ITy.hi at hx'
    unfold ITy.lo
    by_cases hs : t.signed = true
    · rw [if_pos hs] at hx' ⊢
      omega
    · rw [if_neg hs]
      exact hx0 (by simpa using hs)
  have h0 : ∀ i, t.signed = false → 0 ≤ u i * v i := by
    intro i hs
    have a := (hu i).1
    have b := (hv i).1
    unfold ITy.lo at a b
    rw [if_neg (by simp [hs])] at a b
    exact mul_nonneg a b
  have main : ∀ (l : List (Fin n)) (s : ℤ), (t.signed = false → 0 ≤ s) → |s| + (l.map fun i => |u i * v i|).sum ≤ t.hi →
      l.foldlM (fun sum i => multiplyAdd t (u i) (v i) sum) s = some (s + (l.map fun i => u i * v i).sum) := by
    intro l
    induction l with
    | nil => intro s _ _; simp
    | cons i l ih =>
      intro s hs hb
      rw [List.map_cons, List.sum_cons] at hb
      have nn : 0 ≤ (l.map fun i => |u i * v i|).sum := List.sum_nonneg fun x hx => by
        obtain ⟨i, _, rfl⟩ := List.mem_map.1 hx
        exact abs_nonneg _
      have ha := abs_add_le (u i * v i) s
      have s0 := abs_nonneg s
      have p0 := abs_nonneg (u i * v i)
      have hpos : t.signed = false → 0 ≤ u i * v i + s := fun hf => add_nonneg (h0 i hf) (hs hf)
      rw [List.foldlM_cons, multiplyAdd_has ht (hlo _ (h0 i) (by omega)) (hlo _ hpos (by omega))]
      have := ih (u i * v i + s) hpos (by omega)
      simp only [Option.bind_eq_bind, Option.bind_some, this, List.map_cons, List.sum_cons]
      congr 1
      ring
  have := main (List.finRange n) 0 (fun _ => le_refl _) (by rw [sum_list]; simpa using h)
  rw [zero_add, sum_list] at this
  exact this

/-- **C117, refuted.** A dot product of `unsigned short`s is undefined as soon as one product reaches 2³¹, although unsigned arithmetic
wraps: the operands are promoted to `int`. -/
theorem C117_dot_refuted {u v : Fin n → ℤ} {t : ITy} (ht : t.w < 32) {i : Fin n} (h : 2 ^ 31 ≤ u i * v i) : dot t u v = none := by
  have step : ∀ s, multiplyAdd t (u i) (v i) s = none := by
    intro s
    unfold multiplyAdd arith
    rw [promote_narrow ht]
    simp only [if_true]
    rw [if_neg (by unfold ITy.Has ITy.lo ITy.hi; simp only [if_true]; norm_num at h ⊢; omega)]
    rfl
  have main : ∀ (l : List (Fin n)) (s : ℤ), i ∈ l → l.foldlM (fun sum i => multiplyAdd t (u i) (v i) sum) s = none := by
    intro l
    induction l with
    | nil => intro s hi; simp at hi
    | cons j l ih =>
      intro s hi
      rw [List.foldlM_cons]
      by_cases hj : i = j
      · rw [← hj, step]; rfl
      · have hl : i ∈ l := by simpa [hj] using hi
        cases hm : multiplyAdd t (u j) (v j) s with
        | none => rfl
        | some r => exact ih r hl
  exact main _ 0 (List.mem_finRange i)

example : dot ⟨16, false⟩ ![(46341 : ℤ)] ![46341] = none := by decide +kernel

/-! ## Squared lengths -/

theorem mag2_eq (t : ITy) (v : Fin n → ℤ) : mag2 t v = dot t v v := rfl

/-- **C117, refuted.** A vector other than zero can have the squared length 0, in every type whose arithmetic wraps; it is then
taken for zero by `project_on`, which returns it unchanged whatever is projected. -/
theorem C117_mag2_refuted {t : ITy} (hw : (4 ≤ t.w ∧ t.w ≤ 16) ∨ (32 ≤ t.w ∧ t.signed = false)) (v : Fin (n + 1) → ℤ) :
    ∃ a : Fin (n + 1) → ℤ, (∀ i, t.Has (a i)) ∧ a ≠ 0 ∧ mag2 t a = some 0 ∧ projectOn t v a = some a := by
  have ht : 4 ≤ t.w := by omega
  have hk : (t.w + 1) / 2 < t.w - 1 := by omega
  have hk2 : t.w ≤ 2 * ((t.w + 1) / 2) := by omega
  have hk3 : 2 * ((t.w + 1) / 2) ≤ t.w + 1 := by omega
  obtain ⟨k, hkk⟩ : ∃ k, k = (t.w + 1) / 2 := ⟨_, rfl⟩
  rw [← hkk] at hk hk2 hk3
  have kpos : (0 : ℤ) < 2 ^ k := by positivity
  have hle : (2 : ℤ) ^ k < 2 ^ (t.w - 1) := pow_lt_pow_right₀ (by norm_num) hk
  have hle2 : (2 : ℤ) ^ (t.w - 1) ≤ 2 ^ t.w := pow_le_pow_right₀ (by norm_num) (by omega)
  have hhas : t.Has (2 ^ k) := by
    unfold ITy.Has ITy.lo ITy.hi
    split_ifs <;> omega
  have hm : mag2 t (Pi.single (0 : Fin (n + 1)) ((2 : ℤ) ^ k)) = some 0 := by
    have htot : (dot t (Pi.single (0 : Fin (n + 1)) ((2 : ℤ) ^ k)) (Pi.single (0 : Fin (n + 1)) ((2 : ℤ) ^ k))).isSome := by
      refine fold_total (fun i s hs => multiplyAdd_total (by omega) (hw.imp And.right id) (fun h16 => ?_) hs) _ has_zero
      by_cases hi : i = 0
      · subst hi
        have : (2 : ℤ) ^ (2 * k) ≤ 2 ^ 30 := pow_le_pow_right₀ (by norm_num) (by omega)
        rw [Pi.single_eq_same, ← pow_add, ← two_mul, abs_of_pos (by positivity)]
        exact this
      · rw [Pi.single_eq_of_ne hi, mul_zero, abs_zero]; positivity
    obtain ⟨s, hs⟩ := Option.isSome_iff_exists.1 htot
    rw [mag2_eq, hs]
    have e := fold_sound (by omega) _ _ _ has_zero hs
    rw [zero_add, sum_list] at e
    rw [e]
    congr 1
    refine (C117_conv (by omega) _ _).2 ⟨has_zero, ?_⟩
    have hsum : ∑ i, (Pi.single (0 : Fin (n + 1)) ((2 : ℤ) ^ k) : Fin (n + 1) → ℤ) i * (Pi.single (0 : Fin (n + 1)) ((2 : ℤ) ^ k) : Fin (n + 1) → ℤ) i
        = 2 ^ (2 * k) := by
      rw [Finset.sum_eq_single 0]
      · rw [Pi.single_eq_same, ← pow_add, ← two_mul]
      · intro i _ hi; rw [Pi.single_eq_of_ne hi, mul_zero]
      · intro h; simp at h
    rw [hsum]
    exact ((Int.modEq_zero_iff_dvd).2 (pow_dvd_pow 2 hk2)).symm
  refine ⟨Pi.single 0 (2 ^ k), fun i => ?_, ?_, hm, ?_⟩
  · by_cases hi : i = 0
    · subst hi; rw [Pi.single_eq_same]; exact hhas
    · rw [Pi.single_eq_of_ne hi]; exact has_zero
  · intro h
    have := congrFun h 0
    rw [Pi.single_eq_same] at this
    exact kpos.ne' this
  · unfold projectOn
    rw [hm]
    rfl

/-! ## Rounding functions -/

variable {K : Type} [Field K] [LinearOrder K] [IsStrictOrderedRing K] [FloorRing K]

theorem float_int {x : ℤ} (h : |x| ≤ 2 ^ 53) : IsFloat 53 (x : K) := by
  simpa using Flt.mem_le (K := K) (p := 53) (by norm_num) x 0 h

/-- An integer is rounded to an integer. -/
theorem rnd_int {rnd : K → K} (hr : IsRound 53 rnd) (x : ℤ) : ∃ k : ℤ, rnd (x : K) = k := by
  by_cases h : |x| ≤ 2 ^ 53
  · exact ⟨x, hr.fix (float_int h)⟩
  · push Not at h
    have h53 : IsFloat 53 ((2 : K) ^ (53 : ℤ)) := Flt.float_pow (by norm_num) _
    have hx : (2 : K) ^ (53 : ℤ) ≤ |(x : K)| := by
      rw [← Int.cast_abs, show (2 : K) ^ (53 : ℤ) = ((2 ^ 53 : ℤ) : K) by norm_num]
      exact_mod_cast h.le
    have hge : (2 : K) ^ (53 : ℤ) ≤ |rnd (x : K)| := by
      rcases abs_choice (x : K) with hc | hc
      · rw [hc] at hx
        exact (hr.ge_of_ge h53 hx).trans (le_abs_self _)
      · rw [hc] at hx
        have := hr.le_of_le (Flt.float_neg h53) (show (x : K) ≤ _ by linarith)
        rw [← abs_neg]
        exact le_trans (by linarith) (le_abs_self _)
    obtain ⟨k, hk⟩ := Flt.grid_of_float (hr.mem (x : K)) hge
    refine ⟨k * 2, ?_⟩
    rw [hk]
    norm_num

theorem trunc_int (t : ITy) (k : ℤ) : trunc t (k : K) = if t.Has k then some k else none := by
  unfold trunc
  simp

theorem roundAway_int (k : ℤ) : roundAway (k : K) = k := by
  unfold roundAway
  split_ifs
  · rw [Int.floor_eq_iff]; constructor <;> linarith
  · rw [Int.ceil_eq_iff]; constructor <;> linarith

/-- **C117.** The three rounding functions do the same to integers: they convert them to `double` and back. -/
theorem round_each {rnd : K → K} (hr : IsRound 53 rnd) (t : ITy) (v : Fin n → ℤ) :
    ∃ k : Fin n → ℤ, (∀ i, rnd (v i : K) = k i) ∧
      floorV rnd t v = each (fun i => if t.Has (k i) then some (k i) else none) ∧
      ceilV rnd t v = each (fun i => if t.Has (k i) then some (k i) else none) ∧
      roundV rnd t v = each (fun i => if t.Has (k i) then some (k i) else none) := by
  choose k hk using fun i => rnd_int hr (v i)
  refine ⟨k, hk, ?_, ?_, ?_⟩
  · unfold floorV; simp only [hk, Int.floor_intCast, trunc_int]
  · unfold ceilV; simp only [hk, Int.ceil_intCast, trunc_int]
  · unfold roundV; simp only [hk, roundAway_int, trunc_int]

/-- **C117.** `floor`, `ceil` and `round` leave a vector of integers alone exactly if every element is a `double`. -/
theorem C117_round {rnd : K → K} (hr : IsRound 53 rnd) {t : ITy} {v : Fin n → ℤ} (hv : ∀ i, t.Has (v i)) :
    (floorV rnd t v = some v ↔ ∀ i, IsFloat 53 (v i : K)) ∧ (ceilV rnd t v = some v ↔ ∀ i, IsFloat 53 (v i : K)) ∧
    (roundV rnd t v = some v ↔ ∀ i, IsFloat 53 (v i : K)) := by
  obtain ⟨k, hk, h1, h2, h3⟩ := round_each hr t v
  have key : each (fun i => if t.Has (k i) then some (k i) else none) = some v ↔ ∀ i, IsFloat 53 (v i : K) := by
    rw [each_some]
    refine forall_congr' fun i => ?_
    constructor
    · intro h
      split_ifs at h
      rw [Option.some.injEq] at h
      have := hr.mem (v i : K)
      rwa [hk i, h] at this
    · intro h
      have := hk i
      rw [hr.fix h] at this
      have e : v i = k i := by exact_mod_cast this
      rw [← e, if_pos (hv i)]
  rw [h1, h2, h3]
  exact ⟨key, key, key⟩

/-- **C117.** So they do for every type of at most 53 bits. -/
theorem C117_round_narrow {rnd : K → K} (hr : IsRound 53 rnd) {t : ITy} (ht : 1 ≤ t.w) (hw : t.w ≤ 53) {v : Fin n → ℤ} (hv : ∀ i, t.Has (v i)) :
    floorV rnd t v = some v ∧ ceilV rnd t v = some v ∧ roundV rnd t v = some v := by
  have : ∀ i, IsFloat 53 (v i : K) := fun i => float_int (by
    have p : (2 : ℤ) ^ t.w ≤ 2 ^ 53 := pow_le_pow_right₀ (by norm_num) hw
    have := has_abs (hv i)
    omega)
  obtain ⟨h1, h2, h3⟩ := C117_round hr hv
  exact ⟨h1.2 this, h2.2 this, h3.2 this⟩

/-- **C117, refuted.** With 64-bit elements they change every odd number beyond 2⁵³, and are undefined for the 511 greatest values of
the signed type. -/
theorem C117_round_refuted {rnd : K → K} (hr : IsRound 53 rnd) {v : Fin n → ℤ} (i : Fin n) :
    (2 ^ 53 < v i → v i % 2 = 1 → ∀ t, floorV rnd t v ≠ some v ∧ ceilV rnd t v ≠ some v ∧ roundV rnd t v ≠ some v) ∧
    (2 ^ 63 - 512 < v i → v i < 2 ^ 63 → floorV rnd ⟨64, true⟩ v = none ∧ ceilV rnd ⟨64, true⟩ v = none ∧ roundV rnd ⟨64, true⟩ v = none) := by
  constructor
  · intro hb ho t
    obtain ⟨k, hk, h1, h2, h3⟩ := round_each hr t v
    have nf : ¬ IsFloat 53 (v i : K) := by
      intro h
      obtain ⟨j, hj⟩ := Flt.grid_of_float h (E := 53) (by
        rw [← Int.cast_abs, abs_of_pos (by omega), show (2 : K) ^ (53 : ℤ) = ((2 ^ 53 : ℤ) : K) by norm_num]
        exact_mod_cast hb.le)
      have : v i = j * 2 := by
        have : (v i : K) = ((j * 2 : ℤ) : K) := by rw [hj]; norm_num
        exact_mod_cast this
      omega
    have key : each (fun i => if t.Has (k i) then some (k i) else none) ≠ some v := by
      intro h
      have := each_some.1 h i
      split_ifs at this
      rw [Option.some.injEq] at this
      have hm := hr.mem (v i : K)
      rw [hk i, this] at hm
      exact nf hm
    rw [h1, h2, h3]
    exact ⟨key, key, key⟩
  · intro hb ht
    obtain ⟨k, hk, h1, h2, h3⟩ := round_each hr ⟨64, true⟩ v
    have hd := hr.near (v i : K) (2 ^ (63 : ℤ)) (Flt.float_pow (by norm_num) _)
    have e63 : (2 : K) ^ (63 : ℤ) = ((2 ^ 63 : ℤ) : K) := by norm_num
    rw [hk i, e63, ← Int.cast_sub, ← Int.cast_sub, ← Int.cast_abs, ← Int.cast_abs] at hd
    have hd' : |k i - v i| ≤ |2 ^ 63 - v i| := by exact_mod_cast hd
    rw [abs_of_pos (show (0 : ℤ) < 2 ^ 63 - v i by omega)] at hd'
    have hd2 := abs_le.1 hd'
    norm_num at hb ht hd2
    obtain ⟨j, hj⟩ := Flt.grid_of_float (hr.mem (v i : K)) (E := 62) (by
      rw [hk i, ← Int.cast_abs, abs_of_pos (by omega), show (2 : K) ^ (62 : ℤ) = ((2 ^ 62 : ℤ) : K) by norm_num]
      have : (2 ^ 62 : ℤ) ≤ k i := by norm_num; omega
      exact_mod_cast this)
    have hj' : k i = j * 1024 := by
      have : (k i : K) = ((j * 1024 : ℤ) : K) := by rw [← hk i, hj]; norm_num
      exact_mod_cast this
    have key : each (fun i => if ITy.Has ⟨64, true⟩ (k i) then some (k i) else none) = none := by
      rw [each_none]
      refine ⟨i, if_neg ?_⟩
      unfold ITy.Has ITy.hi
      simp only [if_true]
      norm_num
      intro _
      omega
    rw [h1, h2, h3]
    exact ⟨key, key, key⟩

/-! ## Lengths and unit vectors -/

/-- `std::sqrt` of an integer below 2⁵⁰, rounded and truncated, is the integer square root. -/
theorem sqrt_int {rnd sqrt : K → K} (hr : IsRound 53 rnd) (hq : ∀ x, 0 ≤ x → 0 ≤ sqrt x ∧ sqrt x * sqrt x = x) {m : ℕ} (hm : m < 2 ^ 50)
    (t : ITy) (ht : t.Has (Nat.sqrt m)) : trunc t (rnd (sqrt (rnd (((m : ℕ) : ℤ) : K)))) = some (Nat.sqrt m : ℤ) := by
  have hfix : rnd (((m : ℕ) : ℤ) : K) = ((m : ℤ) : K) := hr.fix (float_int (by rw [abs_of_nonneg (by positivity)]; norm_num; omega))
  rw [hfix]
  obtain ⟨h0, hs⟩ := hq ((m : ℤ) : K) (by exact_mod_cast Nat.zero_le m)
  set s := sqrt ((m : ℤ) : K)
  set k := Nat.sqrt m with hk
  have k1 : k * k ≤ m := Nat.sqrt_le m
  have k2 : m < (k + 1) * (k + 1) := Nat.lt_succ_sqrt m
  have kb : k < 2 ^ 25 := by
    by_contra hc
    push Not at hc
    have := Nat.mul_le_mul hc hc
    norm_num at this hm
    omega
  have k1' : (k : K) * k ≤ s * s := by rw [hs]; exact_mod_cast k1
  have k2' : s * s + 1 ≤ (k + 1 : K) * (k + 1) := by
    rw [hs]
    have : m + 1 ≤ (k + 1) * (k + 1) := k2
    exact_mod_cast this
  have kn : (0 : K) ≤ k := by exact_mod_cast Nat.zero_le k
  have kb' : (k : K) + 1 ≤ 2 ^ 25 := by exact_mod_cast kb
  have hks : (k : K) ≤ s := by nlinarith
  have ee : (((k + 1) * 2 ^ 26 - 1 : ℤ) : K) * 2 ^ (-26 : ℤ) = k + 1 - 1 / 2 ^ 26 := by
    rw [show (2 : K) ^ (-26 : ℤ) = 1 / 2 ^ 26 by norm_num]
    push_cast
    norm_num
    ring
  have hsk : s ≤ (((k + 1) * 2 ^ 26 - 1 : ℤ) : K) * 2 ^ (-26 : ℤ) := by
    rw [ee]
    by_contra hc
    push Not at hc
    have hk1 : s ≤ k + 1 := by nlinarith
    nlinarith
  have f1 : IsFloat 53 (k : K) := by
    have := float_int (K := K) (x := (k : ℤ)) (by rw [abs_of_nonneg (by positivity)]; norm_num; omega)
    exact_mod_cast this
  have f2 : IsFloat 53 ((((k + 1) * 2 ^ 26 - 1 : ℤ) : K) * 2 ^ (-26 : ℤ)) :=
    Flt.mem_le (by norm_num) _ _ (by
      rw [abs_of_nonneg (by omega)]
      norm_num
      omega)
  have r1 := hr.ge_of_ge f1 hks
  have r2 := hr.le_of_le f2 hsk
  have e : (((k + 1) * 2 ^ 26 - 1 : ℤ) : K) * 2 ^ (-26 : ℤ) < k + 1 := by
    rw [ee]
    have : (0 : K) < 1 / 2 ^ 26 := by positivity
    linarith
  have fl : ⌊rnd s⌋ = (k : ℤ) := by
    rw [Int.floor_eq_iff]
    push_cast
    exact ⟨r1, by linarith⟩
  unfold trunc
  simp only [if_pos (show (0 : K) ≤ rnd s by linarith), fl, if_pos ht]

/-- **C117.** The length of a vector of integers, if its square was computed exactly and is below 2⁵⁰, is rounded down. -/
theorem C117_mag {rnd sqrt : K → K} (hr : IsRound 53 rnd) (hq : ∀ x, 0 ≤ x → 0 ≤ sqrt x ∧ sqrt x * sqrt x = x) {t : ITy} {v : Fin n → ℤ}
    (h : mag2 t v = some (∑ i, v i ^ 2)) (hb : ∑ i, v i ^ 2 < 2 ^ 50) (ht : t.Has (∑ i, v i ^ 2)) :
    ∃ k, mag rnd sqrt t v = some k ∧ 0 ≤ k ∧ k ^ 2 ≤ ∑ i, v i ^ 2 ∧ ∑ i, v i ^ 2 < (k + 1) ^ 2 := by
  have h0 : 0 ≤ ∑ i, v i ^ 2 := Finset.sum_nonneg fun i _ => sq_nonneg _
  obtain ⟨m, hm⟩ := Int.eq_ofNat_of_zero_le h0
  rw [hm] at hb ht ⊢
  have hsm : Nat.sqrt m ≤ m := Nat.sqrt_le_self m
  have hhas : t.Has (Nat.sqrt m) := ⟨(has_zero (t := t)).1.trans (by positivity), le_trans (by exact_mod_cast hsm) ht.2⟩
  refine ⟨Nat.sqrt m, ?_, by positivity, ?_, ?_⟩
  · unfold mag
    rw [h, hm]
    have := sqrt_int hr hq (by exact_mod_cast hb) t hhas
    simpa using this
  · have := Nat.sqrt_le m
    rw [pow_two]; exact_mod_cast this
  · have := Nat.lt_succ_sqrt m
    rw [pow_two]; exact_mod_cast this

/-- **C117.** The "unit vector" in the direction of a vector of integers is undefined for zero; otherwise an element is its sign where it
is as large as the length rounded down, and zero elsewhere. -/
theorem C117_unit {rnd sqrt : K → K} (hr : IsRound 53 rnd) (hq : ∀ x, 0 ≤ x → 0 ≤ sqrt x ∧ sqrt x * sqrt x = x) {t : ITy} (ht1 : 1 ≤ t.w)
    {v : Fin n → ℤ} (hv : ∀ i, t.Has (v i)) (h : mag2 t v = some (∑ i, v i ^ 2)) (hb : ∑ i, v i ^ 2 < 2 ^ 50) (ht : t.Has (∑ i, v i ^ 2)) :
    (v = 0 → 0 < n → unit rnd sqrt t v = none) ∧
    (v ≠ 0 → ∃ k z, unit rnd sqrt t v = some z ∧ 1 ≤ k ∧ k ^ 2 ≤ ∑ i, v i ^ 2 ∧ ∑ i, v i ^ 2 < (k + 1) ^ 2 ∧
      ∀ i, z i = if |v i| = k then (v i).sign else 0) := by
  obtain ⟨k, hk, k0, k1, k2⟩ := C117_mag hr hq h hb ht
  have hun : unit rnd sqrt t v = divV t v (fun _ => k) := by unfold unit; rw [hk]; rfl
  have hle : ∀ i, v i ^ 2 ≤ ∑ i, v i ^ 2 := fun i =>
    Finset.single_le_sum (f := fun i => v i ^ 2) (fun j _ => sq_nonneg _) (Finset.mem_univ i)
  have hkh : t.Has k := ⟨(has_zero (t := t)).1.trans k0, by nlinarith [ht.2]⟩
  obtain ⟨d1, d2⟩ := C117_div ht1 hv (v := fun _ => k) (fun _ => hkh)
  constructor
  · rintro rfl hn
    rw [hun, d1]
    refine ⟨⟨0, hn⟩, Or.inl ?_⟩
    simp at k1
    nlinarith
  · intro hne
    have k1' : 1 ≤ k := by
      by_contra hc
      have : k = 0 := by omega
      rw [this] at k2
      obtain ⟨i, hi⟩ := Function.ne_iff.1 hne
      have h1 := hle i
      have h2 : 0 < v i ^ 2 := by have : v i ≠ 0 := hi
                                  positivity
      omega
    have hs : divV t v (fun _ => k) ≠ none := by
      intro hc
      obtain ⟨i, hi | hi⟩ := d1.1 hc
      · omega
      · omega
    obtain ⟨z, hz⟩ := Option.ne_none_iff_exists'.1 hs
    refine ⟨k, z, hun.trans hz, k1', k1, k2, fun i => ?_⟩
    rw [d2 z hz i, if_neg (by omega)]
    have hik : |v i| ≤ k := by
      by_contra hc
      push Not at hc
      have : (k + 1) ^ 2 ≤ |v i| ^ 2 := pow_le_pow_left₀ (by omega) hc 2
      rw [sq_abs] at this
      have := hle i
      omega
    by_cases he : |v i| = k
    · rw [if_pos he]
      rcases lt_trichotomy (v i) 0 with hn | hn | hn
      · rw [abs_of_neg hn] at he
        rw [← he, Int.tdiv_neg, Int.tdiv_self (by omega), Int.sign_eq_neg_one_of_neg hn]
      · rw [hn] at he; simp at he; omega
      · rw [abs_of_pos hn] at he
        rw [← he, Int.tdiv_self (by omega), Int.sign_eq_one_of_pos hn]
    · rw [if_neg he]
      have : (v i).natAbs < k.natAbs := by
        have h1 : |v i| < k := lt_of_le_of_ne hik he
        rw [Int.abs_eq_natAbs] at h1
        omega
      rw [← Int.natAbs_eq_zero, Int.natAbs_tdiv]
      exact Nat.div_eq_of_lt this

/-- **C117, refuted.** So the "unit vector" is the zero vector whenever every element is smaller than the length by one or more. -/
theorem C117_unit_refuted {rnd sqrt : K → K} (hr : IsRound 53 rnd) (hq : ∀ x, 0 ≤ x → 0 ≤ sqrt x ∧ sqrt x * sqrt x = x) {t : ITy}
    (ht1 : 1 ≤ t.w) {v : Fin n → ℤ} (hv : ∀ i, t.Has (v i)) (h : mag2 t v = some (∑ i, v i ^ 2)) (hb : ∑ i, v i ^ 2 < 2 ^ 50)
    (ht : t.Has (∑ i, v i ^ 2)) (hne : v ≠ 0) (hs : ∀ i, (|v i| + 1) ^ 2 ≤ ∑ i, v i ^ 2) : unit rnd sqrt t v = some 0 := by
  obtain ⟨k, z, hz, k1, k2, k3, hi⟩ := (C117_unit hr hq ht1 hv h hb ht).2 hne
  rw [hz]
  congr 1
  funext i
  rw [hi i, if_neg]
  · rfl
  · intro he
    have := hs i
    rw [he] at this
    omega

/-- The classic: `Vec<int,2>(3, 4).unit()` is zero. -/
example {rnd sqrt : ℚ → ℚ} (hr : IsRound 53 rnd) (hq : ∀ x, 0 ≤ x → 0 ≤ sqrt x ∧ sqrt x * sqrt x = x) :
    unit rnd sqrt ⟨32, true⟩ ![3, 4] = some 0 := by
  refine C117_unit_refuted hr hq (by norm_num) ?_ ?_ ?_ ?_ ?_ ?_
  · decide
  · decide +kernel
  · decide
  · decide
  · decide
  · decide

/-- **C117, refuted.** With 64-bit elements the length can be rounded up: here the square of the length is 2⁶⁰ - 1. -/
theorem C117_mag_refuted {rnd sqrt : K → K} (hr : IsRound 53 rnd) (hq : ∀ x, 0 ≤ x → 0 ≤ sqrt x ∧ sqrt x * sqrt x = x) :
    ∃ v : Fin 4 → ℤ, (∀ i, ITy.Has ⟨64, true⟩ (v i)) ∧ mag2 ⟨64, true⟩ v = some (∑ i, v i ^ 2) ∧
      mag rnd sqrt ⟨64, true⟩ v = some (2 ^ 30) ∧ ∑ i, v i ^ 2 < (2 ^ 30) ^ 2 := by
  obtain ⟨a, b, c, d, h⟩ := Nat.sum_four_squares (2 ^ 60 - 1)
  obtain ⟨v, hvdef⟩ : ∃ v : Fin 4 → ℤ, v = ![(a : ℤ), b, c, d] := ⟨_, rfl⟩
  have hsum : ∑ i, v i ^ 2 = 2 ^ 60 - 1 := by
    rw [hvdef, Fin.sum_univ_four]
    simp
    have : ((a ^ 2 + b ^ 2 + c ^ 2 + d ^ 2 : ℕ) : ℤ) = ((2 ^ 60 - 1 : ℕ) : ℤ) := by rw [h]
    push_cast at this
    norm_num at this ⊢
    exact this
  have hle : ∀ i, v i ^ 2 ≤ 2 ^ 60 - 1 := fun i => hsum ▸
    Finset.single_le_sum (f := fun i => v i ^ 2) (fun j _ => sq_nonneg _) (Finset.mem_univ i)
  have hhas : ∀ i, ITy.Has ⟨64, true⟩ (v i) := by
    intro i
    have := hle i
    have h30 : |v i| < 2 ^ 30 := by
      refine lt_of_pow_lt_pow_left₀ 2 (by positivity) ?_
      rw [sq_abs]
      norm_num at this ⊢
      omega
    have := abs_lt.1 h30
    unfold ITy.Has ITy.lo ITy.hi
    norm_num at this ⊢
    omega
  have hm2 : mag2 ⟨64, true⟩ v = some (∑ i, v i ^ 2) := by
    have : ∑ i, |v i * v i| = ∑ i, v i ^ 2 := Finset.sum_congr rfl fun i _ => by rw [abs_mul_self, pow_two]
    rw [mag2_eq, C117_dot_small (by norm_num) hhas hhas (by rw [this, hsum]; decide)]
    congr 1
    exact Finset.sum_congr rfl fun i _ => (pow_two _).symm
  refine ⟨v, hhas, hm2, ?_, by rw [hsum]; norm_num⟩
  unfold mag
  rw [hm2, hsum]
  have e1 : rnd ((2 ^ 60 - 1 : ℤ) : K) = 2 ^ 60 := by
    obtain ⟨k, hk⟩ := rnd_int hr (2 ^ 60 - 1)
    have hd := hr.near ((2 ^ 60 - 1 : ℤ) : K) (2 ^ (60 : ℤ)) (Flt.float_pow (by norm_num) _)
    have e63 : (2 : K) ^ (60 : ℤ) = ((2 ^ 60 : ℤ) : K) := by norm_num
    rw [hk, e63, ← Int.cast_sub, ← Int.cast_sub, ← Int.cast_abs, ← Int.cast_abs] at hd
    have hd' : |k - (2 ^ 60 - 1)| ≤ |(2 : ℤ) ^ 60 - (2 ^ 60 - 1)| := by exact_mod_cast hd
    have hd2 := abs_le.1 (hd'.trans (show _ ≤ (1 : ℤ) by norm_num))
    norm_num at hd2
    obtain ⟨j, hj⟩ := Flt.grid_of_float (hr.mem ((2 ^ 60 - 1 : ℤ) : K)) (E := 59) (by
      rw [hk, ← Int.cast_abs, abs_of_pos (by omega), show (2 : K) ^ (59 : ℤ) = ((2 ^ 59 : ℤ) : K) by norm_num]
      have : (2 ^ 59 : ℤ) ≤ k := by norm_num; omega
      exact_mod_cast this)
    have hj' : k = j * 128 := by
      have : (k : K) = ((j * 128 : ℤ) : K) := by rw [← hk, hj]; norm_num
      exact_mod_cast this
    rw [hk, show k = 2 ^ 60 by norm_num; omega]
    norm_num
  have e2 : sqrt (2 ^ 60 : K) = 2 ^ 30 := by
    obtain ⟨h0, hs⟩ := hq (2 ^ 60) (by positivity)
    have : (sqrt (2 ^ 60) - 2 ^ 30) * (sqrt (2 ^ 60) + 2 ^ 30) = 0 := by
      have : (sqrt (2 ^ 60) - 2 ^ 30) * (sqrt (2 ^ 60) + 2 ^ 30) = sqrt (2 ^ 60) * sqrt (2 ^ 60) - 2 ^ 60 := by ring
      rw [this, hs, sub_self]
    rcases mul_eq_zero.1 this with h | h
    · linarith
    · have : (0 : K) < 2 ^ 30 := by positivity
      linarith
  have e3 : rnd (2 ^ 30 : K) = ((2 ^ 30 : ℤ) : K) := by
    have := hr.fix (float_int (K := K) (x := 2 ^ 30) (by norm_num))
    rwa [show ((2 ^ 30 : ℤ) : K) = 2 ^ 30 by norm_num] at this ⊢
  simp only [Option.bind_eq_bind, Option.bind_some]
  rw [if_neg (by norm_num), e1, e2, e3, trunc_int, if_pos (by decide)]

/-- **C117.** The projection onto an axis, if nothing overflows, is the exact one with the fractions dropped. -/
theorem C117_project {t : ITy} (ht : 1 ≤ t.w) {v a : Fin n → ℤ} (hm : mag2 t a = some (∑ i, a i ^ 2)) (hd : dot t v a = some (∑ i, v i * a i))
    (hp : ∀ i, t.Has (a i * ∑ i, v i * a i)) (ha : a ≠ 0) :
    projectOn t v a = some fun i => (a i * ∑ i, v i * a i).tdiv (∑ i, a i ^ 2) := by
  have hpos : 0 < ∑ i, a i ^ 2 := by
    obtain ⟨i, hi⟩ := Function.ne_iff.1 ha
    have h1 : a i ^ 2 ≤ ∑ i, a i ^ 2 := Finset.single_le_sum (f := fun i => a i ^ 2) (fun j _ => sq_nonneg _) (Finset.mem_univ i)
    have : a i ≠ 0 := hi
    have : 0 < a i ^ 2 := by positivity
    omega
  obtain ⟨m, hmm⟩ : ∃ m, m = ∑ i, a i ^ 2 := ⟨_, rfl⟩
  obtain ⟨d, hdd⟩ : ∃ d, d = ∑ i, v i * a i := ⟨_, rfl⟩
  rw [← hmm] at hm hpos ⊢
  rw [← hdd] at hd hp ⊢
  have h1 : (each fun i => mul t (a i) d) = some fun i => a i * d := each_some.2 fun i => store_has ht (hp i)
  have h2 : (each fun i => div t (a i * d) m) = some fun i => (a i * d).tdiv m := by
    refine each_some.2 fun i => ?_
    unfold div
    rw [if_neg hpos.ne']
    refine store_has ht ?_
    obtain ⟨l, h⟩ := hp i
    have hlo : t.lo ≤ 0 := (has_zero (t := t)).1
    have hhi : 0 ≤ t.hi := (has_zero (t := t)).2
    rcases le_total 0 (a i * d) with h0 | h0
    · rw [Int.tdiv_eq_ediv_of_nonneg h0]
      exact ⟨hlo.trans (Int.ediv_nonneg h0 hpos.le), (Int.ediv_le_self _ h0).trans h⟩
    · have e : (a i * d).tdiv m = -((-(a i * d)) / m) := by
        rw [← Int.tdiv_eq_ediv_of_nonneg (by omega), Int.neg_tdiv, neg_neg]
      have g1 := Int.ediv_le_self m (show 0 ≤ -(a i * d) by omega)
      have g2 : 0 ≤ -(a i * d) / m := Int.ediv_nonneg (by omega) hpos.le
      rw [e]
      constructor <;> omega
  unfold projectOn
  rw [hm, hd]
  simp only [Option.bind_eq_bind, Option.bind_some, if_neg hpos.ne', h1, h2]

example : projectOn ⟨32, true⟩ ![(5 : ℤ), -7] ![2, 1] = some ![1, 0] := by decide +kernel

/-- **C117, refuted.** Where the squared length has wrapped around to a negative number, the length is undefined: NaN is converted. -/
theorem C117_mag_nan_refuted (rnd sqrt : K → K) {t : ITy} {v : Fin n → ℤ} {m : ℤ} (h : mag2 t v = some m) (hm : m < 0) :
    mag rnd sqrt t v = none := by
  unfold mag
  rw [h]
  simp only [Option.bind_eq_bind, Option.bind_some, if_pos hm]

example (rnd sqrt : ℚ → ℚ) : mag rnd sqrt ⟨8, true⟩ ![(12 : ℤ)] = none :=
  C117_mag_nan_refuted rnd sqrt (m := -112) (by decide +kernel) (by norm_num)

/-! ## Casts -/

/-- **C117.** Casting to a type that is at least as wide and back changes nothing, whatever the signs. -/
theorem C117_cast {s t : ITy} (hs : 1 ≤ s.w) (hst : s.w ≤ t.w) {v : Fin n → ℤ} (hv : ∀ i, s.Has (v i)) : cast s (cast t v) = v := by
  funext i
  refine (C117_conv hs _ _).2 ⟨hv i, ?_⟩
  exact ((conv_mod (by omega) (v i)).of_dvd (pow_dvd_pow 2 hst)).symm

/-- **C117.** Casting floating-point numbers drops the fractions, and is undefined exactly if the result does not fit. -/
theorem C117_castF {t : ITy} (v : Fin n → K) :
    (castF t v = none ↔ ∃ i, v i ≤ t.lo - 1 ∨ t.hi + 1 ≤ v i) ∧
    ∀ z, castF t v = some z → ∀ i, (0 ≤ v i → (z i : K) ≤ v i ∧ v i < z i + 1) ∧ (v i ≤ 0 → v i ≤ z i ∧ (z i : K) - 1 < v i) := by
  have hlo : t.lo ≤ 0 := (has_zero (t := t)).1
  have hhi : 0 ≤ t.hi := (has_zero (t := t)).2
  constructor
  · unfold castF
    rw [each_none]
    refine exists_congr fun i => ?_
    unfold trunc
    by_cases h0 : 0 ≤ v i
    · simp only [if_pos h0]
      have f0 : 0 ≤ ⌊v i⌋ := Int.floor_nonneg.2 h0
      have hc : ¬ v i ≤ (t.lo : K) - 1 := by
        have : (t.lo : K) ≤ 0 := by exact_mod_cast hlo
        intro h; linarith
      rw [or_iff_right hc]
      have : (t.hi : K) + 1 ≤ v i ↔ t.hi + 1 ≤ ⌊v i⌋ := by rw [Int.le_floor]; push_cast; rfl
      rw [this]
      constructor
      · intro h
        by_contra hc
        rw [if_pos (by unfold ITy.Has; omega)] at h
        exact Option.some_ne_none _ h
      · intro h
        rw [if_neg (by unfold ITy.Has; omega)]
    · simp only [if_neg h0]
      have f0 : ⌈v i⌉ ≤ 0 := Int.ceil_nonpos.2 (by linarith)
      have hc : ¬ (t.hi : K) + 1 ≤ v i := by
        have : (0 : K) ≤ t.hi := by exact_mod_cast hhi
        intro h; linarith
      rw [or_iff_left hc]
      have : v i ≤ (t.lo : K) - 1 ↔ ⌈v i⌉ ≤ t.lo - 1 := by rw [Int.ceil_le]; push_cast; rfl
      rw [this]
      constructor
      · intro h
        by_contra hc
        rw [if_pos (by unfold ITy.Has; omega)] at h
        exact Option.some_ne_none _ h
      · intro h
        rw [if_neg (by unfold ITy.Has; omega)]
  · intro z hz i
    have hi := each_some.1 hz i
    unfold trunc at hi
    by_cases h0 : 0 ≤ v i
    · simp only [if_pos h0] at hi
      split_ifs at hi
      rw [Option.some.injEq] at hi
      have a := Int.floor_le (v i)
      have b := Int.lt_floor_add_one (v i)
      rw [hi] at a b
      refine ⟨fun _ => ⟨a, b⟩, fun hn => ?_⟩
      have hv0 : v i = 0 := le_antisymm hn h0
      rw [hv0] at hi ⊢
      rw [Int.floor_zero] at hi
      rw [← hi]
      simp
    · simp only [if_neg h0] at hi
      split_ifs at hi
      rw [Option.some.injEq] at hi
      have a := Int.le_ceil (v i)
      have b := Int.ceil_lt_add_one (v i)
      rw [hi] at a b
      exact ⟨fun h => absurd h h0, fun _ => ⟨a, by linarith⟩⟩

/-- Wrapping types: the squared length of `Vec<int8_t,1>(12)` is negative, its length undefined; `abs` of -128 is -128. -/
example : mag2 ⟨8, true⟩ ![(12 : ℤ)] = some (-112) ∧ absV ⟨8, true⟩ ![(-128 : ℤ)] = some ![-128] ∧
    addV ⟨8, false⟩ ![(200 : ℤ), 3] ![100, 4] = some ![44, 7] ∧ addV ⟨32, true⟩ ![(2 ^ 31 - 1 : ℤ)] ![1] = none ∧
    divV ⟨32, true⟩ ![(-7 : ℤ)] ![2] = some ![-3] ∧ divV ⟨16, true⟩ ![(-32768 : ℤ)] ![-1] = some ![-32768] := by
  decide +kernel

end Geomc.VecInt
