import Verif.Vec.RainbowModel
import Mathlib.Tactic.Linarith
import Mathlib.Tactic.FieldSimp
import Mathlib.Algebra.Order.Field.Basic
import Mathlib.Algebra.Order.Group.MinMax

/-! # Property C97: the hue circle -/

namespace Geomc.Rainbow

variable {K : Type} [Field K] [LinearOrder K] [IsStrictOrderedRing K] [FloorRing K]

/-- The colour at a position of the circle. -/
def hue (s : K) : K × K × K :=
  (min (max (max (-6 * s + 2) (6 * s - 4)) 0) 1,
   max (min (min (6 * s) (-6 * s + 4)) 1) 0,
   max (min (min (6 * s - 2) (-6 * s + 6)) 1) 0)

theorem hue_ends : hue (1 : K) = hue 0 := by
  unfold hue
  norm_num

/-- The reduced parameter is the fractional part, but for negative integers, where it is `0`. -/
theorem rainbow_eq (s : K) : rainbow s = hue (Int.fract s) := by
  have key : ∀ x y : K, x = y → hue x = hue y := fun x y h => by rw [h]
  show hue (if fmod1 s < 0 then 1 + fmod1 s else fmod1 s) = _
  apply key
  unfold fmod1
  by_cases h : 0 ≤ s
  · rw [if_pos h, if_neg (not_lt.2 (show 0 ≤ s - (⌊s⌋ : ℤ) from Int.fract_nonneg s))]; rfl
  · rw [if_neg h]
    have h1 := Int.ceil_lt_add_one s
    have h2 := Int.le_ceil s
    by_cases h3 : s - (⌈s⌉ : ℤ) < 0
    · rw [if_pos h3]
      symm
      rw [Int.fract_eq_iff]
      exact ⟨by linarith, by linarith, ⌈s⌉ - 1, by push_cast; ring⟩
    · rw [if_neg h3]
      symm
      rw [Int.fract_eq_iff]
      exact ⟨by linarith, by linarith, ⌈s⌉, by ring⟩

/-- **C97.** The cycle repeats with every whole number, on both sides of zero. -/
theorem C97_periodic (s : K) (k : ℤ) : rainbow (s + k) = rainbow s := by
  rw [rainbow_eq, rainbow_eq, Int.fract_add_intCast]

/-- **C97.** The landmarks come in rainbow order: red, yellow, green, cyan, blue, magenta, red. -/
theorem C97_landmarks (k : ℤ) :
    rainbow (k : K) = (1, 0, 0) ∧ rainbow ((1 : K) / 6 + k) = (1, 1, 0) ∧ rainbow ((1 : K) / 3 + k) = (0, 1, 0) ∧
    rainbow ((1 : K) / 2 + k) = (0, 1, 1) ∧ rainbow ((2 : K) / 3 + k) = (0, 0, 1) ∧
    rainbow ((5 : K) / 6 + k) = (1, 0, 1) := by
  have f : ∀ x : K, 0 ≤ x → x < 1 → rainbow (x + k) = hue x := fun x h0 h1 => by
    rw [C97_periodic, rainbow_eq, Int.fract_eq_self.2 ⟨h0, h1⟩]
  have f0 := f 0 (le_refl _) zero_lt_one
  rw [zero_add] at f0
  rw [f0, f _ (by norm_num) (by norm_num), f _ (by norm_num) (by norm_num), f _ (by norm_num) (by norm_num),
    f _ (by norm_num) (by norm_num), f _ (by norm_num) (by norm_num)]
  unfold hue
  norm_num

/-- Which of six straight pieces a hue lies on. -/
theorem hue_cases (s : K) (h0 : 0 ≤ s) (h1 : s < 1) :
    (6 * s ≤ 1 ∧ hue s = (1, 6 * s, 0)) ∨ (1 < 6 * s ∧ 6 * s < 2 ∧ hue s = (2 - 6 * s, 1, 0)) ∨
    (2 ≤ 6 * s ∧ 6 * s ≤ 3 ∧ hue s = (0, 1, 6 * s - 2)) ∨ (3 < 6 * s ∧ 6 * s < 4 ∧ hue s = (0, 4 - 6 * s, 1)) ∨
    (4 ≤ 6 * s ∧ 6 * s ≤ 5 ∧ hue s = (6 * s - 4, 0, 1)) ∨ (5 < 6 * s ∧ 6 * s < 6 ∧ hue s = (1, 0, 6 - 6 * s)) := by
  unfold hue
  simp only [Prod.mk.injEq]
  rcases le_or_gt (6 * s) 1 with a | a
  · refine Or.inl ⟨a, ?_, ?_, ?_⟩
    · rw [max_eq_left (a := -6 * s + 2) (by linarith), max_eq_left (by linarith), min_eq_right (by linarith)]
    · rw [min_eq_left (a := 6 * s) (by linarith), min_eq_left (by linarith), max_eq_left (by linarith)]
    · rw [min_eq_left (a := 6 * s - 2) (by linarith), min_eq_left (by linarith), max_eq_right (by linarith)]
  rcases lt_or_ge (6 * s) 2 with b | b
  · refine Or.inr (Or.inl ⟨a, b, ?_, ?_, ?_⟩)
    · rw [max_eq_left (a := -6 * s + 2) (by linarith), max_eq_left (by linarith), min_eq_left (by linarith)]; ring
    · rw [min_eq_right (a := min (6 * s) _) (le_min (by linarith) (by linarith)), max_eq_left (by linarith)]
    · rw [min_eq_left (a := 6 * s - 2) (by linarith), min_eq_left (by linarith), max_eq_right (by linarith)]
  rcases le_or_gt (6 * s) 3 with c | c
  · refine Or.inr (Or.inr (Or.inl ⟨b, c, ?_, ?_, ?_⟩))
    · rw [max_eq_right (a := max (-6 * s + 2) _) (max_le (by linarith) (by linarith)), min_eq_left (by linarith)]
    · rw [min_eq_right (a := min (6 * s) _) (le_min (by linarith) (by linarith)), max_eq_left (by linarith)]
    · rw [min_eq_left (a := 6 * s - 2) (by linarith), min_eq_left (by linarith), max_eq_left (by linarith)]
  rcases lt_or_ge (6 * s) 4 with d | d
  · refine Or.inr (Or.inr (Or.inr (Or.inl ⟨c, d, ?_, ?_, ?_⟩)))
    · rw [max_eq_right (a := max (-6 * s + 2) _) (max_le (by linarith) (by linarith)), min_eq_left (by linarith)]
    · rw [min_eq_right (a := 6 * s) (by linarith), min_eq_left (by linarith), max_eq_left (by linarith)]; ring
    · rw [min_eq_right (a := min (6 * s - 2) _) (le_min (by linarith) (by linarith)), max_eq_left (by linarith)]
  rcases le_or_gt (6 * s) 5 with e | e
  · refine Or.inr (Or.inr (Or.inr (Or.inr (Or.inl ⟨d, e, ?_, ?_, ?_⟩))))
    · rw [max_eq_right (a := -6 * s + 2) (by linarith), max_eq_left (by linarith), min_eq_left (by linarith)]
    · rw [min_eq_right (a := 6 * s) (by linarith), min_eq_left (by linarith), max_eq_right (by linarith)]
    · rw [min_eq_right (a := min (6 * s - 2) _) (le_min (by linarith) (by linarith)), max_eq_left (by linarith)]
  · refine Or.inr (Or.inr (Or.inr (Or.inr (Or.inr ⟨e, by linarith, ?_, ?_, ?_⟩))))
    · rw [max_eq_right (a := -6 * s + 2) (by linarith), max_eq_left (by linarith), min_eq_right (by linarith)]
    · rw [min_eq_right (a := 6 * s) (by linarith), min_eq_left (by linarith), max_eq_right (by linarith)]
    · rw [min_eq_right (a := 6 * s - 2) (by linarith), min_eq_left (by linarith), max_eq_left (by linarith)]; ring

/-- **C97.** Every result is a fully saturated colour: all channels are between 0 and 1, one is 1, one is 0. -/
theorem C97_saturated (s : K) :
    ∃ r g b, rainbow s = (r, g, b) ∧ 0 ≤ r ∧ r ≤ 1 ∧ 0 ≤ g ∧ g ≤ 1 ∧ 0 ≤ b ∧ b ≤ 1 ∧
      (r = 1 ∨ g = 1 ∨ b = 1) ∧ (r = 0 ∨ g = 0 ∨ b = 0) := by
  rw [rainbow_eq]
  have h0 := Int.fract_nonneg s
  have h1 := Int.fract_lt_one s
  rcases hue_cases _ h0 h1 with ⟨a, e⟩ | ⟨a, b, e⟩ | ⟨a, b, e⟩ | ⟨a, b, e⟩ | ⟨a, b, e⟩ | ⟨a, b, e⟩ <;>
  refine ⟨_, _, _, e, by linarith, by linarith, by linarith, by linarith, by linarith, by linarith, ?_, ?_⟩ <;> simp

/-- **C97.** Different positions on the circle have different colours. -/
theorem C97_injective (s t : K) : rainbow s = rainbow t ↔ ∃ k : ℤ, s - t = k := by
  rw [rainbow_eq, rainbow_eq, ← Int.fract_eq_fract]
  constructor
  · intro h
    have a0 := Int.fract_nonneg s
    have a1 := Int.fract_lt_one s
    have b0 := Int.fract_nonneg t
    have b1 := Int.fract_lt_one t
    generalize Int.fract s = x at *
    generalize Int.fract t = y at *
    rcases hue_cases x a0 a1 with ⟨a, e⟩ | ⟨a, b, e⟩ | ⟨a, b, e⟩ | ⟨a, b, e⟩ | ⟨a, b, e⟩ | ⟨a, b, e⟩ <;>
    rcases hue_cases y b0 b1 with ⟨a', e'⟩ | ⟨a', b', e'⟩ | ⟨a', b', e'⟩ | ⟨a', b', e'⟩ | ⟨a', b', e'⟩ | ⟨a', b', e'⟩ <;>
    · rw [e, e', Prod.mk.injEq, Prod.mk.injEq] at h
      obtain ⟨h1, h2, h3⟩ := h
      linarith
  · intro h; rw [h]

theorem lip_max (a b c d e : K) (h1 : |a - c| ≤ e) (h2 : |b - d| ≤ e) : |max a b - max c d| ≤ e :=
  (abs_max_sub_max_le_max a b c d).trans (max_le h1 h2)

theorem lip_min (a b c d e : K) (h1 : |a - c| ≤ e) (h2 : |b - d| ≤ e) : |min a b - min c d| ≤ e :=
  (abs_min_sub_min_le_max a b c d).trans (max_le h1 h2)

/-- Largest difference of a channel. -/
def dist (a b : K × K × K) : K := max |a.1 - b.1| (max |a.2.1 - b.2.1| |a.2.2 - b.2.2|)

theorem hue_lip (s t : K) : dist (hue s) (hue t) ≤ 6 * |s - t| := by
  have h : ∀ c : K, 0 ≤ 6 * |s - t| → |c - c| ≤ 6 * |s - t| := fun c h => by rw [sub_self, abs_zero]; exact h
  have h0 : 0 ≤ 6 * |s - t| := by positivity
  have hp : ∀ a b : K, a - b = 6 * (s - t) → |a - b| ≤ 6 * |s - t| := fun a b e => by
    rw [e, abs_mul, abs_of_nonneg (by norm_num : (0 : K) ≤ 6)]
  have hn : ∀ a b : K, a - b = -(6 * (s - t)) → |a - b| ≤ 6 * |s - t| := fun a b e => by
    rw [e, abs_neg, abs_mul, abs_of_nonneg (by norm_num : (0 : K) ≤ 6)]
  refine max_le ?_ (max_le ?_ ?_)
  · exact lip_min _ _ _ _ _ (lip_max _ _ _ _ _ (lip_max _ _ _ _ _ (hn _ _ (by ring)) (hp _ _ (by ring))) (h _ h0)) (h _ h0)
  · exact lip_max _ _ _ _ _ (lip_min _ _ _ _ _ (lip_min _ _ _ _ _ (hp _ _ (by ring)) (hn _ _ (by ring))) (h _ h0)) (h _ h0)
  · exact lip_max _ _ _ _ _ (lip_min _ _ _ _ _ (lip_min _ _ _ _ _ (hp _ _ (by ring)) (hn _ _ (by ring))) (h _ h0)) (h _ h0)

theorem dist_triangle (a b c : K × K × K) : dist a c ≤ dist a b + dist b c := by
  unfold dist
  refine max_le ?_ (max_le ?_ ?_)
  · exact (abs_sub_le a.1 b.1 c.1).trans (add_le_add (le_max_left _ _) (le_max_left _ _))
  · exact (abs_sub_le a.2.1 b.2.1 c.2.1).trans (add_le_add ((le_max_left _ _).trans (le_max_right _ _)) ((le_max_left _ _).trans (le_max_right _ _)))
  · exact (abs_sub_le a.2.2 b.2.2 c.2.2).trans (add_le_add ((le_max_right _ _).trans (le_max_right _ _)) ((le_max_right _ _).trans (le_max_right _ _)))

theorem dist_comm (a b : K × K × K) : dist a b = dist b a := by
  unfold dist; rw [abs_sub_comm a.1, abs_sub_comm a.2.1, abs_sub_comm a.2.2]

theorem lip_aux (s t : K) (h : s ≤ t) : dist (rainbow s) (rainbow t) ≤ 6 * (t - s) := by
  have d1 : dist (rainbow s) (rainbow t) ≤ 1 := by
    obtain ⟨r, g, b, e, r0, r1, g0, g1, b0, b1, _⟩ := C97_saturated s
    obtain ⟨r', g', b', e', r0', r1', g0', g1', b0', b1', _⟩ := C97_saturated t
    rw [e, e']
    refine max_le ?_ (max_le ?_ ?_) <;> rw [abs_le] <;> constructor <;> simp only [] <;> linarith
  by_cases h1 : 1 ≤ t - s
  · linarith
  push Not at h1
  rw [rainbow_eq, rainbow_eq]
  have fs := Int.floor_le s
  have fs' := Int.lt_floor_add_one s
  have ft := Int.floor_le t
  have ft' := Int.lt_floor_add_one t
  have m1 : ⌊s⌋ ≤ ⌊t⌋ := Int.floor_le_floor h
  have m2 : ⌊t⌋ ≤ ⌊s⌋ + 1 := by
    have : ((⌊t⌋ : ℤ) : K) < ((⌊s⌋ + 2 : ℤ) : K) := by push_cast; linarith
    have := Int.cast_lt.1 this
    omega
  rcases (by omega : ⌊t⌋ = ⌊s⌋ ∨ ⌊t⌋ = ⌊s⌋ + 1) with e | e
  · refine (hue_lip _ _).trans ?_
    have : Int.fract s - Int.fract t = -(t - s) := by unfold Int.fract; rw [e]; ring
    rw [this, abs_neg, abs_of_nonneg (sub_nonneg.2 h)]
  · refine (dist_triangle _ (hue 1) _).trans ?_
    have g : dist (hue (1 : K)) (hue (Int.fract t)) ≤ 6 * |0 - Int.fract t| := by
      rw [hue_ends]; exact hue_lip _ _
    refine (add_le_add (hue_lip _ _) g).trans ?_
    rw [abs_of_nonpos (by linarith [Int.fract_lt_one s]), abs_of_nonpos (by linarith [Int.fract_nonneg t])]
    unfold Int.fract; rw [e]; push_cast; linarith

/-- **C97.** The colour changes no faster than six units per turn, including across whole numbers. -/
theorem C97_continuous (s t : K) : dist (rainbow s) (rainbow t) ≤ 6 * |s - t| := by
  rcases le_total s t with h | h
  · rw [abs_of_nonpos (by linarith)]; linarith [lip_aux s t h]
  · rw [abs_of_nonneg (by linarith), dist_comm]; exact lip_aux t s h

/-- Orange, seen from below zero. -/
example : rainbow (-(11 / 12) : ℚ) = (1, 1 / 2, 0) := by decide +kernel

end Geomc.Rainbow
