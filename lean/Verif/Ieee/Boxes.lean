import Verif.Ieee.Model
import Mathlib.Data.Rat.Defs
import Mathlib.Algebra.Order.Ring.Rat
import Mathlib.Data.Fin.VecNotation
import Mathlib.Data.Fintype.Basic
import Mathlib.Data.Fintype.Pi
import Mathlib.Tactic.Linarith
import Mathlib.Tactic.Tauto
import Mathlib.Tactic.FieldSimp

/-! # C108: boxes with infinite coordinates and NaN -/

namespace Geomc.Ieee

variable {K : Type} {n : ℕ} [Field K] [LinearOrder K]

/-! ## The order of the numbers -/

theorem lt_nan_left (a : Fl K) : Fl.lt .nan a = false := by cases a <;> rfl

theorem lt_nan_right (a : Fl K) : a.lt .nan = false := by cases a <;> rfl

theorem le_nan_left (a : Fl K) : Fl.le .nan a = false := by cases a <;> rfl

theorem le_nan_right (a : Fl K) : a.le .nan = false := by cases a <;> rfl

theorem le_iff {a b : Fl K} : a.le b = true ↔ match a, b with
    | .fin x _, .fin y _ => x ≤ y
    | .fin _ _, .inf t => t = false
    | .inf s, .fin _ _ => s = true
    | .inf s, .inf t => t = true → s = true
    | _, _ => False := by
  rcases a with ⟨x, s⟩ | s | _ <;> rcases b with ⟨y, t⟩ | t | _ <;> simp [Fl.lt, Fl.le, Fl.eq]
  · rw [le_iff_lt_or_eq]
  · cases s <;> cases t <;> simp

/-- Numbers that are not NaN are totally ordered. -/
theorem not_lt {a b : Fl K} (ha : a ≠ .nan) (hb : b ≠ .nan) : a.lt b = false ↔ b.le a = true := by
  rw [le_iff]
  rcases a with ⟨x, s⟩ | s | _ <;> rcases b with ⟨y, t⟩ | t | _ <;> simp [Fl.lt] at ha hb ⊢

theorem not_le {a b : Fl K} (ha : a ≠ .nan) (hb : b ≠ .nan) : a.le b = false ↔ b.lt a = true := by
  rw [← Bool.not_eq_true, ← not_lt hb ha, Bool.not_eq_false]

theorem le_refl {a : Fl K} (ha : a ≠ .nan) : a.le a = true := by
  rw [← not_lt ha ha]
  rcases a with ⟨x, s⟩ | s | _ <;> simp [Fl.lt]

theorem le_trans {a b c : Fl K} (h₁ : a.le b = true) (h₂ : b.le c = true) : a.le c = true := by
  rw [le_iff] at *
  rcases a with ⟨x, s⟩ | s | _ <;> rcases b with ⟨y, t⟩ | t | _ <;> rcases c with ⟨z, u⟩ | u | _ <;> simp at h₁ h₂ ⊢
  all_goals first | exact h₁.trans h₂ | simp_all

theorem num_of_le {a b : Fl K} (h : a.le b = true) : a ≠ .nan ∧ b ≠ .nan := by
  constructor
  · rintro rfl
    rw [le_nan_left] at h
    cases h
  · rintro rfl
    rw [le_nan_right] at h
    cases h

theorem lt_le {a b : Fl K} (h : a.lt b = true) : a.le b = true := by rw [Fl.le, h, Bool.true_or]

/-! ## `std::min` and `std::max` -/

theorem stdMin_nan_right (a : Fl K) : stdMin a .nan = a := by rw [stdMin, lt_nan_left]; rfl

theorem stdMin_nan_left (a : Fl K) : stdMin .nan a = .nan := by rw [stdMin, lt_nan_right]; rfl

theorem stdMax_nan_right (a : Fl K) : stdMax a .nan = a := by rw [stdMax, lt_nan_right]; rfl

theorem stdMax_nan_left (a : Fl K) : stdMax .nan a = .nan := by rw [stdMax, lt_nan_left]; rfl

theorem stdMin_cases (a b : Fl K) : stdMin a b = a ∨ stdMin a b = b := by
  rw [stdMin]
  cases b.lt a
  · exact Or.inl rfl
  · exact Or.inr rfl

theorem stdMax_cases (a b : Fl K) : stdMax a b = a ∨ stdMax a b = b := by
  rw [stdMax]
  cases a.lt b
  · exact Or.inl rfl
  · exact Or.inr rfl

theorem stdMin_num {a b : Fl K} (ha : a ≠ .nan) : stdMin a b ≠ .nan := by
  rw [stdMin]
  cases h : b.lt a
  · exact ha
  · exact (num_of_le (lt_le h)).1

theorem stdMax_num {a b : Fl K} (ha : a ≠ .nan) : stdMax a b ≠ .nan := by
  rw [stdMax]
  cases h : a.lt b
  · exact ha
  · exact (num_of_le (lt_le h)).2

theorem stdMin_le {a b : Fl K} (ha : a ≠ .nan) (hb : b ≠ .nan) : (stdMin a b).le a = true ∧ (stdMin a b).le b = true := by
  rw [stdMin]
  cases h : b.lt a
  · exact ⟨le_refl ha, (not_lt hb ha).1 h⟩
  · exact ⟨lt_le h, le_refl hb⟩

theorem le_stdMax {a b : Fl K} (ha : a ≠ .nan) (hb : b ≠ .nan) : a.le (stdMax a b) = true ∧ b.le (stdMax a b) = true := by
  rw [stdMax]
  cases h : a.lt b
  · exact ⟨le_refl ha, (not_lt ha hb).1 h⟩
  · exact ⟨lt_le h, le_refl hb⟩

theorem le_stdMin_iff {a b c : Fl K} (ha : a ≠ .nan) (hb : b ≠ .nan) : c.le (stdMin a b) = true ↔ c.le a = true ∧ c.le b = true := by
  have h := stdMin_le ha hb
  refine ⟨fun h' => ⟨le_trans h' h.1, le_trans h' h.2⟩, fun h' => ?_⟩
  rcases stdMin_cases a b with e | e <;> rw [e]
  · exact h'.1
  · exact h'.2

theorem stdMax_le_iff {a b c : Fl K} (ha : a ≠ .nan) (hb : b ≠ .nan) : (stdMax a b).le c = true ↔ a.le c = true ∧ b.le c = true := by
  have h := le_stdMax ha hb
  refine ⟨fun h' => ⟨le_trans h.1 h', le_trans h.2 h'⟩, fun h' => ?_⟩
  rcases stdMax_cases a b with e | e <;> rw [e]
  · exact h'.1
  · exact h'.2

theorem stdMin_le_iff {a b c : Fl K} (ha : a ≠ .nan) (hb : b ≠ .nan) : (stdMin a b).le c = true ↔ a.le c = true ∨ b.le c = true := by
  have h := stdMin_le ha hb
  refine ⟨fun h' => ?_, fun h' => h'.elim (le_trans h.1) (le_trans h.2)⟩
  rcases stdMin_cases a b with e | e <;> rw [e] at h'
  · exact Or.inl h'
  · exact Or.inr h'

theorem le_stdMax_iff {a b c : Fl K} (ha : a ≠ .nan) (hb : b ≠ .nan) : c.le (stdMax a b) = true ↔ c.le a = true ∨ c.le b = true := by
  have h := le_stdMax ha hb
  refine ⟨fun h' => ?_, fun h' => h'.elim (le_trans · h.1) (le_trans · h.2)⟩
  rcases stdMax_cases a b with e | e <;> rw [e] at h'
  · exact Or.inl h'
  · exact Or.inr h'

/-! ## Containment -/

/-- A point in the closed range of a box, by the comparisons of IEEE 754: no NaN is. -/
def Box.Mem (b : Box K n) (p : Fin n → Fl K) : Prop := ∀ i, (b.lo i).le (p i) = true ∧ (p i).le (b.hi i) = true

/-- A box none of whose coordinates is NaN. -/
def Box.Num (b : Box K n) : Prop := ∀ i, b.lo i ≠ .nan ∧ b.hi i ≠ .nan

/-- **C108**: for points and boxes without NaN, infinite or not, containment is the range test. -/
theorem C108_contains {b : Box K n} (hb : b.Num) {p : Fin n → Fl K} (hp : ∀ i, p i ≠ .nan) : b.contains p = true ↔ b.Mem p := by
  simp only [Box.contains, List.all_eq_true, List.mem_finRange, true_imp_iff, Bool.not_eq_true', Bool.or_eq_false_iff, Box.Mem]
  exact forall_congr' fun i => and_congr (not_lt (hp i) (hb i).1) (not_lt (hb i).2 (hp i))

/-- No NaN is in the range of a box, but every box "contains" the points all of whose coordinates are NaN, even the boxes without
points. -/
theorem C108_nan_refuted (b : Box K n) {p : Fin n → Fl K} (hp : ∀ i, p i = .nan) : b.contains p = true ∧ (0 < n → ¬ b.Mem p) := by
  constructor
  · simp [Box.contains, hp, lt_nan_left, lt_nan_right]
  · intro hn h
    have := (h ⟨0, hn⟩).1
    rw [hp, le_nan_right] at this
    cases this

/-- The direction of a zero vector is such a point. -/
theorem C108_unit_refuted {R : K → Option K} {root : K → K} (h0 : R 0 = some 0) (hr : root 0 = 0) (s : Fin n → Bool) (b : Box K n) :
    (∀ i, unit R root (fun i => .fin 0 (s i)) i = .nan) ∧ b.contains (unit R root (fun i => .fin 0 (s i))) = true := by
  have hm : ∀ (l : List (Fin n)) (t : Bool), ∃ t', l.foldl (fun a i => (Fl.fin (0 : K) (s i)).fma R (.fin 0 (s i)) a) (.fin 0 t) = .fin 0 t' := by
    intro l
    induction l with
    | nil => exact fun t => ⟨t, rfl⟩
    | cons i l ih =>
      intro t
      have e : (Fl.fin (0 : K) (s i)).fma R (.fin 0 (s i)) (.fin 0 t) =
          .fin 0 (xor (Fl.fin (0 : K) (s i)).sign (Fl.fin (0 : K) (s i)).sign && (Fl.fin (0 : K) t).sign) := by
        simp only [Fl.fma, mul_zero, add_zero, ofReal, h0, if_true]
      rw [List.foldl_cons, e]
      exact ih _
  obtain ⟨t, ht⟩ := hm (List.finRange n) false
  have h : ∀ i, unit R root (fun i => .fin (0 : K) (s i)) i = .nan := by
    intro i
    simp only [unit, mag, mag2]
    rw [ht]
    simp [Fl.sqrt, hr, ofReal, h0, Fl.div]
  exact ⟨h, (C108_nan_refuted b h).1⟩

/-! ## Clamping -/

/-- **C108**: clipping a point to a box with points always gives a point of the box, also for infinite coordinates and NaN (which goes
to the lower extreme); a coordinate in range is kept. -/
theorem C108_clip {b : Box K n} (hb : ∀ i, (b.lo i).le (b.hi i) = true) (p : Fin n → Fl K) :
    b.Mem (b.clip p) ∧ ∀ i, (p i = .nan → (b.clip p i).eq (b.lo i) = true) ∧
      ((b.lo i).le (p i) = true → (p i).le (b.hi i) = true → (b.clip p i).eq (p i) = true) := by
  have hN := fun i => num_of_le (hb i)
  have he : ∀ {a c : Fl K}, a.le c = true → c.le a = true → a.eq c = true := by
    intro a c h1 h2
    rw [le_iff] at h1 h2
    rcases a with ⟨x, s⟩ | s | _ <;> rcases c with ⟨y, t⟩ | t | _ <;> simp [Fl.eq] at h1 h2 ⊢
    · exact le_antisymm h1 h2
    · rw [h1] at h2
      cases h2
    · rw [h1] at h2
      cases h2
    · cases s <;> cases t <;> simp_all
  have hmem : b.Mem (b.clip p) := by
    intro i
    have h1 : (stdMax (b.lo i) (p i)) ≠ .nan := stdMax_num (hN i).1
    rw [Box.clip, le_stdMin_iff (hN i).2 h1]
    refine ⟨⟨hb i, ?_⟩, (stdMin_le (hN i).2 h1).1⟩
    by_cases hp : p i = .nan
    · rw [hp, stdMax_nan_right]
      exact le_refl (hN i).1
    · exact (le_stdMax (hN i).1 hp).1
  refine ⟨hmem, fun i => ⟨fun hp => ?_, fun h1 h2 => ?_⟩⟩
  · have h2 := (stdMin_le (hN i).2 (hN i).1).2
    rw [Box.clip, hp, stdMax_nan_right]
    refine he h2 ?_
    rw [le_stdMin_iff (hN i).2 (hN i).1]
    exact ⟨hb i, le_refl (hN i).1⟩
  · have hp := (num_of_le h2).1
    have h3 : (stdMax (b.lo i) (p i)) ≠ .nan := stdMax_num (hN i).1
    rw [Box.clip]
    refine he ?_ ?_
    · exact le_trans (stdMin_le (hN i).2 h3).2 ((stdMax_le_iff (hN i).1 hp).2 ⟨h1, le_refl hp⟩)
    · exact (le_stdMin_iff (hN i).2 h3).2 ⟨h2, (le_stdMax (hN i).1 hp).2⟩

/-- **C108**: so does clamping a number, except that NaN goes to the upper extreme. -/
theorem C108_clamp {lo hi : Fl K} (h : lo.le hi = true) (v : Fl K) :
    lo.le (clamp v lo hi) = true ∧ (clamp v lo hi).le hi = true ∧ clamp .nan lo hi = stdMax lo hi := by
  have hN := num_of_le h
  have h1 : stdMin hi v ≠ .nan := stdMin_num hN.2
  refine ⟨(le_stdMax hN.1 h1).1, ?_, by rw [clamp, stdMin_nan_right]⟩
  rw [clamp, stdMax_le_iff hN.1 h1]
  refine ⟨h, ?_⟩
  by_cases hv : v = .nan
  · rw [hv, stdMin_nan_right]
    exact le_refl hN.2
  · exact (stdMin_le hN.2 hv).1

/-- Clamping a vector keeps its elements between the extremes if they are numbers; an element that is NaN stays NaN. -/
theorem C108_vec_clamp_refuted {lo hi v : Fin n → Fl K} (i : Fin n) (h : (lo i).le (hi i) = true) :
    (v i ≠ .nan → (lo i).le (vecClamp v lo hi i) = true ∧ (vecClamp v lo hi i).le (hi i) = true) ∧ (v i = .nan → vecClamp v lo hi i = .nan) := by
  have hN := num_of_le h
  constructor
  · intro hv
    have h1 : stdMax (v i) (lo i) ≠ .nan := stdMax_num hv
    rw [vecClamp, le_stdMin_iff h1 hN.2]
    exact ⟨⟨(le_stdMax hv hN.1).2, h⟩, (stdMin_le h1 hN.2).2⟩
  · intro hv
    rw [vecClamp, hv, stdMax_nan_left, stdMin_nan_left]

/-! ## Unions -/

/-- **C108**: both ways to unite boxes without NaN give the least box around both. -/
theorem C108_union {a b : Box K n} (ha : a.Num) (hb : b.Num) (u : Box K n) (hu : u = a.union b ∨ u = a.unionAssign b) :
    (∀ p, a.Mem p ∨ b.Mem p → u.Mem p) ∧
      ∀ i, (u.lo i = a.lo i ∨ u.lo i = b.lo i) ∧ (u.hi i = a.hi i ∨ u.hi i = b.hi i) := by
  have h : ∀ i, ((u.lo i).le (a.lo i) = true ∧ (u.lo i).le (b.lo i) = true) ∧ ((a.hi i).le (u.hi i) = true ∧ (b.hi i).le (u.hi i) = true) ∧
      (u.lo i = a.lo i ∨ u.lo i = b.lo i) ∧ (u.hi i = a.hi i ∨ u.hi i = b.hi i) := by
    intro i
    rcases hu with rfl | rfl
    · exact ⟨stdMin_le (ha i).1 (hb i).1, le_stdMax (ha i).2 (hb i).2, stdMin_cases _ _, stdMax_cases _ _⟩
    · exact ⟨(stdMin_le (hb i).1 (ha i).1).symm, (le_stdMax (hb i).2 (ha i).2).symm, (stdMin_cases _ _).symm, (stdMax_cases _ _).symm⟩
  refine ⟨?_, fun i => (h i).2.2⟩
  rintro p (hp | hp) i
  · exact ⟨le_trans (h i).1.1 (hp i).1, le_trans (hp i).2 (h i).2.1.1⟩
  · exact ⟨le_trans (h i).1.2 (hp i).1, le_trans (hp i).2 (h i).2.1.2⟩

/-- With a NaN they differ: `a | b` ignores an extreme of `b` that is NaN, `a |= b` takes it over. -/
theorem C108_union_refuted (a b : Box K n) (i : Fin n) :
    (b.lo i = .nan → (a.union b).lo i = a.lo i ∧ (a.unionAssign b).lo i = .nan) ∧
      (b.hi i = .nan → (a.union b).hi i = a.hi i ∧ (a.unionAssign b).hi i = .nan) := by
  constructor <;> intro h
  · exact ⟨by simp only [Box.union, h, stdMin_nan_right], by simp only [Box.unionAssign, h, stdMin_nan_left]⟩
  · exact ⟨by simp only [Box.union, h, stdMax_nan_right], by simp only [Box.unionAssign, h, stdMax_nan_left]⟩

theorem points_fold (ps : List (Fin n → Fl K)) (b : Box K n) (i : Fin n) (hb : b.lo i ≠ .nan ∧ b.hi i ≠ .nan) :
    let u := ps.foldl Box.unionPoint b
    ((u.lo i).le (b.lo i) = true ∧ (b.hi i).le (u.hi i) = true) ∧
    (∀ p ∈ ps, p i ≠ .nan → (u.lo i).le (p i) = true ∧ (p i).le (u.hi i) = true) ∧
    (u.lo i = b.lo i ∨ ∃ p ∈ ps, p i ≠ .nan ∧ u.lo i = p i) ∧ (u.hi i = b.hi i ∨ ∃ p ∈ ps, p i ≠ .nan ∧ u.hi i = p i) := by
  induction ps generalizing b with
  | nil => exact ⟨⟨le_refl hb.1, le_refl hb.2⟩, by simp, Or.inl rfl, Or.inl rfl⟩
  | cons q ps ih =>
    simp only [List.foldl_cons]
    have h := ih (b.unionPoint q) ⟨stdMin_num hb.1, stdMax_num hb.2⟩
    simp only at h
    by_cases hq : q i = .nan
    · have e1 : (b.unionPoint q).lo i = b.lo i := by simp only [Box.unionPoint, hq, stdMin_nan_right]
      have e2 : (b.unionPoint q).hi i = b.hi i := by simp only [Box.unionPoint, hq, stdMax_nan_right]
      rw [e1, e2] at h
      refine ⟨h.1, ?_, h.2.2.1.imp_right ?_, h.2.2.2.imp_right ?_⟩
      · intro p hp hpn
        rcases List.mem_cons.1 hp with rfl | hp
        · exact absurd hq hpn
        · exact h.2.1 p hp hpn
      all_goals
        rintro ⟨p, hp, h'⟩
        exact ⟨p, List.mem_cons_of_mem _ hp, h'⟩
    · have m := stdMin_le hb.1 hq
      have M := le_stdMax hb.2 hq
      refine ⟨⟨le_trans h.1.1 m.1, le_trans M.1 h.1.2⟩, ?_, ?_, ?_⟩
      · intro p hp hpn
        rcases List.mem_cons.1 hp with rfl | hp
        · exact ⟨le_trans h.1.1 m.2, le_trans M.2 h.1.2⟩
        · exact h.2.1 p hp hpn
      · rcases h.2.2.1 with e | ⟨p, hp, h'⟩
        · rw [e]
          rcases stdMin_cases (b.lo i) (q i) with e' | e'
          · exact Or.inl e'
          · exact Or.inr ⟨q, List.mem_cons_self, hq, e'⟩
        · exact Or.inr ⟨p, List.mem_cons_of_mem _ hp, h'⟩
      · rcases h.2.2.2 with e | ⟨p, hp, h'⟩
        · rw [e]
          rcases stdMax_cases (b.hi i) (q i) with e' | e'
          · exact Or.inl e'
          · exact Or.inr ⟨q, List.mem_cons_self, hq, e'⟩
        · exact Or.inr ⟨p, List.mem_cons_of_mem _ hp, h'⟩

/-- **C108**: the box of a sequence of points is around all their coordinates that are numbers, finite or not, and ignores those that are
NaN; its extremes are such coordinates, or those of the default box. -/
theorem C108_points (top : K) (ps : List (Fin n → Fl K)) (i : Fin n) :
    (∀ p ∈ ps, p i ≠ .nan → ((Box.ofPoints top ps).lo i).le (p i) = true ∧ (p i).le ((Box.ofPoints top ps).hi i) = true) ∧
    ((Box.ofPoints top ps).lo i = .fin top false ∨ ∃ p ∈ ps, p i ≠ .nan ∧ (Box.ofPoints top ps).lo i = p i) ∧
    ((Box.ofPoints top ps).hi i = .fin (-top) true ∨ ∃ p ∈ ps, p i ≠ .nan ∧ (Box.ofPoints top ps).hi i = p i) :=
  (points_fold ps (Box.default top) i ⟨by simp [Box.default], by simp [Box.default]⟩).2

/-- It is not the least box around them: if they are all at positive infinity, the box begins at the largest finite number. -/
theorem C108_points_refuted (top : K) (ps : List (Fin n → Fl K)) (i : Fin n) (h : ∀ p ∈ ps, p i = .inf false) :
    (Box.ofPoints top ps).lo i = .fin top false := by
  have hb := points_fold ps (Box.default top) i ⟨by simp [Box.default], by simp [Box.default]⟩
  rcases hb.2.2.1 with e | ⟨p, hp, -, e⟩
  · exact e
  · have h1 := hb.1.1
    rw [e, h p hp] at h1
    simp [Box.default, Fl.le, Fl.lt, Fl.eq] at h1

/-! ## Equality of vectors -/

/-- **C108**: a vector equals itself exactly if it has no NaN, zeros of both signs are equal, and equality agrees with the order of the
elements. -/
theorem C108_equal (v w : Fin n → Fl K) : (vecEq v v = true ↔ ∀ i, v i ≠ .nan) ∧
    (vecEq v w = true ↔ ∀ i, (v i).le (w i) = true ∧ (w i).le (v i) = true) ∧ (isZero v = true ↔ ∀ i, ∃ s, v i = .fin 0 s) := by
  have key : ∀ a b : Fl K, b.eq a = true ↔ a.le b = true ∧ b.le a = true := by
    intro a b
    rw [le_iff, le_iff]
    rcases a with ⟨x, s⟩ | s | _ <;> rcases b with ⟨y, t⟩ | t | _ <;> simp [Fl.eq]
    · exact ⟨fun e => e ▸ ⟨_root_.le_refl _, _root_.le_refl _⟩, fun e => _root_.le_antisymm e.2 e.1⟩
    all_goals cases s <;> cases t <;> simp
  have h2 : ∀ v w : Fin n → Fl K, vecEq v w = true ↔ ∀ i, (v i).le (w i) = true ∧ (w i).le (v i) = true := by
    intro v w
    simp only [vecEq, List.all_eq_true, List.mem_finRange, true_imp_iff, key]
  refine ⟨?_, h2 v w, ?_⟩
  · rw [h2]
    exact forall_congr' fun i => ⟨fun h => (num_of_le h.1).1, fun h => ⟨le_refl h, le_refl h⟩⟩
  · simp only [isZero, List.all_eq_true, List.mem_finRange, true_imp_iff]
    refine forall_congr' fun i => ?_
    rcases v i with ⟨x, s⟩ | s | _ <;> simp [Fl.eq]

/-! ## Boxes against boxes -/

/-- **C108**: the common part of boxes without NaN has the points of both, also for infinite extremes. -/
theorem C108_inter {a b : Box K n} (ha : a.Num) (hb : b.Num) (p : Fin n → Fl K) : (a.inter b).Mem p ↔ a.Mem p ∧ b.Mem p := by
  simp only [Box.Mem, ← forall_and, Box.inter]
  refine forall_congr' fun i => ?_
  rw [stdMax_le_iff (ha i).1 (hb i).1, le_stdMin_iff (ha i).2 (hb i).2]
  tauto

/-- **C108**: the full box has all points, also those at infinity, and changes no other box it is intersected with. -/
theorem C108_full (b : Box K n) {p : Fin n → Fl K} (hp : ∀ i, p i ≠ .nan) :
    (Box.full : Box K n).Mem p ∧ ((b.inter .full).Mem p ↔ b.Num ∧ b.Mem p) := by
  have h : (Box.full : Box K n).Mem p := by
    intro i
    have := hp i
    simp only [Box.full, le_iff]
    generalize p i = a at this
    rcases a with ⟨x, s⟩ | s | _ <;> simp at this ⊢
  refine ⟨h, fun h' => ?_, fun h' => (C108_inter h'.1 (fun _ => ⟨by simp [Box.full], by simp [Box.full]⟩) p).2 ⟨h'.2, h⟩⟩
  have hn : b.Num := by
    intro i
    have := h' i
    constructor <;> intro e <;> simp [Box.inter, e, stdMax_nan_left, stdMin_nan_left, le_nan_left, le_nan_right] at this
  exact ⟨hn, ((C108_inter hn (fun _ => ⟨by simp [Box.full], by simp [Box.full]⟩) p).1 h').1⟩

/-- **C108**: boxes without NaN overlap as their open ranges do. -/
theorem C108_intersects {a b : Box K n} (ha : a.Num) (hb : b.Num) :
    a.intersects b = true ↔ ∀ i, (b.lo i).lt (a.hi i) = true ∧ (a.lo i).lt (b.hi i) = true := by
  simp only [Box.intersects, List.all_eq_true, List.mem_finRange, true_imp_iff, Bool.not_eq_true', Bool.or_eq_false_iff]
  exact forall_congr' fun i => and_congr (not_le (ha i).2 (hb i).1) (not_le (hb i).2 (ha i).1)

/-- A box of NaN overlaps all others. -/
theorem C108_intersects_refuted (a : Box K n) {b : Box K n} (h : ∀ i, b.lo i = .nan ∧ b.hi i = .nan) : a.intersects b = true := by
  simp [Box.intersects, h, le_nan_left, le_nan_right]

/-! ## Rays -/

section Rays
variable [IsStrictOrderedRing K]

/-- `(x - o) / d` for a finite origin and a finite direction that is not zero. -/
theorem slab_num {R : K → Option K} {x : Fl K} (hx : x ≠ .nan) {o d : K} {s t : Bool} (hd : d ≠ 0) :
    (x.sub R (.fin o s)).div R (.fin d t) ≠ .nan := by
  have hf : ∀ u y, ofReal R u y ≠ .nan := by
    intro u y
    rw [ofReal]
    cases R y <;> simp
  have h : x.sub R (.fin o s) ≠ .nan := by
    rcases x with ⟨x, u⟩ | u | _
    · exact hf _ _
    · simp [Fl.sub, Fl.neg, Fl.add]
    · exact absurd rfl hx
  generalize x.sub R (.fin o s) = y at h
  rcases y with ⟨y, u⟩ | u | _
  · simp only [Fl.div, if_neg hd]
    exact hf _ _
  · simp [Fl.div]
  · exact absurd rfl h

/-- **C108**: a finite ray never gets a NaN for an answer from a box without NaN. -/
theorem C108_ray_num {R : K → Option K} (top : K) {b : Box K n} (hb : b.Num) {o d : Fin n → Fl K} (ho : ∀ i, (o i).Finite)
    (hd : ∀ i, (d i).Finite) : (b.ray R top o d).1 ≠ .nan ∧ (b.ray R top o d).2 ≠ .nan := by
  have h : ∀ (l : List (Fin n)) (iv : Fl K × Fl K), iv.1 ≠ .nan → iv.2 ≠ .nan → ∀ iv',
      l.foldlM (fun iv i => rayAxis R (o i) (d i) (b.lo i) (b.hi i) iv) iv = some iv' → iv'.1 ≠ .nan ∧ iv'.2 ≠ .nan := by
    intro l
    induction l with
    | nil =>
      intro iv h1 h2 iv' e
      cases e
      exact ⟨h1, h2⟩
    | cons i l ih =>
      intro iv h1 h2 iv' e
      rw [List.foldlM_cons, Option.bind_eq_bind, Option.bind_eq_some_iff] at e
      obtain ⟨jv, e1, e2⟩ := e
      have hj : jv.1 ≠ .nan ∧ jv.2 ≠ .nan := by
        rw [rayAxis] at e1
        by_cases h0 : (d i).eq (.fin 0 false) = true
        · rw [if_pos h0] at e1
          split_ifs at e1
          cases e1
          exact ⟨h1, h2⟩
        · rw [if_neg h0] at e1
          cases e1
          exact ⟨stdMax_num h1, stdMin_num h2⟩
      exact ih jv hj.1 hj.2 iv' e2
  rw [Box.ray]
  cases e : (List.finRange n).foldlM (fun iv i => rayAxis R (o i) (d i) (b.lo i) (b.hi i) iv) (Fl.inf true, Fl.inf false)
  · exact ⟨by simp, by simp⟩
  · exact h _ _ (by simp) (by simp) _ e

/-- A ray whose origin or direction is NaN along each axis hits every box, all along: for instance any ray along the direction of a zero
vector. -/
theorem C108_ray_refuted {R : K → Option K} (top : K) (b : Box K n) {o d : Fin n → Fl K} (h : ∀ i, o i = .nan ∨ d i = .nan) :
    b.ray R top o d = (.inf true, .inf false) := by
  have hn : ∀ x y : Fl K, (x.sub R .nan).div R y = .nan := by
    intro x y
    have : x.sub R .nan = .nan := by rcases x with ⟨x, u⟩ | u | _ <;> rfl
    rw [this]
    rfl
  have hm : ∀ x : Fl K, x.div R .nan = .nan := by
    intro x
    rcases x with ⟨x, u⟩ | u | _ <;> rfl
  have hi : ∀ i iv, rayAxis R (o i) (d i) (b.lo i) (b.hi i) iv = some iv := by
    intro i iv
    rw [rayAxis]
    rcases h i with e | e
    · rw [e]
      simp only [lt_nan_left, lt_nan_right, Bool.or_self, hn, spanning, stdMin_nan_left, stdMax_nan_left, stdMin_nan_right, stdMax_nan_right]
      simp
    · rw [e]
      simp only [hm, spanning, stdMin_nan_left, stdMax_nan_left, stdMin_nan_right, stdMax_nan_right]
      simp [Fl.eq]
  have hf : ∀ (l : List (Fin n)) iv, l.foldlM (fun iv i => rayAxis R (o i) (d i) (b.lo i) (b.hi i) iv) iv = some iv := by
    intro l
    induction l with
    | nil => exact fun _ => rfl
    | cons i l ih =>
      intro iv
      rw [List.foldlM_cons, hi, Option.bind_eq_bind, Option.bind_some]
      exact ih iv
  rw [Box.ray, hf, Option.getD_some]

/-- With exact numbers the position of `(x - o) / d` on the line is the side of `x` on which the ray is. -/
theorem slab_side {x : Fl K} {o d t : K} {s u v w : Bool} (hd : d ≠ 0) :
    let y := (x.sub some (.fin o s)).div some (.fin d u)
    (0 < d → (y.le (.fin t v) = x.le (.fin (o + t * d) w) ∧ (Fl.fin t v).le y = (Fl.fin (o + t * d) w).le x)) ∧
    (d < 0 → (y.le (.fin t v) = (Fl.fin (o + t * d) w).le x ∧ (Fl.fin t v).le y = x.le (.fin (o + t * d) w))) := by
  rcases x with ⟨x, u⟩ | u | _
  · simp only [Fl.sub, Fl.neg, Fl.add, ofReal, Fl.div, if_neg hd]
    refine ⟨fun h => ⟨Bool.eq_iff_iff.2 ?_, Bool.eq_iff_iff.2 ?_⟩, fun h => ⟨Bool.eq_iff_iff.2 ?_, Bool.eq_iff_iff.2 ?_⟩⟩ <;>
      simp only [le_iff]
    · rw [div_le_iff₀ h]
      constructor <;> intro _ <;> linarith
    · rw [le_div_iff₀ h]
      constructor <;> intro _ <;> linarith
    · rw [div_le_iff_of_neg h]
      constructor <;> intro _ <;> linarith
    · rw [le_div_iff_of_neg h]
      constructor <;> intro _ <;> linarith
  · refine ⟨fun h => ?_, fun h => ?_⟩
    · simp [Fl.sub, Fl.neg, Fl.add, Fl.div, Fl.sign, not_lt_of_gt h, h.ne', Fl.le, Fl.lt, Fl.eq]
    · simp [Fl.sub, Fl.neg, Fl.add, Fl.div, Fl.sign, h, h.ne, Fl.le, Fl.lt, Fl.eq]
  · simp [Fl.sub, Fl.neg, Fl.add, Fl.div, le_nan_left, le_nan_right]

/-- One axis of the test. -/
theorem axis_mem {lo hi : Fl K} (hlh : lo.le hi = true) {o d t : K} {s u v w : Bool} {iv : Fl K × Fl K} (h1 : iv.1 ≠ .nan) (h2 : iv.2 ≠ .nan) :
    (∃ jv, rayAxis some (.fin o s) (.fin d u) lo hi iv = some jv ∧ jv.1.le (.fin t v) = true ∧ (Fl.fin t v).le jv.2 = true) ↔
      (iv.1.le (.fin t v) = true ∧ (Fl.fin t v).le iv.2 = true) ∧ lo.le (.fin (o + t * d) w) = true ∧ (Fl.fin (o + t * d) w).le hi = true := by
  have hN := num_of_le hlh
  rw [rayAxis]
  by_cases h0 : d = 0
  · have e : (Fl.fin d u).eq (.fin 0 false) = true := by simp [Fl.eq, h0]
    rw [if_pos e]
    have hl : (Fl.fin o s).lt lo = false ↔ lo.le (.fin (o + t * d) w) = true := by
      rw [not_lt (by simp) hN.1, le_iff, le_iff, h0, mul_zero, add_zero]
      rcases lo with ⟨x, u⟩ | u | _ <;> rfl
    have hh : hi.lt (Fl.fin o s) = false ↔ (Fl.fin (o + t * d) w).le hi = true := by
      rw [not_lt hN.2 (by simp), le_iff, le_iff, h0, mul_zero, add_zero]
      rcases hi with ⟨x, u⟩ | u | _ <;> rfl
    rw [← hl, ← hh]
    cases (Fl.fin o s).lt lo <;> cases hi.lt (Fl.fin o s) <;> simp
  · have e : ¬ (Fl.fin d u).eq (.fin 0 false) = true := by simp [Fl.eq, h0]
    rw [if_neg e]
    have a1 := slab_num (R := some) (s := s) (t := u) (o := o) hN.2 h0
    have a2 := slab_num (R := some) (s := s) (t := u) (o := o) hN.1 h0
    have k1 := slab_side (x := hi) (o := o) (d := d) (t := t) (s := s) (u := u) (v := v) (w := w) h0
    have k2 := slab_side (x := lo) (o := o) (d := d) (t := t) (s := s) (u := u) (v := v) (w := w) h0
    simp only [spanning, Option.some.injEq, exists_eq_left']
    simp only at k1 k2
    rw [stdMax_le_iff h1 (stdMin_num a1), le_stdMin_iff h2 (stdMax_num a1), stdMin_le_iff a1 a2, le_stdMax_iff a1 a2]
    have key : ((hi.le (.fin (o + t * d) w) = true ∨ lo.le (.fin (o + t * d) w) = true) ∧
        ((Fl.fin (o + t * d) w).le hi = true ∨ (Fl.fin (o + t * d) w).le lo = true)) ↔
        lo.le (.fin (o + t * d) w) = true ∧ (Fl.fin (o + t * d) w).le hi = true := by
      refine and_congr ⟨fun h => h.elim (le_trans hlh) id, Or.inr⟩ ⟨fun h => h.elim id (le_trans · hlh), Or.inl⟩
    rcases lt_or_gt_of_ne h0 with h | h
    · rw [(k1.2 h).1, (k1.2 h).2, (k2.2 h).1, (k2.2 h).2, and_and_and_comm, ← key]
      constructor <;> rintro ⟨h3, h4, h5⟩ <;> exact ⟨h3, h5, h4⟩
    · rw [(k1.1 h).1, (k1.1 h).2, (k2.1 h).1, (k2.1 h).2, and_and_and_comm, ← key]

/-- **C108**: with exact numbers the interval answered for a finite ray and a box with points, whose extremes may be infinite, is the set
of parameters at which the ray is in the box. -/
theorem C108_ray {top : K} (ht : 0 < top) {b : Box K n} (hb : ∀ i, (b.lo i).le (b.hi i) = true) (o d : Fin n → K) (s u : Fin n → Bool) (t : K) :
    (((b.ray some top (fun i => .fin (o i) (s i)) (fun i => .fin (d i) (u i))).1).le (.fin t false) = true ∧
      (Fl.fin t false).le (b.ray some top (fun i => .fin (o i) (s i)) (fun i => .fin (d i) (u i))).2 = true) ↔
      b.Mem (fun i => .fin (o i + t * d i) false) := by
  have h : ∀ (l : List (Fin n)) (iv : Fl K × Fl K), iv.1 ≠ .nan → iv.2 ≠ .nan →
      ((∃ jv, l.foldlM (fun iv i => rayAxis some (.fin (o i) (s i)) (.fin (d i) (u i)) (b.lo i) (b.hi i) iv) iv = some jv ∧
        jv.1.le (.fin t false) = true ∧ (Fl.fin t false).le jv.2 = true) ↔
      (iv.1.le (.fin t false) = true ∧ (Fl.fin t false).le iv.2 = true) ∧
        ∀ i ∈ l, (b.lo i).le (.fin (o i + t * d i) false) = true ∧ (Fl.fin (o i + t * d i) false).le (b.hi i) = true) := by
    intro l
    induction l with
    | nil =>
      intro iv h1 h2
      simp [pure]
    | cons i l ih =>
      intro iv h1 h2
      rw [List.forall_mem_cons, ← and_assoc, ← axis_mem (hb i) (s := s i) (u := u i) h1 h2]
      rw [List.foldlM_cons, Option.bind_eq_bind]
      have hnum : ∀ jv, rayAxis some (.fin (o i) (s i)) (.fin (d i) (u i)) (b.lo i) (b.hi i) iv = some jv → jv.1 ≠ .nan ∧ jv.2 ≠ .nan := by
        intro jv e
        rw [rayAxis] at e
        by_cases h0 : (Fl.fin (d i) (u i)).eq (.fin 0 false) = true
        · rw [if_pos h0] at e
          split_ifs at e
          cases e
          exact ⟨h1, h2⟩
        · rw [if_neg h0] at e
          cases e
          exact ⟨stdMax_num h1, stdMin_num h2⟩
      cases e : rayAxis some (.fin (o i) (s i)) (.fin (d i) (u i)) (b.lo i) (b.hi i) iv with
      | none => simp
      | some jv =>
        rw [Option.bind_some, ih jv (hnum jv e).1 (hnum jv e).2]
        simp
  have h' := h (List.finRange n) (.inf true, .inf false) (by simp) (by simp)
  rw [Box.ray]
  cases e : (List.finRange n).foldlM (fun iv i => rayAxis some (.fin (o i) (s i)) (.fin (d i) (u i)) (b.lo i) (b.hi i) iv)
      (Fl.inf true, Fl.inf false) with
  | none =>
    rw [e] at h'
    simp only [reduceCtorEq, false_and, exists_false, false_iff, List.mem_finRange, true_imp_iff] at h'
    rw [Option.getD_none]
    refine ⟨fun h3 => ?_, fun h3 => absurd ⟨by simp [Fl.le, Fl.lt], h3⟩ h'⟩
    have h4 := le_trans h3.1 h3.2
    simp only [le_iff] at h4
    linarith
  | some jv =>
    rw [e] at h'
    simp only [Option.some.injEq, exists_eq_left', List.mem_finRange, true_imp_iff] at h'
    rw [Option.getD_some, h']
    exact ⟨fun h3 => h3.2, fun h3 => ⟨by simp [Fl.le, Fl.lt], h3⟩⟩

end Rays

/-! ## Examples -/

/-- A quadrant as a box: points at infinity are in it, and the ray that leaves the axis enters it. -/
example : let q : Box ℚ 2 := ⟨fun _ => .fin 0 false, fun _ => .inf false⟩
    q.contains ![.inf false, .fin 3 false] = true ∧ q.contains ![.inf true, .fin 3 false] = false ∧
    q.ray some 100 ![.fin (-1) false, .fin 1 false] ![.fin 2 false, .fin 1 false] = (.fin (1/2) false, .inf false) ∧
    q.ray some 100 ![.fin (-1) false, .fin 1 false] ![.fin 0 false, .fin 1 false] = (.fin 100 false, .fin (-100) true) := by decide +kernel

/-- NaN is in the unit square, and in the square turned inside out. -/
example : (⟨fun _ => .fin 0 false, fun _ => .fin 1 false⟩ : Box ℚ 2).contains ![.nan, .nan] = true ∧
    (⟨fun _ => .fin 1 false, fun _ => .fin 0 false⟩ : Box ℚ 2).contains ![.nan, .nan] = true ∧
    (⟨fun _ => .fin 1 false, fun _ => .fin 0 false⟩ : Box ℚ 2).contains ![.nan, .fin 0 false] = false := by decide +kernel

/-- Zero equals negative zero, and is zero; NaN is neither equal to itself nor zero. -/
example : vecEq ![(.fin 0 false : Fl ℚ), .inf true] ![.fin 0 true, .inf true] = true ∧ vecEq ![(.nan : Fl ℚ)] ![.nan] = false ∧
    isZero ![(.fin 0 true : Fl ℚ)] = true ∧ isZero ![(.nan : Fl ℚ)] = false := by
  decide +kernel

/-- The three clamps of NaN. -/
example : (⟨fun _ => .fin 0 false, fun _ => .fin 1 false⟩ : Box ℚ 1).clip ![.nan] 0 = .fin 0 false ∧
    clamp (.nan : Fl ℚ) (.fin 0 false) (.fin 1 false) = .fin 1 false ∧ vecClamp ![(.nan : Fl ℚ)] ![.fin 0 false] ![.fin 1 false] 0 = .nan := by
  decide +kernel

/-- The box of three points, one with a NaN and one infinite. -/
example : let b := Box.ofPoints (n := 2) (100 : ℚ) [![.fin 1 false, .nan], ![.fin 2 false, .fin 5 false], ![.inf true, .fin 4 false]]
    b.lo = ![.inf true, .fin 4 false] ∧ b.hi = ![.fin 2 false, .fin 5 false] := by decide +kernel

end Geomc.Ieee
