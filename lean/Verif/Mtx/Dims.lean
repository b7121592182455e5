import Verif.Mtx.DimsModel
import Verif.Mtx.Lemmas
import Mathlib.Tactic.Ring

/-! # Property C98: dimensions are checked -/

namespace Geomc.Dims

/-- `a` is `k x n`, `b` is `n x l` and `d` is `k x l`; a vector on the left is a row, on the right a column,
and as a destination either. -/
def Conform (d a b : Obj) : Prop :=
  a.cols .row = b.rows .col ∧
    ((d.rows .row = a.rows .row ∧ d.cols .row = b.cols .col) ∨
      (d.rows .col = a.rows .row ∧ d.cols .col = b.cols .col))

theorem runs_iff (q r : Prop) [Decidable q] [Decidable r] (c : Bool) :
    (if (!c) = true then Out.rejected else if q then .throws else if r then .throws else .runs) = .runs ↔ c = true ∧ ¬ q ∧ ¬ r := by
  cases c <;> by_cases hq : q <;> by_cases hr : r <;> simp [hq, hr]

/-- **C98.** A product into a destination whose shape is settled at compile time runs exactly if the
dimensions conform; otherwise it does not compile or throws. -/
theorem C98_mul_partial (d a b : Obj) (hd : d.Wf) (ha : a.Wf) (hb : b.Wf) (h : a.isMtx = true ∨ b.isMtx = true)
    (ho : mulOrient a b d ≠ .unknown) : mulAcc d a b = .runs ↔ Conform d a b := by
  unfold mulAcc
  rw [if_neg ho]
  by_cases h1 : a.R .row = d.R .col ∧ b.C .col = d.C .col
  · have e : mulOrient a b d = .col := if_pos h1
    unfold multipliable destMatch matchChecks Conform
    rw [e]
    rw [runs_iff]
    simp only [Bool.and_eq_true, Bool.or_eq_true, decide_eq_true_eq, Nat.mul_eq_zero]
    clear ho e
    cases d <;> cases a <;> cases b <;>
      simp only [Obj.R, Obj.C, Obj.rows, Obj.cols, Obj.Wf, Obj.isMtx, Bool.false_eq_true, or_self, true_or, or_true,
        true_and, and_true, or_false, false_or, false_and] at * <;> omega
  · have h2 : a.R .row = d.R .row ∧ b.C .col = d.C .row := by
      by_contra h2
      exact ho (by unfold mulOrient; rw [if_neg h1, if_neg h2])
    have e : mulOrient a b d = .row := by unfold mulOrient; rw [if_neg h1, if_pos h2]
    unfold multipliable destMatch matchChecks Conform
    rw [e]
    rw [runs_iff]
    simp only [Bool.and_eq_true, Bool.or_eq_true, decide_eq_true_eq, Nat.mul_eq_zero]
    clear ho e
    cases d <;> cases a <;> cases b <;>
      simp only [Obj.R, Obj.C, Obj.rows, Obj.cols, Obj.Wf, Obj.isMtx, Bool.false_eq_true, or_self, true_or, or_true,
        true_and, and_true, or_false, false_or, false_and] at * <;> omega

/-- **C98.** `a * b` runs exactly if the inner dimensions agree. -/
theorem C98_mul_new (a b : Obj) (ha : a.Wf) (hb : b.Wf) (h : a.isMtx = true ∨ b.isMtx = true) :
    mulNew a b = .runs ↔ a.cols .row = b.rows .col := by
  have e : mulNew a b = .runs ↔ multipliable a b = true ∧ ¬ ((a.C .row = 0 ∨ b.R .col = 0) ∧ a.cols .row ≠ b.rows .col) := by
    unfold mulNew
    cases multipliable a b <;> by_cases hq : (a.C .row = 0 ∨ b.R .col = 0) ∧ a.cols .row ≠ b.rows .col <;> simp [hq]
  rw [e]
  unfold multipliable
  simp only [Bool.and_eq_true, Bool.or_eq_true, decide_eq_true_eq]
  cases a <;> cases b <;>
    simp only [Obj.R, Obj.C, Obj.rows, Obj.cols, Obj.Wf, Obj.isMtx, Bool.false_eq_true, or_self, true_or, or_true,
      true_and, and_true, or_false, false_or, false_and] at * <;> omega

theorem orient_unknown (a b d : Obj) (h1 : ¬ (a.R .row = d.R .col ∧ b.C .col = d.C .col))
    (h2 : ¬ (a.R .row = d.R .row ∧ b.C .col = d.C .row)) : mulOrient a b d = .unknown := by
  unfold mulOrient; rw [if_neg h1, if_neg h2]

theorem unknown_iff (d a b : Obj) (ho : mulOrient a b d = .unknown) :
    mulAcc d a b = .runs ↔ multipliable a b = true ∧ destMatch a b d = true ∧
      ((d.rows .row = a.rows .row ∧ d.cols .row = b.cols .col) ∨
        (d.rows .col = a.rows .row ∧ d.cols .col = b.cols .col)) := by
  unfold mulAcc unknownChecks
  rw [if_pos ho]
  cases multipliable a b <;> cases destMatch a b d <;>
    by_cases hq : (d.rows .row = a.rows .row ∧ d.cols .row = b.cols .col) ∨
        (d.rows .col = a.rows .row ∧ d.cols .col = b.cols .col) <;> simp [hq]

/-- **C98, refuted** when the shape of the destination is not settled at compile time, that is when it or
the outer dimensions of the operands mix fixed and dynamic sizes: the inner dimensions are not compared.
Every `m x k` times `l x n` runs into an `m x n` destination, given these types. -/
theorem C98_mul_refuted (m k l n : ℕ) (hm : 0 < m) :
    let a : Obj := .mtx m 0 m k
    let b : Obj := .mtx 0 n l n
    let d : Obj := .mtx 0 0 m n
    a.Wf ∧ b.Wf ∧ d.Wf ∧ mulInto d a b = .runs := by
  intro a b d
  refine ⟨⟨Or.inr rfl, Or.inl rfl⟩, ⟨Or.inl rfl, Or.inr rfl⟩, ⟨Or.inl rfl, Or.inl rfl⟩, ?_⟩
  have ho : mulOrient a b d = .unknown := by
    apply orient_unknown
    · simp only [a, b, d, Obj.R, Obj.C]; omega
    · simp only [a, b, d, Obj.R, Obj.C]; omega
  have : mulInto d a b = mulAcc d a b := rfl
  rw [this, unknown_iff d a b ho]
  unfold multipliable destMatch
  simp [a, b, d, Obj.R, Obj.C, Obj.rows, Obj.cols, Obj.isMtx]

theorem foldlM_none {S α : Type} (f : S → α → Option S) (l : List α) (a : α) (h : a ∈ l) (hf : ∀ s, f s a = none) :
    ∀ s, l.foldlM f s = none := by
  induction l with
  | nil => exact absurd h (by simp)
  | cons b l ih =>
    intro s
    rw [List.foldlM_cons]
    rcases List.mem_cons.1 h with e | e
    · rw [← e, hf]; rfl
    · cases hb : f s b with
      | none => rfl
      | some t => exact ih e t

/-- **C98, refuted.** What then happens if the right operand has too few rows: for all sizes, contents and
layouts, elements past the end of its storage are read. -/
theorem C98_overrun_refuted {K : Type} [Ring K] (d a b : Mtx.Flat) (h : b.rows < a.cols) (hr : 0 < a.rows)
    (hc : 0 < b.cols) (m : Mtx.Mem K) : Mtx.mul d a.src b.src m = none := by
  unfold Mtx.mul Mtx.forN
  refine foldlM_none _ _ 0 (List.mem_range.2 hr) (fun s => ?_) m
  refine foldlM_none _ _ (b.cols - 1) (List.mem_range.2 (by show b.cols - 1 < b.cols; omega)) (fun s => ?_) s
  have e : Mtx.inner a.src b.src s (a.src : Mtx.Src K).cols 0 (b.cols - 1) 0 = none := by
    unfold Mtx.inner
    refine foldlM_none _ _ b.rows (List.mem_range.2 h) (fun t => ?_) 0
    have g : b.src.get s b.rows (b.cols - 1) = none := by
      show Mtx.Flat.get b s b.rows (b.cols - 1) = none
      unfold Mtx.Flat.get
      rw [if_neg]
      unfold Mtx.Flat.off
      by_cases hm : b.rowMajor = true
      · rw [if_pos hm]; omega
      · rw [if_neg hm]
        obtain ⟨n, hn⟩ : ∃ n, b.cols = n + 1 := ⟨b.cols - 1, by omega⟩
        rw [hn, Nat.add_sub_cancel]
        have : b.rows * (n + 1) = n * b.rows + b.rows := by ring
        omega
    simp only [g]
    cases a.src.get s 0 b.rows <;> rfl
  show (Mtx.inner a.src b.src s (a.src : Mtx.Src K).cols 0 (b.cols - 1) 0).bind _ = none
  rw [e]
  rfl

/-- **C98, refuted.** The same for a dynamic matrix times a vector, accumulated into a vector: any number of
columns will do. -/
theorem C98_vec_refuted (m k n : ℕ) (hm : 0 < m) (hn : 0 < n) :
    let a : Obj := .mtx 0 0 m k
    a.Wf ∧ mulAcc (.vec m) a (.vec n) = .runs := by
  intro a
  refine ⟨⟨Or.inl rfl, Or.inl rfl⟩, ?_⟩
  have ho : mulOrient a (.vec n) (.vec m) = .unknown := by
    apply orient_unknown
    · simp only [a, Obj.R, Obj.C]; omega
    · simp only [a, Obj.R, Obj.C]; omega
  rw [unknown_iff _ _ _ ho]
  unfold multipliable destMatch
  simp [a, ho, Obj.R, Obj.C, Obj.rows, Obj.cols, Obj.isMtx]

/-- What remains true then: the destination has the right dimensions. -/
theorem C98_dest (d a b : Obj) (hd : d.Wf) (ha : a.Wf) (hb : b.Wf) (h : mulAcc d a b = .runs) :
    (d.rows .row = a.rows .row ∧ d.cols .row = b.cols .col) ∨
      (d.rows .col = a.rows .row ∧ d.cols .col = b.cols .col) := by
  by_cases ho : mulOrient a b d = .unknown
  · exact ((unknown_iff d a b ho).1 h).2.2
  · have hm : a.isMtx = true ∨ b.isMtx = true := by
      by_contra hc
      have : multipliable a b = false := by
        unfold multipliable
        rw [not_or, Bool.not_eq_true, Bool.not_eq_true] at hc
        rw [hc.1, hc.2]; rfl
      unfold mulAcc at h
      rw [this] at h
      exact absurd h (by simp)
    exact ((C98_mul_partial d a b hd ha hb hm ho).1 h).2

/-- **C98.** `mul(into, a, b)` of matrices whose types agree in which dimensions are dynamic (all fixed, or
all dynamic, for instance) runs exactly if the dimensions conform. -/
theorem C98_mul_into (R C r c R' C' r' c' R'' C'' r'' c'' : ℕ) (hd : (Obj.mtx R C r c).Wf) (ha : (Obj.mtx R' C' r' c').Wf)
    (hb : (Obj.mtx R'' C'' r'' c'').Wf) (h1 : R = 0 ↔ R' = 0) (h2 : C = 0 ↔ C'' = 0) :
    mulInto (.mtx R C r c) (.mtx R' C' r' c') (.mtx R'' C'' r'' c'') = .runs ↔
      c' = r'' ∧ r = r' ∧ c = c'' := by
  have e : mulInto (.mtx R C r c) (.mtx R' C' r' c') (.mtx R'' C'' r'' c'') =
    mulAcc (.mtx R C r c) (.mtx R' C' r' c') (.mtx R'' C'' r'' c'') := rfl
  rw [e]
  by_cases ho : mulOrient (.mtx R' C' r' c') (.mtx R'' C'' r'' c'') (.mtx R C r c) = .unknown
  · rw [unknown_iff _ _ _ ho]
    unfold destMatch
    rw [ho]
    unfold mulOrient at ho
    have hne : ¬ (R' = R ∧ C'' = C) := by
      intro hc
      rw [if_pos (show Obj.R (.mtx R' C' r' c') .row = Obj.R (.mtx R C r c) .col ∧
        Obj.C (.mtx R'' C'' r'' c'') .col = Obj.C (.mtx R C r c) .col from hc)] at ho
      exact absurd ho (by simp)
    simp only [Bool.and_eq_true, Bool.or_eq_true, decide_eq_true_eq, Nat.mul_eq_zero, Obj.R, Obj.C, Obj.rows, Obj.cols,
      Obj.Wf] at *
    omega
  · rw [C98_mul_partial _ _ _ hd ha hb (Or.inl rfl) ho]
    unfold Conform
    simp only [Obj.rows, Obj.cols, or_self]

/-- **C98.** `mul(into, a, b)` of matrices fails to compile exactly if two dimensions that have to agree are
both known at compile time and differ. -/
theorem C98_rejected (R C r c R' C' r' c' R'' C'' r'' c'' : ℕ) :
    mulInto (.mtx R C r c) (.mtx R' C' r' c') (.mtx R'' C'' r'' c'') = .rejected ↔
      (C' ≠ R'' ∧ C' ≠ 0 ∧ R'' ≠ 0) ∨ (R ≠ R' ∧ R ≠ 0 ∧ R' ≠ 0) ∨ (C ≠ C'' ∧ C ≠ 0 ∧ C'' ≠ 0) := by
  have e : mulInto (.mtx R C r c) (.mtx R' C' r' c') (.mtx R'' C'' r'' c'') = .rejected ↔
      ¬ (multipliable (.mtx R' C' r' c') (.mtx R'' C'' r'' c'') = true ∧
        destMatch (.mtx R' C' r' c') (.mtx R'' C'' r'' c'') (.mtx R C r c) = true) := by
    have : mulInto (.mtx R C r c) (.mtx R' C' r' c') (.mtx R'' C'' r'' c'') =
      mulAcc (.mtx R C r c) (.mtx R' C' r' c') (.mtx R'' C'' r'' c'') := rfl
    rw [this]
    unfold mulAcc
    generalize multipliable (.mtx R' C' r' c') (.mtx R'' C'' r'' c'') = x
    generalize destMatch (.mtx R' C' r' c') (.mtx R'' C'' r'' c'') (.mtx R C r c) = y
    have h1 : ∀ a b d, unknownChecks a b d ≠ .rejected := by
      intro a b d; unfold unknownChecks; split_ifs <;> simp
    have h2 : ∀ a b d, matchChecks a b d ≠ .rejected := by
      intro a b d; unfold matchChecks; simp only; split_ifs <;> simp
    cases x <;> cases y
    · simp
    · simp
    · simp
    · simp only [Bool.and_self, Bool.not_true, Bool.false_eq_true, if_false, not_true_eq_false, and_self,
        iff_false]
      split_ifs
      · exact h1 _ _ _
      · exact h2 _ _ _
  rw [e]
  unfold multipliable destMatch
  simp only [Bool.and_eq_true, Bool.or_eq_true, decide_eq_true_eq, Nat.mul_eq_zero]
  simp only [Obj.R, Obj.C, Obj.isMtx, or_self, true_and]
  omega

theorem check_iff (a b : Mx) (ha : a.Wf) (hb : b.Wf) (k : Out) :
    check a b k = .runs ↔ (a.r = b.r ∧ a.c = b.c) ∧ k = .runs := by
  have e : isMatch a b = true ↔ a.r = b.r ∧ a.c = b.c := by
    unfold isMatch
    by_cases hs : staticMatch a b = true
    · rw [if_pos hs]
      unfold staticMatch at hs
      unfold Mx.Wf at *
      simp only [Bool.and_eq_true, Bool.or_eq_true, decide_eq_true_eq, Nat.mul_eq_zero, Bool.not_eq_true',
        Bool.or_eq_false_iff, Bool.and_eq_false_iff, decide_eq_false_iff_not] at *
      omega
    · rw [if_neg hs]
      unfold staticMatch at hs
      unfold Mx.Wf at *
      simp only [Bool.and_eq_true, Bool.or_eq_true, decide_eq_true_eq, Nat.mul_eq_zero, Bool.false_eq_true, false_iff] at *
      omega
  unfold check
  by_cases h : isMatch a b = true
  · rw [if_pos h]; simp [e.1 h]
  · rw [if_neg h]
    constructor
    · intro hc; exact absurd hc (by simp)
    · intro hc; exact absurd (e.2 hc.1) h

theorem static_of (a b : Mx) (ha : a.Wf) (hb : b.Wf) (h : a.r = b.r ∧ a.c = b.c) : staticMatch a b = true := by
  unfold staticMatch
  unfold Mx.Wf at *
  simp only [Bool.and_eq_true, Bool.or_eq_true, decide_eq_true_eq, Nat.mul_eq_zero] at *
  omega

/-- **C98.** Sums, differences and multiples run exactly if all dimensions are the same. -/
theorem C98_elementwise (d a b : Mx) (hd : d.Wf) (ha : a.Wf) (hb : b.Wf) :
    (addInto d a b = .runs ↔ (a.r = b.r ∧ a.c = b.c) ∧ d.r = a.r ∧ d.c = a.c) ∧
    (addNew a b = .runs ↔ a.r = b.r ∧ a.c = b.c) ∧
    (scaleInto d a = .runs ↔ d.r = a.r ∧ d.c = a.c) := by
  refine ⟨?_, ?_, ?_⟩
  · unfold addInto
    by_cases h : (staticMatch a b && staticMatch a d) = true
    · rw [if_pos h, check_iff a b ha hb, check_iff d a hd ha]; simp
    · rw [if_neg h]
      constructor
      · intro hc; exact absurd hc (by simp)
      · rintro ⟨h1, h2⟩
        exact absurd (by rw [static_of a b ha hb h1, static_of a d ha hd ⟨h2.1.symm, h2.2.symm⟩]; rfl) h
  · unfold addNew
    by_cases h : staticMatch a b = true
    · rw [if_pos h, check_iff a b ha hb]; simp
    · rw [if_neg h]
      constructor
      · intro hc; exact absurd hc (by simp)
      · intro h1; exact absurd (static_of a b ha hb h1) h
  · unfold scaleInto
    by_cases h : staticMatch a d = true
    · rw [if_pos h, check_iff a d ha hd]; simp [eq_comm]
    · rw [if_neg h]
      constructor
      · intro hc; exact absurd hc (by simp)
      · intro h1; exact absurd (static_of a d ha hd ⟨h1.1.symm, h1.2.symm⟩) h

theorem two_iff (q : Prop) [Decidable q] (c : Bool) :
    (if (!c) = true then Out.rejected else if q then .throws else .runs) = .runs ↔ c = true ∧ ¬ q := by
  cases c <;> by_cases hq : q <;> simp [hq]

/-- **C98.** `transpose` runs exactly if the destination has the exchanged dimensions; two matrices of the
same type may also be one square matrix. -/
theorem C98_transpose (d m : Mx) (hd : d.Wf) (hm : m.Wf) :
    (transposeInto d m = .runs ↔ d.r = m.c ∧ d.c = m.r) ∧
    (∀ same, d.R = m.R → d.C = m.C → (same = true → d = m) → (transposeSame same d m = .runs ↔ d.r = m.c ∧ d.c = m.r)) := by
  constructor
  · unfold transposeInto
    rw [two_iff]
    unfold Mx.Wf at *
    simp only [Bool.and_eq_true, Bool.or_eq_true, decide_eq_true_eq, Nat.mul_eq_zero]
    omega
  · intro same hR hC hs
    unfold transposeSame
    by_cases hc : m.R * m.C = 0 ∨ m.R = m.C
    · rw [if_neg (by rcases hc with h | h <;> simp [h])]
      by_cases h1 : same = true ∧ (0 < m.R * m.C ∨ m.r = m.c)
      · rw [if_pos h1]
        have e := hs h1.1
        subst e
        simp only [true_iff]
        rcases h1.2 with h2 | h2
        · have h3 := Nat.pos_of_mul_pos_right h2
          have h4 := Nat.pos_of_mul_pos_left h2
          unfold Mx.Wf at *
          rw [Nat.mul_eq_zero] at hc
          omega
        · exact ⟨h2, h2.symm⟩
      · rw [if_neg h1]
        by_cases h2 : m.R * m.C = 0 ∧ (m.r ≠ d.c ∨ m.c ≠ d.r)
        · rw [if_pos h2]
          simp only [reduceCtorEq, false_iff]
          omega
        · rw [if_neg h2]
          simp only [true_iff]
          unfold Mx.Wf at *
          rw [Nat.mul_eq_zero] at hc h2
          omega
    · rw [if_pos (by simpa using hc)]
      unfold Mx.Wf at *
      rw [Nat.mul_eq_zero] at hc
      simp only [reduceCtorEq, false_iff]
      omega

/-- **C98.** `inv` runs exactly on square matrices, with a destination of the same dimensions. -/
theorem C98_inv (d m : Mx) (hd : d.Wf) (hm : m.Wf) :
    (invInto d m = .runs ↔ m.r = m.c ∧ d.r = m.r ∧ d.c = m.c) ∧ (invNew m = .runs ↔ m.r = m.c) := by
  constructor
  · unfold invInto
    by_cases h : (staticMatch d m && (decide (m.R = m.C) || decide (m.R * m.C = 0))) = true
    · rw [if_neg (by rw [h]; simp)]
      have h2 := (Bool.and_eq_true _ _ ▸ h : _ ∧ _).2
      simp only [Bool.or_eq_true, decide_eq_true_eq, Nat.mul_eq_zero] at h2
      by_cases h3 : m.R * m.C = 0 ∧ m.r ≠ m.c
      · rw [if_pos h3]
        simp only [reduceCtorEq, false_iff]
        intro hc; exact h3.2 hc.1
      · rw [if_neg h3, check_iff d m hd hm]
        unfold Mx.Wf at *
        rw [Nat.mul_eq_zero] at h3
        simp only [and_true]
        omega
    · rw [if_pos (by rw [Bool.eq_false_iff.2 h]; rfl)]
      simp only [reduceCtorEq, false_iff]
      rintro ⟨h1, h2⟩
      apply h
      rw [static_of d m hd hm h2, Bool.true_and]
      unfold Mx.Wf at *
      simp only [Bool.or_eq_true, decide_eq_true_eq, Nat.mul_eq_zero]
      omega
  · unfold invNew
    rw [two_iff]
    unfold Mx.Wf at *
    simp only [Bool.or_eq_true, decide_eq_true_eq, Nat.mul_eq_zero]
    omega

/-- **C98.** `mtxcopy` runs exactly if the dimensions are the same; a vector of at least two elements is
copied from and to a row or a column of as many elements. -/
theorem C98_copy (d s : Mx) (hd : d.Wf) (hs : s.Wf) (n : ℕ) (hn : 2 ≤ n) :
    (copyMtx d s = .runs ↔ d.r = s.r ∧ d.c = s.c) ∧
    (copyVec n s = .runs ↔ (s.r = n ∧ s.c = 1) ∨ (s.r = 1 ∧ s.c = n)) := by
  constructor
  · unfold copyMtx
    rw [two_iff]
    unfold staticMatch
    unfold Mx.Wf at *
    simp only [Bool.and_eq_true, Bool.or_eq_true, decide_eq_true_eq, Nat.mul_eq_zero]
    omega
  · have e1 : orients true n s.R s.C = true ↔ (n = s.R ∨ s.R = 0) ∧ (s.C = 1 ∨ s.C = 0) ∧ ¬ (s.C = 0 ∧ s.R = 0) := by
      simp [orients, and_assoc]; omega
    have e2 : orients false n s.R s.C = true ↔ (n = s.C ∨ s.C = 0) ∧ (s.R = 1 ∨ s.R = 0) ∧ ¬ (s.C = 0 ∧ s.R = 0) := by
      simp [orients, and_assoc]; omega
    unfold Mx.Wf at *
    unfold copyVec
    by_cases h1 : orients true n s.R s.C = true
    · have h2 : ¬ orients false n s.R s.C = true := by rw [e2]; rw [e1] at h1; omega
      have e : copyOrient n s.R s.C = some .col := by unfold copyOrient; rw [if_pos h1, if_neg h2]
      rw [e]
      show (if _ then _ else _) = _ ↔ _
      rw [two_iff]
      rw [e1] at h1
      simp only [Bool.and_eq_true, Bool.or_eq_true, decide_eq_true_eq, Nat.mul_eq_zero]
      simp only [Obj.R, Obj.C, Obj.rows, Obj.cols]
      omega
    · by_cases h2 : orients false n s.R s.C = true
      · have e : copyOrient n s.R s.C = some .row := by unfold copyOrient; rw [if_neg h1, if_pos h2]
        rw [e]
        show (if _ then _ else _) = _ ↔ _
        rw [two_iff]
        rw [e2] at h2
        simp only [Bool.and_eq_true, Bool.or_eq_true, decide_eq_true_eq, Nat.mul_eq_zero]
        simp only [Obj.R, Obj.C, Obj.rows, Obj.cols]
        omega
      · have e : copyOrient n s.R s.C = some .unknown := by unfold copyOrient; rw [if_neg h1, if_neg h2]
        rw [e]
        show (if _ then _ else _) = _ ↔ _
        by_cases h3 : (n = s.r ∧ 1 = s.c) ∨ (1 = s.r ∧ n = s.c)
        · rw [if_pos h3]; simp only [true_iff]; omega
        · rw [if_neg h3]; simp only [reduceCtorEq, false_iff]; omega

/-- **C98.** Matrices of different dimensions are never equal, and are compared without an exception. -/
theorem C98_equal (a b : Mx) (ha : a.Wf) (hb : b.Wf) (e : Bool) :
    equal a b e = true ↔ (a.r = b.r ∧ a.c = b.c) ∧ e = true := by
  have h := check_iff a b ha hb (if e then .runs else .throws)
  have h' : check a b (if e then .runs else .throws) = .runs ↔ equal a b e = true := by
    have hm : isMatch a b = true → staticMatch a b = true := by
      unfold isMatch; cases staticMatch a b <;> simp
    unfold check equal
    revert hm
    cases isMatch a b <;> cases staticMatch a b <;> cases e <;> simp
  rw [← h', h]
  cases e <;> simp

/-- **C98, refuted** for `m *= d`: nothing compares the columns of the product with those of `m`, where it is
written.  Any number of columns of the diagonal matrix runs. -/
theorem C98_diag_refuted (r c n : ℕ) :
    mulDiagAssign ⟨0, 0, r, c⟩ ⟨0, 0, c, n⟩ = .runs := by
  unfold mulDiagAssign
  simp

/-- `m *= d` compares the inner dimensions. -/
theorem C98_diag_partial (m d : Mx) (hm : m.Wf) (hd : d.Wf) : mulDiagAssign m d = .runs ↔ m.c = d.r := by
  unfold mulDiagAssign
  rw [two_iff]
  unfold Mx.Wf at *
  simp only [Bool.or_eq_true, decide_eq_true_eq]
  omega

/-- **C98, refuted** for conversions: a matrix of fixed dimensions is made from a dynamic matrix of any
dimensions, without an exception; its dimensions are its own. -/
theorem C98_convert_refuted (R C r c : ℕ) (hR : 0 < R) (hC : 0 < C) :
    convert R C ⟨0, 0, r, c⟩ = some ⟨R, C, R, C⟩ := by
  unfold convert staticMatch
  simp
  omega

/-- Conversions keep the dimensions if they agree with those of the new type, and to dynamic types. -/
theorem C98_convert_partial (R C : ℕ) (m : Mx) (hm : m.Wf) (hR : R = 0 ∨ R = m.r) (hC : C = 0 ∨ C = m.c) :
    convert R C m = some ⟨R, C, m.r, m.c⟩ := by
  unfold convert
  rw [if_pos]
  · rcases hR with h | h <;> rcases hC with h' | h' <;> simp [h, h']
    all_goals first | omega | (intro hz; omega) | (constructor <;> intro hz <;> omega)
  · unfold staticMatch
    unfold Mx.Wf at *
    simp only [Bool.and_eq_true, Bool.or_eq_true, decide_eq_true_eq, Nat.mul_eq_zero]
    omega

/-- Dynamic 2x3 times 3x4 into 2x4; with a 5 for a 3 it throws; 2x3 fixed times 5x4 does not compile; a
fixed 2x3 times dynamic 3x4 into a dynamic 2x5 throws. -/
example : mulInto (.mtx 0 0 2 4) (.mtx 0 0 2 3) (.mtx 0 0 3 4) = .runs ∧
    mulInto (.mtx 0 0 2 4) (.mtx 0 0 2 3) (.mtx 0 0 5 4) = .throws ∧
    mulInto (.mtx 2 4 2 4) (.mtx 2 3 2 3) (.mtx 5 4 5 4) = .rejected ∧
    mulInto (.mtx 0 0 2 5) (.mtx 2 3 2 3) (.mtx 0 0 3 4) = .throws ∧
    mulAcc (.vec 2) (.mtx 2 3 2 3) (.vec 3) = .runs ∧ mulInto (.vec 2) (.mtx 2 3 2 3) (.vec 3) = .rejected ∧
    copyVec 3 ⟨0, 0, 1, 3⟩ = .runs ∧ copyVec 3 ⟨0, 0, 3, 3⟩ = .throws ∧ copyVec 3 ⟨4, 1, 4, 1⟩ = .throws := by decide

end Geomc.Dims
