import Mathlib.Algebra.BigOperators.Group.List.Basic
import Mathlib.Data.List.Nodup
import Mathlib.Tactic.Linarith
import Mathlib.Tactic.Ring
import Mathlib.Tactic.FieldSimp
import Mathlib.Tactic.FinCases
import Mathlib.Tactic.NormNum
import Mathlib.Data.Fin.VecNotation
import Verif.Bins.Model

/-!
# C60: queries of a bin lattice
-/

namespace Geomc.Bins

variable {n : ℕ}

/-! ## The cells inspected -/

section Cells
variable (lo hi : Fin n → ℤ)

/-- The extent of the block along an axis. -/
def ext (i : Fin n) : ℤ := max (hi i - lo i) 1

/-- A cell of the block along some axes. -/
def InB (as : List (Fin n)) (x : Fin n → ℤ) : Prop := ∀ a ∈ as, lo a ≤ x a ∧ x a < lo a + ext lo hi a

def rank : List (Fin n) → (Fin n → ℤ) → ℤ
  | [], _ => 0
  | a :: as, x => (x a - lo a) + ext lo hi a * rank as x

theorem ext_pos (i : Fin n) : 0 < ext lo hi i := lt_of_lt_of_le one_pos (le_max_right _ _)

variable {lo hi}

theorem rank_congr (as : List (Fin n)) (x y : Fin n → ℤ) (h : ∀ a ∈ as, x a = y a) : rank lo hi as x = rank lo hi as y := by
  induction as with
  | nil => rfl
  | cons a as ih => rw [rank, rank, h a (by simp), ih fun b hb => h b (by simp [hb])]

theorem rank_nonneg (as : List (Fin n)) (x : Fin n → ℤ) (h : InB lo hi as x) : 0 ≤ rank lo hi as x := by
  induction as with
  | nil => exact le_refl _
  | cons a as ih =>
    have h1 := h a (by simp)
    have h2 := ih fun b hb => h b (by simp [hb])
    have h3 := ext_pos lo hi a
    rw [rank]
    have := mul_nonneg h3.le h2
    linarith [h1.1]

theorem rank_lt (as : List (Fin n)) (x : Fin n → ℤ) (h : InB lo hi as x) :
    rank lo hi as x < (as.map fun i => ext lo hi i).prod := by
  induction as with
  | nil => simp [rank]
  | cons a as ih =>
    have h1 := h a (by simp)
    have h2 := ih fun b hb => h b (by simp [hb])
    have h3 := ext_pos lo hi a
    rw [rank, List.map_cons, List.prod_cons]
    have : ext lo hi a * (rank lo hi as x + 1) ≤ ext lo hi a * (as.map fun i => ext lo hi i).prod :=
      mul_le_mul_of_nonneg_left h2 h3.le
    linarith [h1.2]

theorem rank_inj (as : List (Fin n)) (x y : Fin n → ℤ) (hx : InB lo hi as x) (hy : InB lo hi as y)
    (h : rank lo hi as x = rank lo hi as y) : ∀ a ∈ as, x a = y a := by
  induction as with
  | nil => simp
  | cons a as ih =>
    have hx1 := hx a (by simp)
    have hy1 := hy a (by simp)
    have h3 := ext_pos lo hi a
    rw [rank, rank] at h
    have e1 : x a - lo a = y a - lo a := by
      have := congrArg (· % ext lo hi a) h
      simp only [Int.add_mul_emod_self_left] at this
      rwa [Int.emod_eq_of_lt (by linarith [hx1.1]) (by linarith [hx1.2]),
        Int.emod_eq_of_lt (by linarith [hy1.1]) (by linarith [hy1.2])] at this
    have e2 : rank lo hi as x = rank lo hi as y := by
      rw [e1] at h
      exact mul_left_cancel₀ h3.ne' (add_left_cancel h)
    intro b hb
    rcases List.mem_cons.1 hb with rfl | hb
    · linarith
    · exact ih (fun b hb => hx b (by simp [hb])) (fun b hb => hy b (by simp [hb])) e2 b hb

theorem nextCell_spec (as : List (Fin n)) (hnd : as.Nodup) (x : Fin n → ℤ) (hx : InB lo hi as x) :
    (nextCell lo hi as x = none → ∀ a ∈ as, x a = lo a + ext lo hi a - 1) ∧
    ∀ y, nextCell lo hi as x = some y →
      InB lo hi as y ∧ rank lo hi as y = rank lo hi as x + 1 ∧ ∀ b, b ∉ as → y b = x b := by
  induction as generalizing x with
  | nil => exact ⟨by simp, fun y h => by cases h⟩
  | cons a as ih =>
    rw [List.nodup_cons] at hnd
    have hxa := hx a (by simp)
    have h3 := ext_pos lo hi a
    have hne : ∀ b ∈ as, b ≠ a := fun b hb e => hnd.1 (e ▸ hb)
    rw [nextCell]
    by_cases hr : hi a ≤ x a + 1
    · rw [if_pos hr]
      have hmax : x a = lo a + ext lo hi a - 1 := by
        unfold ext at hxa ⊢
        rcases max_cases (hi a - lo a) 1 with ⟨e, _⟩ | ⟨e, _⟩ <;> rw [e] at hxa ⊢ <;> omega
      have hx' : InB lo hi as (Function.update x a (lo a)) := by
        intro b hb
        rw [Function.update_of_ne (hne b hb)]
        exact hx b (by simp [hb])
      obtain ⟨i1, i2⟩ := ih hnd.2 _ hx'
      constructor
      · intro h b hb
        rcases List.mem_cons.1 hb with rfl | hb
        · exact hmax
        · have := i1 h b hb
          rwa [Function.update_of_ne (hne b hb)] at this
      · intro y hy
        obtain ⟨j1, j2, j3⟩ := i2 y hy
        have hya : y a = lo a := by rw [j3 a hnd.1, Function.update_self]
        refine ⟨?_, ?_, ?_⟩
        · intro b hb
          rcases List.mem_cons.1 hb with rfl | hb
          · rw [hya]
            exact ⟨le_refl _, by linarith⟩
          · exact j1 b hb
        · rw [rank, rank, j2, hya, hmax, rank_congr as (Function.update x a (lo a)) x
            fun b hb => Function.update_of_ne (hne b hb) _ _]
          ring
        · intro b hb
          rw [List.mem_cons, not_or] at hb
          rw [j3 b hb.2, Function.update_of_ne hb.1]
    · rw [if_neg hr]
      refine ⟨fun h => absurd h (by simp), ?_⟩
      intro y hy
      cases hy
      refine ⟨?_, ?_, ?_⟩
      · intro b hb
        by_cases hba : b = a
        · subst hba
          rw [Function.update_self]
          refine ⟨by linarith [hxa.1], ?_⟩
          have : hi b - lo b ≤ ext lo hi b := le_max_left _ _
          omega
        · rw [Function.update_of_ne hba]
          exact hx b hb
      · rw [rank, rank, Function.update_self, rank_congr as (Function.update x a (x a + 1)) x
          fun b hb => Function.update_of_ne (hne b hb) _ _]
        ring
      · intro b hb
        rw [List.mem_cons, not_or] at hb
        exact Function.update_of_ne hb.1 _ _

theorem inspect_spec (f : ℕ) (x : Fin n → ℤ) (hx : InB lo hi (List.finRange n) x)
    (hf : ((List.finRange n).map fun i => ext lo hi i).prod ≤ rank lo hi (List.finRange n) x + 1 + f) :
    (inspect lo hi f x).Nodup ∧ ∀ y, y ∈ inspect lo hi f x ↔
      InB lo hi (List.finRange n) y ∧ rank lo hi (List.finRange n) x ≤ rank lo hi (List.finRange n) y := by
  have hsing : ∀ x : Fin n → ℤ, InB lo hi (List.finRange n) x →
      ((List.finRange n).map fun i => ext lo hi i).prod ≤ rank lo hi (List.finRange n) x + 1 →
      [x].Nodup ∧ ∀ y, y ∈ [x] ↔
        InB lo hi (List.finRange n) y ∧ rank lo hi (List.finRange n) x ≤ rank lo hi (List.finRange n) y := by
    intro x hx hm
    refine ⟨by simp, fun y => ?_⟩
    rw [List.mem_singleton]
    constructor
    · rintro rfl
      exact ⟨hx, le_refl _⟩
    · rintro ⟨hy, hle⟩
      have h1 := rank_lt _ y hy
      ext i
      exact rank_inj _ y x hy hx (by omega) i (List.mem_finRange i)
  induction f generalizing x with
  | zero =>
    rw [inspect]
    exact hsing x hx (by simpa using hf)
  | succ f ih =>
    obtain ⟨h1, h2⟩ := nextCell_spec (List.finRange n) (List.nodup_finRange n) x hx
    rw [inspect]
    rcases e : nextCell lo hi (List.finRange n) x with _ | y
    · refine hsing x hx ?_
      have hmax := h1 e
      have : ∀ as : List (Fin n), (∀ a ∈ as, x a = lo a + ext lo hi a - 1) →
          (as.map fun i => ext lo hi i).prod ≤ rank lo hi as x + 1 := by
        intro as
        induction as with
        | nil => simp [rank]
        | cons a as ih =>
          intro h
          rw [List.map_cons, List.prod_cons, rank, h a (by simp)]
          have := mul_le_mul_of_nonneg_left (ih fun b hb => h b (by simp [hb])) (ext_pos lo hi a).le
          linarith
      exact this _ hmax
    · obtain ⟨j1, j2, -⟩ := h2 y e
      obtain ⟨k1, k2⟩ := ih y j1 (by rw [j2]; push_cast at hf; linarith)
      show (x :: inspect lo hi f y).Nodup ∧ ∀ z, z ∈ x :: inspect lo hi f y ↔ _
      refine ⟨List.nodup_cons.2 ⟨fun hm => ?_, k1⟩, fun z => ?_⟩
      · have := ((k2 x).1 hm).2
        omega
      · rw [List.mem_cons, k2, j2]
        constructor
        · rintro (rfl | ⟨hz, hle⟩)
          · exact ⟨hx, le_refl _⟩
          · exact ⟨hz, by omega⟩
        · rintro ⟨hz, hle⟩
          rcases hle.eq_or_lt with he | hlt
          · left
            ext i
            exact rank_inj _ z x hz hx he.symm i (List.mem_finRange i)
          · exact .inr ⟨hz, hlt⟩

/-- **C60**: a query inspects each cell of its block once, and no other.  An axis along which the block has no cells is taken to
have one. -/
theorem C60_cells (lo hi : Fin n → ℤ) : (inspect lo hi (numCells lo hi) lo).Nodup ∧
    ∀ y, y ∈ inspect lo hi (numCells lo hi) lo ↔ ∀ i, lo i ≤ y i ∧ y i < max (hi i) (lo i + 1) := by
  have hlo : InB lo hi (List.finRange n) lo := fun a _ => ⟨le_refl _, by linarith [ext_pos lo hi a]⟩
  have hp : ((numCells lo hi : ℕ) : ℤ) = ((List.finRange n).map fun i => ext lo hi i).prod := by
    have h0 := (rank_nonneg _ lo hlo).trans_lt (rank_lt _ lo hlo)
    rw [numCells]
    exact Int.toNat_of_nonneg h0.le
  have hr0 : rank lo hi (List.finRange n) lo = 0 := by
    have : ∀ as : List (Fin n), rank lo hi as lo = 0 := by
      intro as
      induction as with
      | nil => rfl
      | cons a as ih => rw [rank, ih]; ring
    exact this _
  obtain ⟨h1, h2⟩ := inspect_spec (numCells lo hi) lo hlo (by rw [hp, hr0]; linarith)
  refine ⟨h1, fun y => (h2 y).trans ?_⟩
  rw [hr0]
  have hext : ∀ i, lo i + ext lo hi i = max (hi i) (lo i + 1) := by
    intro i
    unfold ext
    rcases max_cases (hi i - lo i) 1 with ⟨e, _⟩ | ⟨e, _⟩ <;> rcases max_cases (hi i) (lo i + 1) with ⟨e', _⟩ | ⟨e', _⟩ <;>
      rw [e, e'] <;> omega
  constructor
  · rintro ⟨h, -⟩ i
    rw [← hext]
    exact h i (List.mem_finRange i)
  · intro h
    have : InB lo hi (List.finRange n) y := fun i _ => by rw [hext]; exact h i
    exact ⟨this, rank_nonneg _ _ this⟩

end Cells

/-! ## The items found -/

variable {K : Type} [Field K] [LinearOrder K] [IsStrictOrderedRing K] [FloorRing K] {O : Type}

/-- Each item is in the bin of its location. -/
def Lattice.Ok (l : Lattice O K n) : Prop := ∀ e ∈ l.cells, e.1 = l.binOf e.2.1

/-- **C60**: this holds however the lattice is made. -/
theorem C60_ok (c : K) : (Lattice.empty c : Lattice O K n).Ok ∧
    ∀ l : Lattice O K n, l.Ok → (∀ x o, (l.insert x o).Ok) ∧ (∀ k, (l.erase k).Ok) ∧ l.clear.Ok := by
  refine ⟨by simp [Lattice.Ok, Lattice.empty], fun l hl => ⟨fun x o => ?_, fun k => ?_, by simp [Lattice.Ok, Lattice.clear]⟩⟩
  · intro e he
    rcases List.mem_cons.1 he with rfl | he
    · rfl
    · exact hl e he
  · intro e he
    exact hl e (List.mem_of_mem_eraseIdx he)

/-- The items of the lattice. -/
def Lattice.all (l : Lattice O K n) : List ((Fin n → K) × O) := l.cells.map Prod.snd

theorem filter_flatMap {A B : Type} [DecidableEq A] (cs : List A) (hcs : cs.Nodup) (l : List (A × B)) :
    (cs.flatMap fun c => (l.filter fun e => e.1 = c).map Prod.snd).Perm ((l.filter fun e => e.1 ∈ cs).map Prod.snd) := by
  induction cs with
  | nil => simp
  | cons c cs ih =>
    rw [List.nodup_cons] at hcs
    rw [List.flatMap_cons]
    refine (List.Perm.append_left _ (ih hcs.2)).trans ?_
    rw [← List.map_append]
    refine List.Perm.map _ ?_
    clear ih
    simp only [List.mem_cons]
    induction l with
    | nil => simp
    | cons e l ih =>
      by_cases h1 : e.1 = c
      · have h2 : e.1 ∉ cs := h1 ▸ hcs.1
        simp only [List.filter_cons, h1, hcs.1, decide_true, decide_false, if_true, true_or, Bool.false_eq_true, if_false,
          List.cons_append]
        exact ih.cons e
      · by_cases h2 : e.1 ∈ cs
        · simp only [List.filter_cons, h1, h2, decide_true, decide_false, if_true, or_true, Bool.false_eq_true, if_false]
          exact List.perm_middle.trans (ih.cons e)
        · simp only [List.filter_cons, h1, h2, decide_false, or_false, Bool.false_eq_true, if_false]
          exact ih

/-- **C60**: what a query finds: each item once whose bin is in the block, and no others. -/
theorem C60_query (l : Lattice O K n) (hl : l.Ok) (pt : Fin n → K) (r : K) :
    (l.query pt r).Perm (l.all.filter fun e => decide (∀ i, ⌊(pt i - r) / l.cellsize⌋ ≤ ⌊e.1 i / l.cellsize⌋ ∧
      ⌊e.1 i / l.cellsize⌋ < max ⌈(pt i + r) / l.cellsize⌉ (⌊(pt i - r) / l.cellsize⌋ + 1))) := by
  obtain ⟨h1, h2⟩ := C60_cells (fun i => ⌊(pt i - r) / l.cellsize⌋) (fun i => ⌈(pt i + r) / l.cellsize⌉)
  refine (filter_flatMap _ h1 l.cells).trans ?_
  rw [Lattice.all, List.filter_map]
  apply List.Perm.of_eq
  congr 1
  apply List.filter_congr
  intro e he
  rw [Function.comp_apply, decide_eq_decide, h2, hl e he]
  rfl

/-- **C60**: every item in the region is found, unless it is on an upper face of the region, and the face is between two cells. -/
theorem C60_found (l : Lattice O K n) (hl : l.Ok) (hc : 0 < l.cellsize) (pt : Fin n → K) (r : K) (e : (Fin n → K) × O)
    (he : e ∈ l.all) (hx : ∀ i, pt i - r ≤ e.1 i ∧ e.1 i ≤ pt i + r ∧
      (e.1 i = pt i + r → r = 0 ∨ ∀ k : ℤ, (k : K) * l.cellsize ≠ pt i + r)) : e ∈ l.query pt r := by
  rw [(C60_query l hl pt r).mem_iff, List.mem_filter]
  refine ⟨he, ?_⟩
  rw [decide_eq_true_eq]
  intro i
  obtain ⟨h1, h2, h3⟩ := hx i
  have hlo : ⌊(pt i - r) / l.cellsize⌋ ≤ ⌊e.1 i / l.cellsize⌋ := Int.floor_le_floor (div_le_div_of_nonneg_right h1 hc.le)
  refine ⟨hlo, ?_⟩
  rcases h2.eq_or_lt with h | h
  · rcases h3 h with rfl | hk
    · rw [add_zero] at h
      rw [sub_zero, h]
      exact lt_max_of_lt_right (lt_add_one _)
    · apply lt_max_of_lt_left
      rw [h, Int.floor_lt]
      refine lt_of_le_of_ne (Int.le_ceil _) fun e' => hk ⌈(pt i + r) / l.cellsize⌉ ?_
      rw [← e', div_mul_cancel₀ _ hc.ne']
  · apply lt_max_of_lt_left
    rw [Int.floor_lt]
    exact (div_lt_div_of_pos_right h hc).trans_le (Int.le_ceil _)

/-- **C60**: everything found is less than a cell away from the region. -/
theorem C60_near (l : Lattice O K n) (hl : l.Ok) (hc : 0 < l.cellsize) (pt : Fin n → K) (r : K) (hr : 0 ≤ r)
    (e : (Fin n → K) × O) (he : e ∈ l.query pt r) :
    e ∈ l.all ∧ ∀ i, pt i - r - l.cellsize < e.1 i ∧ e.1 i < pt i + r + l.cellsize := by
  rw [(C60_query l hl pt r).mem_iff, List.mem_filter, decide_eq_true_eq] at he
  refine ⟨he.1, fun i => ?_⟩
  obtain ⟨h1, h2⟩ := he.2 i
  constructor
  · have h3 : (pt i - r) / l.cellsize - 1 < ⌊(pt i - r) / l.cellsize⌋ := Int.sub_one_lt_floor _
    have h4 : ((⌊(pt i - r) / l.cellsize⌋ : ℤ) : K) ≤ e.1 i / l.cellsize := (Int.cast_le.2 h1).trans (Int.floor_le _)
    have h5 := h3.trans_le h4
    rw [lt_div_iff₀ hc, sub_mul, div_mul_cancel₀ _ hc.ne'] at h5
    linarith
  · have h3 : e.1 i / l.cellsize < ⌊e.1 i / l.cellsize⌋ + 1 := Int.lt_floor_add_one _
    have h4 : ((⌊e.1 i / l.cellsize⌋ : ℤ) : K) + 1 ≤ (pt i + r) / l.cellsize + 1 := by
      rcases lt_max_iff.1 h2 with h | h
      · have h6 : ((⌊e.1 i / l.cellsize⌋ + 1 : ℤ) : K) ≤ (⌈(pt i + r) / l.cellsize⌉ : ℤ) := Int.cast_le.2 h
        push_cast at h6
        linarith [Int.ceil_lt_add_one ((pt i + r) / l.cellsize)]
      · have h6 : ((⌊e.1 i / l.cellsize⌋ : ℤ) : K) ≤ (⌊(pt i - r) / l.cellsize⌋ : ℤ) := Int.cast_le.2 (Int.lt_add_one_iff.1 h)
        have h7 : (pt i - r) / l.cellsize ≤ (pt i + r) / l.cellsize := div_le_div_of_nonneg_right (by linarith) hc.le
        linarith [Int.floor_le ((pt i - r) / l.cellsize)]
    have h5 := h3.trans_le h4
    rw [div_lt_iff₀ hc, add_mul, div_mul_cancel₀ _ hc.ne'] at h5
    linarith

/-- **C60** is refuted on an upper face between two cells: no item there is found (if the region has an extent), though it is in the
region. -/
theorem C60_face_refuted (l : Lattice O K n) (hl : l.Ok) (hc : 0 < l.cellsize) (pt : Fin n → K) (r : K) (hr : 0 < r)
    (e : (Fin n → K) × O) (i : Fin n) (k : ℤ) (hk : (k : K) * l.cellsize = pt i + r) (hx : e.1 i = pt i + r) : e ∉ l.query pt r := by
  rw [(C60_query l hl pt r).mem_iff, List.mem_filter, decide_eq_true_eq]
  rintro ⟨-, h⟩
  obtain ⟨-, h⟩ := h i
  rw [hx, ← hk, mul_div_cancel_right₀ _ hc.ne', Int.floor_intCast, Int.ceil_intCast] at h
  rcases lt_max_iff.1 h with h | h
  · exact lt_irrefl _ h
  · have h1 : (k : K) ≤ (pt i - r) / l.cellsize := (Int.cast_le.2 (Int.lt_add_one_iff.1 h)).trans (Int.floor_le _)
    rw [le_div_iff₀ hc, hk] at h1
    linarith

def lat : Lattice ℕ ℚ 2 :=
  (((Lattice.empty 1).insert ![1/2, 3/2] 7).insert ![2, 1] 8).insert ![5, 5] 9

example : lat.query ![1, 1] 1 = [(![1/2, 3/2], 7)] := by decide +kernel
example : (![2, 1], 8) ∈ lat.query ![1, 1] (3/2) ∧ (![2, 1], 8) ∉ lat.query ![1, 1] 1 := by decide +kernel

theorem lat_ok : lat.Ok := by
  have h := C60_ok (n := 2) (O := ℕ) (1 : ℚ)
  exact (h.2 _ ((h.2 _ ((h.2 _ h.1).1 _ _)).1 _ _)).1 _ _

example : (![1/2, 3/2], 7) ∈ lat.query (![1, 1] : Fin 2 → ℚ) 1 := by
  refine C60_found lat lat_ok (by decide +kernel) _ _ _ (by decide +kernel) ?_
  intro i
  fin_cases i <;> norm_num

end Geomc.Bins
