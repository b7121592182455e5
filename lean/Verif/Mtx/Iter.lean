import Verif.Mtx.IterModel
import Mathlib.Tactic.Linarith
import Mathlib.Tactic.Ring
import Mathlib.Tactic.FinCases

/-! # C100: iterating over a matrix and over a region of it -/

namespace Geomc.MtxIter

open Geomc.Grid

theorem inc_carry (lo hi : Fin 2 → ℤ) (a b : ℤ) (h : hi 1 < b + 1) : increment false lo hi ![a, b] = ![a + 1, lo 1] := by
  have h1 : axes false 2 = [1, 0] := by decide
  have h2 : dimLast false 2 = 0 := by decide
  rw [increment, h1, h2]
  unfold incLoop
  simp only [Function.update_self]
  rw [if_pos (by simpa using h)]
  unfold incLoop
  simp only [incLoop]
  funext i
  fin_cases i <;> simp [Function.update]

theorem inc_plain (lo hi : Fin 2 → ℤ) (a b : ℤ) (h : b + 1 ≤ hi 1) : increment false lo hi ![a, b] = ![a, b + 1] := by
  have h1 : axes false 2 = [1, 0] := by decide
  have h2 : dimLast false 2 = 0 := by decide
  rw [increment, h1, h2]
  unfold incLoop
  simp only [Function.update_self]
  rw [if_neg (by simpa using h)]
  funext i
  fin_cases i <;> simp [Function.update]

/-- The `i`th position in row-major order of a region of `w` columns. -/
def at' (lo : Fin 2 → ℤ) (w : ℕ) (i : ℕ) : ℤ × ℤ := (lo 0 + ((i / w : ℕ) : ℤ), lo 1 + ((i % w : ℕ) : ℤ))

theorem step (lo hi : Fin 2 → ℤ) (w i : ℕ) (hw : 0 < w) (h : hi 1 = lo 1 + w - 1) :
    increment false lo hi ![(at' lo w i).1, (at' lo w i).2] = ![(at' lo w (i + 1)).1, (at' lo w (i + 1)).2] := by
  have hm := Nat.mod_lt i hw
  have hd := Nat.div_add_mod i w
  simp only [at']
  by_cases hc : i % w + 1 = w
  · have e : i + 1 = (i / w + 1) * w := by
      rw [Nat.add_mul, Nat.one_mul, Nat.mul_comm]; omega
    have e1 : (i + 1) / w = i / w + 1 := by rw [e, Nat.mul_div_cancel _ hw]
    have e2 : (i + 1) % w = 0 := by rw [e]; exact Nat.mul_mod_left _ _
    rw [inc_carry _ _ _ _ (by omega), e1, e2]
    push_cast
    simp [add_assoc]
  · have e : i + 1 = (i % w + 1) + w * (i / w) := by omega
    have e1 : (i + 1) / w = i / w := by
      rw [e, Nat.add_mul_div_left _ _ hw, Nat.div_eq_of_lt (by omega), Nat.zero_add]
    have e2 : (i + 1) % w = i % w + 1 := by
      rw [e, Nat.add_mul_mod_self_left, Nat.mod_eq_of_lt (by omega)]
    rw [inc_plain _ _ _ _ (by omega), e1, e2]
    push_cast
    simp [add_assoc]

theorem at_inj (lo : Fin 2 → ℤ) (w i j : ℕ) (h : at' lo w i = at' lo w j) : i = j := by
  simp only [at', Prod.mk.injEq] at h
  have h1 : i / w = j / w := by omega
  have h2 : i % w = j % w := by omega
  rw [← Nat.div_add_mod i w, ← Nat.div_add_mod j w, h1, h2]

theorem loop_from (lo hi : Fin 2 → ℤ) (w n : ℕ) (hw : 0 < w) (h : hi 1 = lo 1 + w - 1) (stop : It)
    (hs : stop.pt 0 = (at' lo w n).1 ∧ stop.pt 1 = (at' lo w n).2) (k : ℕ) :
    ∀ i, i + k = n → ∀ fuel, k < fuel →
      loop stop fuel ⟨lo, hi, ![(at' lo w i).1, (at' lo w i).2]⟩ = some ((List.range' i k).map (at' lo w)) := by
  induction k with
  | zero =>
    intro i hi' fuel hf
    obtain ⟨fuel, rfl⟩ : ∃ f, fuel = f + 1 := ⟨fuel - 1, by omega⟩
    have : i = n := by omega
    subst this
    simp [loop, It.eq, hs.1, hs.2]
  | succ k ih =>
    intro i hi' fuel hf
    obtain ⟨fuel, rfl⟩ : ∃ f, fuel = f + 1 := ⟨fuel - 1, by omega⟩
    have hne : ¬ ((at' lo w i).1 = stop.pt 0 ∧ (at' lo w i).2 = stop.pt 1) := by
      rintro ⟨a, b⟩
      have := at_inj lo w i n (Prod.ext (a.trans hs.1) (b.trans hs.2))
      omega
    have := ih (i + 1) (by omega) fuel (by omega)
    rw [← step lo hi w i hw h] at this
    simp only [loop, It.eq, It.next, Matrix.cons_val_zero, Matrix.cons_val_one, hne, decide_false, Bool.false_eq_true,
      if_false, this, Option.map_some, List.range'_succ, List.map_cons]

/-- The rows and columns of an `r x c` block in row-major order. -/
def rowMajor (lo : Fin 2 → ℤ) (r c : ℕ) : List (ℤ × ℤ) :=
  (List.range r).flatMap fun (i : ℕ) => (List.range c).map fun (j : ℕ) => (lo 0 + (i : ℤ), lo 1 + (j : ℤ))

theorem rowMajor_eq (lo : Fin 2 → ℤ) (r c : ℕ) (hc : 0 < c) : rowMajor lo r c = (List.range' 0 (r * c)).map (at' lo c) := by
  rw [← List.range_eq_range']
  induction r with
  | zero => simp [rowMajor]
  | succ r ih =>
    have e : rowMajor lo (r + 1) c = rowMajor lo r c ++ (List.range c).map fun (j : ℕ) => (lo 0 + (r : ℤ), lo 1 + (j : ℤ)) := by
      simp [rowMajor, List.range_succ, List.flatMap_append]
    rw [e, ih, Nat.add_mul, Nat.one_mul, List.range_add, List.map_append, List.map_map]
    congr 1
    refine List.map_congr_left fun j hj => ?_
    have hj := List.mem_range.1 hj
    simp only [Function.comp, at']
    rw [Nat.mul_comm, Nat.mul_add_div hc, Nat.div_eq_of_lt hj, Nat.mul_add_mod, Nat.mod_eq_of_lt hj, Nat.add_zero]

/-- **C100**: iterating from `begin()` to `end()` of a matrix visits its elements in row-major order, each once,
and stops; for all dimensions but no columns and some rows. -/
theorem C100_matrix_partial (rows cols : ℕ) (h : 0 < cols ∨ rows = 0) (fuel : ℕ) (hf : rows * cols < fuel) :
    loop (matEnd rows cols) fuel (matBegin rows cols) = some (rowMajor ![0, 0] rows cols) := by
  by_cases hr : rows = 0
  · subst hr
    obtain ⟨fuel, rfl⟩ : ∃ f, fuel = f + 1 := ⟨fuel - 1, by omega⟩
    simp [loop, matEnd, matBegin, It.eq, It.whole, rowMajor]
  · have hc : 0 < cols := by rcases h with h | h <;> omega
    have key := loop_from ![0, 0] ![(rows : ℤ) - 1, cols - 1] cols (rows * cols) hc (by simp) (matEnd rows cols)
      (by constructor
          · simp [matEnd, It.whole, at', Nat.mul_div_cancel _ hc]
          · simp [matEnd, It.whole, at']) (rows * cols) 0 (by omega) fuel hf
    rw [rowMajor_eq _ _ _ hc, ← key]
    simp [matBegin, It.whole, at']

/-- **C100**, refuted for a matrix of no columns: an element is visited in each of its rows. -/
theorem C100_matrix_refuted (rows : ℕ) (fuel : ℕ) (hf : rows < fuel) :
    loop (matEnd rows 0) fuel (matBegin rows 0) = some ((List.range rows).map fun (i : ℕ) => ((i : ℤ), (0 : ℤ))) := by
  have key : ∀ k i fuel : ℕ, i + k = rows → k < fuel →
      loop (matEnd rows 0) fuel ⟨![0, 0], ![(rows : ℤ) - 1, 0 - 1], ![(i : ℤ), 0]⟩ =
        some ((List.range' i k).map fun (i : ℕ) => ((i : ℤ), (0 : ℤ))) := by
    intro k
    induction k with
    | zero =>
      intro i fuel hi hf
      obtain ⟨fuel, rfl⟩ : ∃ f, fuel = f + 1 := ⟨fuel - 1, by omega⟩
      have : i = rows := by omega
      subst this
      simp [loop, matEnd, It.eq, It.whole]
    | succ k ih =>
      intro i fuel hi hf
      obtain ⟨fuel, rfl⟩ : ∃ f, fuel = f + 1 := ⟨fuel - 1, by omega⟩
      have h1 := ih (i + 1) fuel (by omega) (by omega)
      have e : increment false ![0, 0] ![(rows : ℤ) - 1, 0 - 1] ![(i : ℤ), 0] = ![((i + 1 : ℕ) : ℤ), 0] := by
        rw [inc_carry _ _ _ _ (by simp)]; simp
      rw [← e] at h1
      have hne : ¬ ((i : ℤ) = rows ∧ True) := by simp only [and_true]; omega
      simp only [loop, It.eq, It.next, Matrix.cons_val_zero, Matrix.cons_val_one, matEnd, It.whole] at h1 ⊢
      simp only [hne, decide_false, Bool.false_eq_true, if_false, h1, Option.map_some, List.range'_succ, List.map_cons]
  have := key rows 0 fuel (by omega) hf
  rw [← List.range_eq_range'] at this
  simpa [matBegin, It.whole] using this

/-- **C100**: iterating over a region visits the elements from its lower to its upper extreme *inclusive*, in
row-major order. -/
theorem C100_region_partial (lo : Fin 2 → ℤ) (r c : ℕ) (hr : 0 < r) (hc : 0 < c) (fuel : ℕ) (hf : r * c < fuel) :
    let hi : Fin 2 → ℤ := ![lo 0 + r - 1, lo 1 + c - 1]
    loop (regionEnd lo hi) fuel (regionBegin lo hi) = some (rowMajor lo r c) := by
  intro hi
  have h2 : dimLast false 2 = 0 := by decide
  have key := loop_from lo hi c (r * c) hc (by simp [hi]) (regionEnd lo hi)
    (by constructor
        · simp [regionEnd, end', h2, at', Nat.mul_div_cancel _ hc, hi]
        · simp [regionEnd, end', h2, at', Function.update]) (r * c) 0 (by omega) fuel hf
  rw [rowMajor_eq _ _ _ hc, ← key]
  have : lo = ![lo 0, lo 1] := by funext i; fin_cases i <;> rfl
  simp only [regionBegin, begin', at']
  congr 2
  simpa using this

theorem mem_rowMajor (lo : Fin 2 → ℤ) (r c : ℕ) (p : ℤ × ℤ) : p ∈ rowMajor lo r c ↔
    (lo 0 ≤ p.1 ∧ p.1 < lo 0 + r) ∧ (lo 1 ≤ p.2 ∧ p.2 < lo 1 + c) := by
  simp only [rowMajor, List.mem_flatMap, List.mem_map, List.mem_range]
  constructor
  · rintro ⟨i, hi, j, hj, rfl⟩
    simp only
    omega
  · rintro ⟨⟨h1, h2⟩, h3, h4⟩
    exact ⟨(p.1 - lo 0).toNat, by omega, (p.2 - lo 1).toNat, by omega, Prod.ext (by simp only; omega) (by simp only; omega)⟩

/-- **C100**, refuted: the upper extreme of a region is documented to be exclusive.  Its row and column are
always visited; and for the region of a whole matrix so written, elements outside of the matrix are. -/
theorem C100_region_refuted (lo hi : Fin 2 → ℤ) (h : ∀ i, lo i ≤ hi i) :
    ∃ fuel l, loop (regionEnd lo hi) fuel (regionBegin lo hi) = some l ∧ (hi 0, hi 1) ∈ l ∧ (lo 0, hi 1) ∈ l ∧ (hi 0, lo 1) ∈ l := by
  obtain ⟨r, hr⟩ : ∃ r : ℕ, hi 0 = lo 0 + r := ⟨(hi 0 - lo 0).toNat, by have := h 0; omega⟩
  obtain ⟨c, hc⟩ : ∃ c : ℕ, hi 1 = lo 1 + c := ⟨(hi 1 - lo 1).toNat, by have := h 1; omega⟩
  have e : hi = ![lo 0 + ((r + 1 : ℕ) : ℤ) - 1, lo 1 + ((c + 1 : ℕ) : ℤ) - 1] := by
    funext i; fin_cases i
    · simp [hr]; ring
    · simp [hc]; ring
  have := C100_region_partial lo (r + 1) (c + 1) (by omega) (by omega) _ (Nat.lt_succ_self _)
  simp only [← e] at this
  refine ⟨_, _, this, ?_, ?_, ?_⟩ <;> rw [mem_rowMajor] <;> simp only <;> omega

-- rows 1 to 2, columns 3 to 4
example : loop (regionEnd ![1, 3] ![2, 4]) 9 (regionBegin ![1, 3] ![2, 4]) = some [(1, 3), (1, 4), (2, 3), (2, 4)] := by
  decide

end Geomc.MtxIter
