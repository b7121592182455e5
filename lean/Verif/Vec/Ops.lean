import Verif.Vec.OpsModel
import Mathlib.Tactic.Linarith
import Mathlib.Tactic.FieldSimp
import Mathlib.Data.Fin.VecNotation
import Mathlib.Data.Fintype.Basic

/-! # Property C102: operators of vectors -/

namespace Geomc.VecOps

variable {K : Type}

theorem assignV_aux (op : K → K → K) (n a b : ℕ) (h : a = b ∨ a + n ≤ b ∨ b + n ≤ a) (m : ℕ → K) (k : ℕ) (hk : k ≤ n) (p : ℕ) :
    (List.range k).foldl (fun m i => put m (a + i) (op (m (a + i)) (m (b + i)))) m p =
      if a ≤ p ∧ p < a + k then op (m p) (m (b + (p - a))) else m p := by
  induction k generalizing p with
  | zero => simp
  | succ k ih =>
    replace ih := fun p => ih (by omega) p
    simp only [put] at ih
    rw [List.range_succ, List.foldl_append]
    simp only [List.foldl_cons, List.foldl_nil, put]
    by_cases e : p = a + k
    · subst e
      rw [Function.update_self, ih, ih, if_neg (by omega), if_neg (by omega), if_pos (by omega)]
      simp
    · rw [Function.update_of_ne e, ih]
      by_cases c : a ≤ p ∧ p < a + k
      · rw [if_pos c, if_pos (by omega)]
      · rw [if_neg c, if_neg (by omega)]

/-- **C102.** `v op= w` replaces every element of `v` by the result of the operation on the old elements, and changes
nothing else; `w` may be `v`. -/
theorem C102_vector (op : K → K → K) (n a b : ℕ) (h : a = b ∨ a + n ≤ b ∨ b + n ≤ a) (m : ℕ → K) :
    (∀ i < n, assignV op n a b m (a + i) = op (m (a + i)) (m (b + i))) ∧
    (∀ p, p < a ∨ a + n ≤ p → assignV op n a b m p = m p) := by
  constructor
  · intro i hi
    rw [assignV, assignV_aux op n a b h m n le_rfl, if_pos (by omega)]
    simp
  · intro p hp
    rw [assignV, assignV_aux op n a b h m n le_rfl, if_neg (by omega)]

theorem assignS_aux (op : K → K → K) (n a : ℕ) (s : K) (m : ℕ → K) (p : ℕ) :
    assignS op n a s m p = if a ≤ p ∧ p < a + n then op (m p) s else m p := by
  unfold assignS
  induction n generalizing p with
  | zero => simp
  | succ k ih =>
    simp only [put] at ih
    rw [List.range_succ, List.foldl_append]
    simp only [List.foldl_cons, List.foldl_nil, put]
    by_cases e : p = a + k
    · subst e
      rw [Function.update_self, ih, if_neg (by omega), if_pos (by omega)]
    · rw [Function.update_of_ne e, ih]
      by_cases c : a ≤ p ∧ p < a + k
      · rw [if_pos c, if_pos (by omega)]
      · rw [if_neg c, if_neg (by omega)]

/-- **C102.** `v op= s` for a scalar of the element type, also when the scalar is an element of `v`. -/
theorem C102_scalar (op : K → K → K) (n a j : ℕ) (m : ℕ → K) :
    (∀ i < n, assignS op n a (m j) m (a + i) = op (m (a + i)) (m j)) ∧
    (∀ p, p < a ∨ a + n ≤ p → assignS op n a (m j) m p = m p) := by
  constructor
  · intro i hi
    rw [assignS_aux, if_pos (by omega)]
  · intro p hp
    rw [assignS_aux, if_neg (by omega)]

theorem toInt_int (k : ℤ) : toInt k = k := by
  unfold toInt
  by_cases h : (0 : ℚ) ≤ k
  · rw [if_pos h, Int.floor_intCast]
  · rw [if_neg h, Int.ceil_intCast]

/-- The conversion discards the fraction: towards zero, by less than one. -/
theorem toInt_spec (x : ℚ) : |(toInt x : ℚ)| ≤ |x| ∧ |x - toInt x| < 1 := by
  unfold toInt
  by_cases h : (0 : ℚ) ≤ x
  · rw [if_pos h]
    have h0 : (0 : ℚ) ≤ (⌊x⌋ : ℤ) := by exact_mod_cast Int.floor_nonneg.mpr h
    have h1 := Int.floor_le x
    have h2 := Int.lt_floor_add_one x
    rw [abs_of_nonneg h0, abs_of_nonneg h, abs_of_nonneg (by linarith)]
    exact ⟨h1, by linarith⟩
  · rw [if_neg h]
    push Not at h
    have h0 : ((⌈x⌉ : ℤ) : ℚ) ≤ 0 := by exact_mod_cast Int.ceil_le.mpr (by simpa using h.le)
    have h1 := Int.le_ceil x
    have h2 := Int.ceil_lt_add_one x
    rw [abs_of_nonpos h0, abs_of_neg h, abs_of_nonpos (by linarith)]
    exact ⟨by linarith, by linarith⟩

theorem toInt_div (a k : ℤ) (hk : k ≠ 0) : toInt ((a : ℚ) / k) = a.tdiv k := by
  have hk' : (k : ℚ) ≠ 0 := by exact_mod_cast hk
  have e : (a : ℚ) / k - (a.tdiv k : ℤ) = (a.tmod k : ℤ) / k := by
    have : (a : ℚ) = k * (a.tdiv k : ℤ) + (a.tmod k : ℤ) := by exact_mod_cast (Int.mul_tdiv_add_tmod a k).symm
    field_simp
    linarith
  have b : |((a.tmod k : ℤ) : ℚ) / k| < 1 := by
    rw [abs_div, div_lt_one (abs_pos.mpr hk')]
    have : |a.tmod k| < |k| := by
      have h1 := Int.natAbs_tmod a k
      have h2 := Nat.mod_lt a.natAbs (Int.natAbs_pos.mpr hk)
      rw [← h1] at h2
      rw [Int.abs_eq_natAbs, Int.abs_eq_natAbs]; exact_mod_cast h2
    exact_mod_cast this
  rw [← e, abs_lt] at b
  -- the sign of the remainder is that of the dividend
  unfold toInt
  by_cases h : (0 : ℚ) ≤ (a : ℚ) / k
  · rw [if_pos h, Int.floor_eq_iff]
    refine ⟨?_, by linarith⟩
    by_contra c
    push Not at c
    -- then the quotient is at least one, and the remainder is negative relative to the divisor
    have q1 : (1 : ℤ) ≤ a.tdiv k := by
      have : (0 : ℚ) < (a.tdiv k : ℤ) := by linarith
      have : (0 : ℤ) < a.tdiv k := by exact_mod_cast this
      omega
    have r : ((a.tmod k : ℤ) : ℚ) / k < 0 := by rw [← e]; linarith
    rcases lt_or_gt_of_ne hk with kn | kp
    · have kn' : (k : ℚ) < 0 := by exact_mod_cast kn
      have an : (a : ℚ) ≤ 0 := by
        by_contra d; push Not at d
        have := div_neg_of_pos_of_neg d kn'
        linarith
      have an : a ≤ 0 := by exact_mod_cast an
      have : a.tmod k ≤ 0 := by
        have := Int.tmod_nonneg k (show 0 ≤ -a by omega)
        rw [Int.neg_tmod] at this; omega
      have : ((a.tmod k : ℤ) : ℚ) ≤ 0 := by exact_mod_cast this
      have := div_nonneg_of_nonpos this kn'.le
      linarith
    · have kp' : (0 : ℚ) < k := by exact_mod_cast kp
      have ap : (0 : ℚ) ≤ a := by
        by_contra d; push Not at d
        have := div_neg_of_neg_of_pos d kp'
        linarith
      have ap : 0 ≤ a := by exact_mod_cast ap
      have : (0 : ℚ) ≤ (a.tmod k : ℤ) := by exact_mod_cast Int.tmod_nonneg k ap
      have := div_nonneg this kp'.le
      linarith
  · rw [if_neg h, Int.ceil_eq_iff]
    push Not at h
    refine ⟨by linarith, ?_⟩
    by_contra c
    push Not at c
    have r : 0 < ((a.tmod k : ℤ) : ℚ) / k := by rw [← e]; linarith
    rcases lt_or_gt_of_ne hk with kn | kp
    · have kn' : (k : ℚ) < 0 := by exact_mod_cast kn
      have ap : (0 : ℚ) < a := by
        by_contra d; push Not at d
        have := div_nonneg_of_nonpos d kn'.le
        linarith
      have ap : 0 < a := by exact_mod_cast ap
      have : (0 : ℚ) ≤ (a.tmod k : ℤ) := by exact_mod_cast Int.tmod_nonneg k ap.le
      have := div_nonpos_of_nonneg_of_nonpos this kn'.le
      linarith
    · have kp' : (0 : ℚ) < k := by exact_mod_cast kp
      have an : (a : ℚ) < 0 := by
        by_contra d; push Not at d
        have := div_nonneg d kp'.le
        linarith
      have an : a < 0 := by exact_mod_cast an
      have : a.tmod k ≤ 0 := by
        have := Int.tmod_nonneg k (show 0 ≤ -a by omega)
        rw [Int.neg_tmod] at this; omega
      have : ((a.tmod k : ℤ) : ℚ) ≤ 0 := by exact_mod_cast this
      have := div_nonpos_of_nonpos_of_nonneg this kp'.le
      linarith

variable {n : ℕ}

/-- **C102.** `v * s` on integer elements discards the fraction of every product. -/
theorem C102_mul (v : Fin n → ℤ) (s : ℚ) (i : Fin n) :
    |(mulIR v s i : ℚ)| ≤ |v i * s| ∧ |v i * s - mulIR v s i| < 1 := toInt_spec _

/-- **C102.** `v / s` likewise. -/
theorem C102_div (v : Fin n → ℤ) (s : ℚ) (h : s ≠ 0) :
    ∃ r, divIR v s = some r ∧ ∀ i, |(r i : ℚ)| ≤ |v i / s| ∧ |v i / s - r i| < 1 :=
  ⟨_, if_neg h, fun _ => toInt_spec _⟩

/-- **C102, part and refutation.** With integer elements, `v *= s` does what `v = v * s` does for all `v` just when the
scalar is an integer. -/
theorem C102_mul_assign_refuted (hn : 0 < n) (s : ℚ) :
    (∀ v : Fin n → ℤ, mulAssignIR v s = mulIR v s) ↔ ∃ k : ℤ, s = k := by
  constructor
  · intro h
    refine ⟨toInt s, ?_⟩
    have e := congrFun (h fun _ => s.den) ⟨0, hn⟩
    simp only [mulAssignIR, mulIR] at e
    have q : ((s.den : ℤ) : ℚ) * s = (s.num : ℤ) := by
      rw [mul_comm]; exact_mod_cast Rat.mul_den_eq_num s
    rw [q, toInt_int] at e
    have d : (s.den : ℚ) ≠ 0 := by exact_mod_cast s.den_ne_zero
    have e' : (s.den : ℚ) * (toInt s : ℤ) = (s.num : ℤ) := by exact_mod_cast e
    have q' : (s.den : ℚ) * s = (s.num : ℤ) := by exact_mod_cast q
    exact mul_left_cancel₀ d (q'.trans e'.symm)
  · rintro ⟨k, rfl⟩ v
    funext i
    simp only [mulAssignIR, mulIR, toInt_int]
    exact_mod_cast (toInt_int (v i * k)).symm

/-- **C102 refuted for fractions.** A scalar between -1 and 1 makes `v *= s` clear the vector, and `v /= s` undefined. -/
theorem C102_fraction_refuted (hn : 0 < n) (v : Fin n → ℤ) (s : ℚ) (h : |s| < 1) :
    mulAssignIR v s = 0 ∧ divAssignIR v s = none := by
  have z : toInt s = 0 := by
    have h1 := lt_of_le_of_lt (toInt_spec s).1 h
    have : |toInt s| < 1 := by exact_mod_cast h1
    exact Int.abs_lt_one_iff.mp this
  constructor
  · funext i; simp [mulAssignIR, z]
  · simp only [divAssignIR, z, if_true]
    rw [if_neg (by omega)]

/-- **C102, part and refutation.** With integer elements, `v /= s` does what `v = v / s` does for all `v` just when the
scalar is an integer. -/
theorem C102_div_assign_refuted (hn : 0 < n) (s : ℚ) :
    (∀ v : Fin n → ℤ, divAssignIR v s = divIR v s) ↔ ∃ k : ℤ, s = k := by
  have n0 : n ≠ 0 := by omega
  constructor
  · intro h
    by_cases s0 : s = 0
    · exact ⟨0, by simpa using s0⟩
    refine ⟨toInt s, ?_⟩
    by_cases k0 : toInt s = 0
    · have := h 0
      simp [divAssignIR, divIR, k0, s0, n0] at this
    have e := h fun _ => s.num * toInt s
    simp only [divAssignIR, divIR, if_neg k0, if_neg s0, Option.some.injEq] at e
    have e := congrFun e ⟨0, hn⟩
    simp only [Int.mul_tdiv_cancel _ k0] at e
    have q : s * (s.den : ℚ) = (s.num : ℤ) := by exact_mod_cast Rat.mul_den_eq_num s
    have : ((s.num * toInt s : ℤ) : ℚ) / s = ((s.den * toInt s : ℤ) : ℚ) := by
      push_cast
      rw [div_eq_iff s0, ← q]; ring
    rw [this, toInt_int] at e
    have d : (s.den : ℚ) ≠ 0 := by exact_mod_cast s.den_ne_zero
    have e' : (s.num : ℚ) = s.den * (toInt s : ℤ) := by exact_mod_cast e
    have q' : (s.den : ℚ) * s = s.den * (toInt s : ℤ) := by rw [mul_comm, q]; exact_mod_cast e'
    exact mul_left_cancel₀ d q'
  · rintro ⟨k, rfl⟩ v
    simp only [divAssignIR, divIR, toInt_int]
    by_cases k0 : k = 0
    · simp [k0]
    · have : (k : ℚ) ≠ 0 := by exact_mod_cast k0
      rw [if_neg k0, if_neg this]
      congr 1
      funext i
      exact (toInt_div _ _ k0).symm

/-- `v += v` doubles `v`. -/
example : (List.range 4).map (assignV (· + ·) 3 0 0 fun (p : ℕ) => (p : ℤ) + 1) = [2, 4, 6, 4] := by decide +kernel
/-- `v *= v[0]` uses the old element throughout. -/
example : (List.range 3).map (assignS (· * ·) 3 0 ((fun (p : ℕ) => (p : ℤ) + 2) 0) fun (p : ℕ) => (p : ℤ) + 2) = [4, 6, 8] := by
  decide +kernel
/-- Half of (4, 7) by the two spellings. -/
example : mulIR ![4, 7] (1 / 2) = ![2, 3] ∧ mulAssignIR ![4, 7] (1 / 2) = ![0, 0] := by decide +kernel
/-- (3, 5) divided by one half. -/
example : divIR ![3, 5] (1 / 2) = some ![6, 10] ∧ divAssignIR ![3, 5] (1 / 2) = none := by decide +kernel

end Geomc.VecOps
