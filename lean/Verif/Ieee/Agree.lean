import Verif.Ieee.Overflow
import Mathlib.Analysis.Real.Sqrt

/-! # C109: without overflow the results are those of the unlimited format -/

namespace Geomc.Ieee

variable {K : Type} {n : ℕ} [Field K] [LinearOrder K] [IsStrictOrderedRing K] {rnd : K → K} {e : ℤ}

theorem limit_some {x y : K} (h : limit e rnd x = some y) : y = rnd x := by
  unfold limit at h
  split_ifs at h
  exact (Option.some.inj h).symm

theorem ofReal_fin {x z : K} {s t : Bool} (h : ofReal (limit e rnd) s x = .fin z t) : z = rnd x := by
  unfold ofReal at h
  cases e' : limit e rnd x with
  | none => rw [e'] at h; cases h
  | some y =>
    rw [e'] at h
    cases h
    exact limit_some e'

/-- **C109**: a dot product that comes out finite is the one computed without a largest number: overflow never leaves a wrong finite
number behind. -/
theorem C109_dot (x y : Fin n → K) (s t : Fin n → Bool) {z : K} {w : Bool}
    (h : dot (limit e rnd) (fun i => .fin (x i) (s i)) (fun i => .fin (y i) (t i)) = .fin z w) : z = Flt.dot rnd x y := by
  unfold dot at h
  unfold Flt.dot
  generalize List.finRange n = l at h ⊢
  induction l using List.reverseRecOn generalizing z w with
  | nil =>
    cases h
    rfl
  | append_singleton l i ih =>
    simp only [List.foldl_append, List.foldl_cons, List.foldl_nil] at h ⊢
    generalize List.foldl _ _ l = a at h ih
    rcases a with ⟨v, u⟩ | u | _
    · rw [← ih rfl]
      exact ofReal_fin (x := x i * y i + v) h
    · cases h
    · cases h

theorem mag2_agrees (x : Fin n → K) (s : Fin n → Bool) {z : K} {w : Bool} (h : mag2 (limit e rnd) (fun i => .fin (x i) (s i)) = .fin z w) :
    z = Flt.mag2 rnd x := C109_dot x x s s h

theorem ofReal_some {x : K} (s : Bool) (h : |rnd x| < 2 ^ e) : ∃ t, ofReal (limit e rnd) s x = .fin (rnd x) t := by
  rw [ofReal, limit, if_pos h]
  exact ⟨_, rfl⟩

open Flt in
/-- **C109**: for every vector of floats that is not zero, whose squares are multiples of the smallest float and whose squared length,
with room for the errors, does not overflow, the computed length and direction are finite numbers with the usual relative errors (and
the absolute error of half the smallest float in the direction). -/
theorem C109_unit [FloorRing K] {p : ℕ} (hp : 1 ≤ p) {q : ℤ} (hq : q + p ≤ e) (hqp : q ≤ -2 * (p - 1)) (hn : n + 4 ≤ e) (h : IsRoundE p q rnd)
    {root : K → K} (hr : ∀ x, 0 ≤ x → 0 ≤ root x ∧ root x * root x = x) (x : Fin n → K) (s : Fin n → Bool) (hx : x ≠ 0)
    (hg : ∀ i, OnGrid q (x i * x i))
    (hl : (1 + 2 ^ (-(p : ℤ))) ^ n * ∑ i, (x i * x i + 2 ^ (q - 1)) < ((2 : K) ^ p - 1) * 2 ^ (e - p)) :
    ∃ m t, mag (limit e rnd) root (fun i => .fin (x i) (s i)) = .fin m t ∧ 0 < m ∧
      (1 - 2 ^ (-(p : ℤ))) ^ (n + 2) * ∑ i, x i ^ 2 ≤ m ^ 2 ∧ m ^ 2 ≤ (1 + 2 ^ (-(p : ℤ))) ^ (n + 2) * ∑ i, x i ^ 2 ∧
      ∀ i, ∃ r t, unit (limit e rnd) root (fun i => .fin (x i) (s i)) i = .fin r t ∧
        |r - x i / m| ≤ max (2 ^ (-(p : ℤ)) * |x i / m|) (2 ^ (q - 1)) := by
  have hf := C109_format hp hq h
  obtain ⟨y, t, e1, hy, hy2⟩ := C109_finite hf x s hl
  have hym := mag2_agrees x s e1
  have hbot : ∀ z : K, |z| < ((2 : K) ^ p - 1) * 2 ^ (e - p) → |rnd z| < 2 ^ e := by
    intro z hz
    obtain ⟨w, hw⟩ := hf.under z hz
    unfold limit at hw
    split_ifs at hw with hc
    exact hc
  have hbig : (2 : K) ^ (n + 3) ≤ (2 ^ p - 1) * 2 ^ (e - p) := by
    have h1 : (2 : K) ^ (p - 1) ≤ 2 ^ p - 1 := by
      have h3 : (1 : K) ≤ 2 ^ (p - 1) := one_le_pow₀ (by norm_num)
      have h4 : (2 : K) ^ p = 2 ^ (p - 1) * 2 := by rw [← pow_succ]; congr 1; omega
      rw [h4]
      linarith
    have h2 : (2 : K) ^ (n + 3) ≤ 2 ^ (p - 1) * 2 ^ (e - p) := by
      rw [← zpow_natCast, ← zpow_natCast, ← zadd]
      refine zle ?_
      omega
    exact h2.trans (mul_le_mul_of_nonneg_right h1 (two_zpow_pos _).le)
  have hone : (1 : K) < (2 ^ p - 1) * 2 ^ (e - p) := lt_of_lt_of_le (one_lt_pow₀ (by norm_num) (by omega)) hbig
  have hroot := hr y hy
  have hrlt : |root y| < (2 ^ p - 1) * 2 ^ (e - p) := by
    rw [abs_of_nonneg hroot.1]
    by_contra hc
    have hc := _root_.not_lt.1 hc
    have : root y * 1 < root y * root y := mul_lt_mul_of_pos_left (by linarith) (by linarith)
    rw [hroot.2] at this
    linarith
  have hM := C106_mag hp hqp h hr x hg
  have hmag : Flt.mag rnd root x = rnd (root y) := by rw [Flt.mag, hym]
  obtain ⟨t', e2⟩ := ofReal_some (rnd := rnd) t (hbot _ hrlt)
  have e3 : mag (limit e rnd) root (fun i => .fin (x i) (s i)) = .fin (rnd (root y)) t' := by
    rw [mag, e1, Fl.sqrt, if_neg (_root_.not_lt.2 hy), e2]
  have hm0 : 0 ≤ rnd (root y) := by
    have := h.near (root y) 0 (floatE_zero p q)
    rw [zero_sub, abs_neg, abs_of_nonneg hroot.1] at this
    linarith [(abs_le.1 this).1]
  rw [hmag] at hM
  have hmpos : 0 < rnd (root y) := lt_of_le_of_ne hm0 fun h0 => hx (hM.2.2.1 h0.symm)
  refine ⟨rnd (root y), t', e3, hmpos, hM.1, hM.2.1, fun i => ?_⟩
  have hquot : |x i / rnd (root y)| < (2 ^ p - 1) * 2 ^ (e - p) := by
    have he := eps_le (K := K) hp
    unfold eps at he
    have h1 : (1 / 2 : K) ^ (n + 2) ≤ (1 - 2 ^ (-(p : ℤ))) ^ (n + 2) := pow_le_pow_left₀ (by norm_num) (by linarith) _
    have h2 : x i ^ 2 ≤ ∑ j, x j ^ 2 := Finset.single_le_sum (f := fun j => x j ^ 2) (fun j _ => sq_nonneg _) (Finset.mem_univ i)
    have h3 : (1 / 2 : K) ^ (n + 2) * x i ^ 2 ≤ rnd (root y) ^ 2 :=
      _root_.le_trans (mul_le_mul h1 h2 (sq_nonneg _) (le_trans' h1 (by positivity))) hM.1
    have h4 : x i ^ 2 ≤ (2 ^ (n + 2) * rnd (root y)) ^ 2 := by
      have h5 : x i ^ 2 ≤ 2 ^ (n + 2) * rnd (root y) ^ 2 := by
        have h6 : (2 : K) ^ (n + 2) * (1 / 2) ^ (n + 2) = 1 := by rw [← mul_pow]; norm_num
        calc x i ^ 2 = 2 ^ (n + 2) * ((1 / 2) ^ (n + 2) * x i ^ 2) := by rw [← mul_assoc, h6, one_mul]
          _ ≤ _ := mul_le_mul_of_nonneg_left h3 (by positivity)
      refine h5.trans ?_
      rw [mul_pow]
      refine mul_le_mul_of_nonneg_right ?_ (sq_nonneg _)
      have h7 : (1 : K) ≤ 2 ^ (n + 2) := one_le_pow₀ (by norm_num)
      rw [sq]
      exact le_mul_of_one_le_left (by positivity) h7
    have h5 : |x i| ≤ 2 ^ (n + 2) * rnd (root y) := abs_le_of_sq_le_sq h4 (by positivity)
    have h6 : |x i / rnd (root y)| ≤ 2 ^ (n + 2) := by
      rw [abs_div, abs_of_pos hmpos, div_le_iff₀ hmpos]
      exact h5
    refine lt_of_le_of_lt h6 (lt_of_lt_of_le ?_ hbig)
    exact pow_lt_pow_right₀ (by norm_num) (by omega)
  obtain ⟨t'', e4⟩ := ofReal_some (rnd := rnd)
    (xor (Fl.fin (x i) (s i)).sign (Fl.fin (rnd (root y)) t').sign) (hbot _ hquot)
  refine ⟨rnd (x i / rnd (root y)), t'', ?_, C106_round hp h _⟩
  simp only [unit, e3, Fl.div, if_neg hmpos.ne']
  exact e4

/-- The direction of `(3, 4)` in `float`. -/
example : ∃ m t, mag (limit 128 (Flt.nearestE 24 (-149))) Real.sqrt (n := 2) (fun i => .fin (![(3 : ℝ), 4] i) false) = .fin m t ∧ 0 < m := by
  obtain ⟨m, t, h1, h2, -⟩ := C109_unit (K := ℝ) (n := 2) (p := 24) (q := -149) (e := 128) (by norm_num) (by norm_num) (by norm_num) (by norm_num)
    (Flt.C106_nearest (by norm_num) _) (root := Real.sqrt) (fun x hx => ⟨Real.sqrt_nonneg x, Real.mul_self_sqrt hx⟩) ![3, 4] (fun _ => false)
    (fun h => by simpa using congrFun h 0)
    (by
      intro i
      fin_cases i
      · exact ⟨9 * 2 ^ 149, by norm_num⟩
      · exact ⟨16 * 2 ^ 149, by norm_num⟩)
    (by simp [Fin.sum_univ_two]; norm_num)
  exact ⟨m, t, h1, h2⟩

end Geomc.Ieee
