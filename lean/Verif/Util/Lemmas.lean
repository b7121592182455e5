import Verif.Util.Model
import Mathlib.Tactic.Linarith
import Mathlib.Tactic.Positivity
import Mathlib.Tactic.FieldSimp
import Mathlib.Tactic.Ring
import Mathlib.Algebra.BigOperators.Intervals
import Mathlib.Data.Rat.Floor

namespace Geomc.Util

theorem chk_some {w : ℕ} {x : ℤ} (h1 : -(2 ^ (w - 1)) ≤ x) (h2 : x < 2 ^ (w - 1)) :
    chk w x = some x := by simp [chk, h1, h2]

theorem tdiv_bounds (a b : ℤ) : -|a| ≤ a.tdiv b ∧ a.tdiv b ≤ |a| := by
  have h := Int.natAbs_tdiv_le_natAbs a b
  have : |a.tdiv b| ≤ |a| := by
    rw [Int.abs_eq_natAbs, Int.abs_eq_natAbs]; exact_mod_cast h
  exact abs_le.mp this

theorem tdiv_lower (a : ℤ) {b m : ℤ} (hb : 0 < b) (hm : 0 ≤ m) (ha : -m ≤ a) : -m ≤ a.tdiv b := by
  rcases le_total 0 a with h | h
  · have := Int.tdiv_nonneg h hb.le; omega
  · have h2 := (tdiv_bounds a b).1
    rw [abs_of_nonpos h] at h2; omega

theorem tdiv_upper (a : ℤ) {b m : ℤ} (hb : 0 < b) (hm : 0 < m) (ha : a < m) : a.tdiv b < m := by
  rcases le_total 0 a with h | h
  · have h2 := (tdiv_bounds a b).2
    rw [abs_of_nonneg h] at h2; omega
  · have h2 : a.tdiv b ≤ 0 := by
      have := Int.tdiv_nonneg (a := -a) (by omega) hb.le
      rw [Int.neg_tdiv] at this; omega
    omega

theorem tdiv_chk {w : ℕ} {a b : ℤ} (hb : 0 < b) (h1 : -(2 ^ (w - 1)) ≤ a) (h2 : a < 2 ^ (w - 1)) :
    chk w (a.tdiv b) = some (a.tdiv b) := by
  have hp : (0 : ℤ) < 2 ^ (w - 1) := by positivity
  exact chk_some (tdiv_lower a hb hp.le h1) (tdiv_upper a hb hp h2)

/-- Truncating division is exact characterisation of the rounding direction. -/
theorem tdiv_eq_floor_iff {n b : ℤ} (hb : 0 < b) :
    n.tdiv b = n / b ↔ 0 ≤ n ∨ b ∣ n := by
  rw [Int.tdiv_eq_ediv]
  have hs : b.sign = 1 := Int.sign_eq_one_of_pos hb
  by_cases h : 0 ≤ n ∨ b ∣ n
  · simp [h]
  · simp [h, hs]

theorem floor_rat (a b : ℤ) (hb : 0 < b) : ⌊(a : ℚ) / b⌋ = a / b := by
  have hbq : (0 : ℚ) < b := by exact_mod_cast hb
  rw [Int.floor_eq_iff]
  constructor
  · rw [le_div_iff₀ hbq]
    have := Int.ediv_mul_le a hb.ne'
    exact_mod_cast this
  · rw [div_lt_iff₀ hbq]
    have := Int.lt_ediv_add_one_mul_self a hb
    exact_mod_cast this

theorem ceil_rat (a b : ℤ) (hb : 0 < b) : ⌈(a : ℚ) / b⌉ = (a + b - 1) / b := by
  have hbq : (0 : ℚ) < b := by exact_mod_cast hb
  rw [Int.ceil_eq_iff]
  have h1 := Int.ediv_mul_le (a + b - 1) hb.ne'
  have h2 := Int.lt_ediv_add_one_mul_self (a + b - 1) hb
  set q := (a + b - 1) / b
  constructor
  · rw [lt_div_iff₀ hbq]
    have : (q - 1) * b < a := by nlinarith
    exact_mod_cast this
  · rw [div_le_iff₀ hbq]
    have : a ≤ q * b := by nlinarith
    exact_mod_cast this

theorem pow_and_pred_aux (x : ℕ) : ∀ k, x ≠ 0 → (x &&& (x - 1)) = 0 → x < 2 ^ k → ∃ j, x = 2 ^ j := by
  intro k
  induction k generalizing x with
  | zero => intro h0 _ h; omega
  | succ k ih =>
    intro h0 h hk
    rcases Nat.even_or_odd x with he | ho
    · obtain ⟨y, hy⟩ := he
      have hxy : x = 2 * y := by omega
      have hy0 : y ≠ 0 := by omega
      have hand : (y &&& (y - 1)) = 0 := by
        apply Nat.eq_of_testBit_eq
        intro i
        have := congrArg (fun z => Nat.testBit z (i + 1)) h
        rw [Nat.testBit_and, Nat.zero_testBit]
        simp only [Nat.testBit_and, Nat.zero_testBit] at this
        rw [Nat.testBit_succ, Nat.testBit_succ] at this
        have e1 : x / 2 = y := by omega
        have e2 : (x - 1) / 2 = y - 1 := by omega
        rwa [e1, e2] at this
      obtain ⟨j, hj⟩ := ih y hy0 hand (by rw [pow_succ] at hk; omega)
      exact ⟨j + 1, by rw [pow_succ, hxy, hj]; ring⟩
    · obtain ⟨y, hy⟩ := ho
      have hxy : x = 2 * y + 1 := by omega
      by_cases hy0 : y = 0
      · exact ⟨0, by simp [hxy, hy0]⟩
      · exfalso
        have : y = 0 := by
          apply Nat.eq_of_testBit_eq
          intro i
          have := congrArg (fun z => Nat.testBit z (i + 1)) h
          rw [Nat.zero_testBit]
          simp only [Nat.testBit_and, Nat.zero_testBit] at this
          rw [Nat.testBit_succ, Nat.testBit_succ] at this
          have e1 : x / 2 = y := by omega
          have e2 : (x - 1) / 2 = y := by omega
          rw [e1, e2] at this
          simpa using this
        exact hy0 this

theorem two_pow_and_pred (j : ℕ) : (2 ^ j &&& (2 ^ j - 1)) = 0 := by
  rw [Nat.and_two_pow_sub_one_eq_mod]; simp

/-- Weight of corner `c` in multilinear interpolation. -/
theorem interpLinear_sum {K : Type*} [Field K] (s : ℕ → K) (n : ℕ) (p : ℕ → K) :
    interpLinear s (n + 1) p =
      ∑ c ∈ Finset.range (2 ^ (n + 1)),
        p c * ∏ i ∈ Finset.range (n + 1), (if c.testBit i then s i else 1 - s i) := by
  induction n generalizing p with
  | zero =>
    simp [interpLinear, mix, Finset.sum_range_succ]
    ring
  | succ n ih =>
    rw [interpLinear, ih, ih, mix]
    have e : 2 ^ (n + 1 + 1) = 2 ^ (n + 1) + 2 ^ (n + 1) := by ring
    rw [e, Finset.sum_range_add, Finset.mul_sum, Finset.mul_sum]
    congr 1
    · apply Finset.sum_congr rfl
      intro c hc
      rw [Finset.mem_range] at hc
      rw [Finset.prod_range_succ _ (n + 1), Nat.testBit_lt_two_pow hc]
      simp; ring
    · apply Finset.sum_congr rfl
      intro c hc
      rw [Finset.mem_range] at hc
      rw [Finset.prod_range_succ _ (n + 1)]
      have h1 : (2 ^ (n + 1) + c).testBit (n + 1) = true := by
        rw [Nat.testBit_two_pow_add_eq, Nat.testBit_lt_two_pow hc]; rfl
      have h2 : ∏ i ∈ Finset.range (n + 1), (if (2 ^ (n + 1) + c).testBit i then s i else 1 - s i)
          = ∏ i ∈ Finset.range (n + 1), (if c.testBit i then s i else 1 - s i) := by
        apply Finset.prod_congr rfl
        intro i hi
        rw [Finset.mem_range] at hi
        rw [Nat.testBit_two_pow_add_gt hi]
      rw [h1, h2]; simp; ring

/-- Catmull-Rom weight of tap `d` at parameter `s`. -/
def cubicW {K : Type*} [Field K] (s : K) (d : ℕ) : K :=
  match d with
  | 0 => interpCubic1 s 1 0 0 0
  | 1 => interpCubic1 s 0 1 0 0
  | 2 => interpCubic1 s 0 0 1 0
  | _ => interpCubic1 s 0 0 0 1

theorem interpCubic1_weights {K : Type*} [Field K] (s p0 p1 p2 p3 : K) :
    interpCubic1 s p0 p1 p2 p3
      = p0 * cubicW s 0 + p1 * cubicW s 1 + p2 * cubicW s 2 + p3 * cubicW s 3 := by
  simp only [interpCubic1, cubicW]; ring

theorem interpCubic_sum {K : Type*} [Field K] (s : ℕ → K) (n : ℕ) (p : ℕ → K) :
    interpCubic s (n + 1) p =
      ∑ c ∈ Finset.range (4 ^ (n + 1)),
        p c * ∏ i ∈ Finset.range (n + 1), cubicW (s i) (c / 4 ^ i % 4) := by
  induction n generalizing p with
  | zero =>
    simp [interpCubic, interpCubic1_weights, Finset.sum_range_succ]
  | succ n ih =>
    rw [interpCubic, interpCubic1_weights]
    simp only [ih]
    have hb : 2 ^ (2 * (n + 1)) = 4 ^ (n + 1) := by rw [pow_mul]; norm_num
    have e : 4 ^ (n + 1 + 1) = 4 ^ (n + 1) + 4 ^ (n + 1) + 4 ^ (n + 1) + 4 ^ (n + 1) := by ring
    rw [e, Finset.sum_range_add, Finset.sum_range_add, Finset.sum_range_add, hb]
    simp only [Finset.sum_mul]
    have key : ∀ d, d < 4 → ∀ c ∈ Finset.range (4 ^ (n + 1)),
        ∏ i ∈ Finset.range (n + 1 + 1), cubicW (s i) ((d * 4 ^ (n + 1) + c) / 4 ^ i % 4)
        = (∏ i ∈ Finset.range (n + 1), cubicW (s i) (c / 4 ^ i % 4)) * cubicW (s (n + 1)) d := by
      intro d hd c hc
      rw [Finset.mem_range] at hc
      rw [Finset.prod_range_succ _ (n + 1)]
      congr 1
      · apply Finset.prod_congr rfl
        intro i hi
        rw [Finset.mem_range] at hi
        have : d * 4 ^ (n + 1) + c = c + 4 ^ i * (4 * (d * 4 ^ (n - i))) := by
          have : 4 ^ (n + 1) = 4 ^ i * (4 * 4 ^ (n - i)) := by
            rw [← pow_succ', ← pow_add]; congr 1; omega
          rw [this]; ring
        rw [this, Nat.add_mul_div_left _ _ (by positivity), Nat.add_mul_mod_self_left]
      · congr 1
        have : (d * 4 ^ (n + 1) + c) / 4 ^ (n + 1) = d := by
          rw [mul_comm, Nat.mul_add_div (by positivity), Nat.div_eq_of_lt hc]; simp
        rw [this, Nat.mod_eq_of_lt hd]
    have k0 := key 0 (by norm_num)
    have k1 := key 1 (by norm_num)
    have k2 := key 2 (by norm_num)
    have k3 := key 3 (by norm_num)
    simp only [zero_mul, zero_add, one_mul] at k0 k1
    have e2 : 4 ^ (n + 1) + 4 ^ (n + 1) = 2 * 4 ^ (n + 1) := by ring
    have e3 : 4 ^ (n + 1) + 4 ^ (n + 1) + 4 ^ (n + 1) = 3 * 4 ^ (n + 1) := by ring
    rw [e3, e2]
    congr 1
    · congr 1
      · congr 1
        · exact Finset.sum_congr rfl fun c hc => by rw [k0 c hc]; ring
        · exact Finset.sum_congr rfl fun c hc => by rw [k1 c hc]; ring
      · exact Finset.sum_congr rfl fun c hc => by rw [k2 c hc]; ring
    · exact Finset.sum_congr rfl fun c hc => by rw [k3 c hc]; ring

end Geomc.Util
