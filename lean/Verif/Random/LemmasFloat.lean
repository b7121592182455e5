import Verif.Random.Model
import Mathlib.Tactic.Ring
import Mathlib.Tactic.Linarith
import Mathlib.Tactic.Positivity
import Mathlib.Tactic.FieldSimp
import Mathlib.Algebra.Order.Field.Rat
import Mathlib.Algebra.Order.Field.Power
import Mathlib.Data.Rat.Cast.Order

namespace Geomc.Random

/-- Bits still obtainable without exhausting the stream. -/
def Pool.bits (p : Pool) : ℕ := p.left + 32 * p.words.length

theorem bool_some (p : Pool) (h : 0 < p.bits) (hl : p.left ≤ 32) :
    ∃ b p', p.bool = some (b, p') ∧ p'.bits + 1 = p.bits ∧ p'.left ≤ 32 := by
  obtain ⟨pool, left, words⟩ := p
  simp only [Pool.bits] at h ⊢
  simp only at hl
  rcases Nat.eq_zero_or_pos left with rfl | hpos
  · cases words with
    | nil => simp at h
    | cons w ws =>
      refine ⟨_, _, rfl, ?_, ?_⟩
      · simp; omega
      · simp
  · refine ⟨pool.getLsbD 0, ⟨pool >>> 1, left - 1, words⟩, ?_, ?_, ?_⟩
    · simp [Pool.bool, show left ≠ 0 by omega]
    · simp only; omega
    · simp only; omega

theorem expLoop_some : ∀ (e : ℕ) (p : Pool), e ≤ p.bits → p.left ≤ 32 →
    ∃ e' p', expLoop e p = some (e', p') ∧ e' ≤ e ∧ p.bits ≤ p'.bits + e ∧ p'.left ≤ 32 := by
  intro e
  induction e with
  | zero => intro p _ hl; exact ⟨0, p, rfl, le_refl _, by omega, hl⟩
  | succ e ih =>
    intro p h hl
    obtain ⟨b, p1, e1, e2, e3⟩ := bool_some p (by omega) hl
    rw [expLoop, e1]
    simp only [Option.bind_eq_bind, Option.bind_some]
    cases b with
    | true => exact ⟨e + 1, p1, rfl, le_refl _, by omega, e3⟩
    | false =>
      obtain ⟨e', p', f1, f2, f3, f4⟩ := ih p1 (by omega) e3
      exact ⟨e', p', by simpa using f1, by omega, by omega, f4⟩

theorem expLoop_le : ∀ (e : ℕ) (p : Pool) (e' p'), expLoop e p = some (e', p') → e' ≤ e := by
  intro e
  induction e with
  | zero => intro p e' p' h; simp [expLoop] at h; omega
  | succ e ih =>
    intro p e' p' h
    rw [expLoop] at h
    simp only [Option.bind_eq_bind, Option.bind_eq_some_iff] at h
    obtain ⟨⟨b, p1⟩, e1, h⟩ := h
    simp only at h
    split_ifs at h with hb
    · simp at h; omega
    · have := ih p1 e' p' h; omega

theorem word_some (p : Pool) (h : 33 ≤ p.bits) (hl : p.left ≤ 32) :
    ∃ w p', p.word = some (w, p') ∧ p'.bits + 32 = p.bits ∧ p'.left ≤ 32 := by
  obtain ⟨pool, left, words⟩ := p
  simp only [Pool.bits] at h ⊢
  simp only at hl
  cases words with
  | nil => simp at h; omega
  | cons w ws => exact ⟨w, ⟨pool, left, ws⟩, rfl, by simp; omega, hl⟩

theorem bump_some (z : Bool) (e : ℕ) (p : Pool) (h : 0 < p.bits) (hl : p.left ≤ 32) :
    ∃ e' p', bump z e p = some (e', p') := by
  unfold bump
  cases z with
  | false => exact ⟨e, p, rfl⟩
  | true =>
    obtain ⟨b, p1, e1, _⟩ := bool_some p h hl
    simp [e1]

theorem bump_le (z : Bool) (e : ℕ) (p : Pool) (e' p') (h : bump z e p = some (e', p')) :
    (z = true ∧ e' ≤ e + 1) ∨ e' = e := by
  unfold bump at h
  cases z with
  | false => simp at h; right; exact h.1.symm
  | true =>
    simp only [if_true, Option.bind_eq_bind, Option.bind_eq_some_iff] at h
    obtain ⟨⟨b, p1⟩, _, h⟩ := h
    simp only [Option.some.injEq, Prod.mk.injEq] at h
    left
    refine ⟨rfl, ?_⟩
    rw [← h.1]
    split_ifs <;> omega

theorem mant32 (w : BitVec 32) : ((w &&& 0xFFFFFE00#32) >>> 9).toNat = w.toNat / 2 ^ 9 := by
  have : (w &&& 0xFFFFFE00#32) >>> 9 = w >>> 9 := by
    apply BitVec.eq_of_getLsbD_eq
    intro i hi
    simp only [BitVec.getLsbD_ushiftRight, BitVec.getLsbD_and]
    by_cases h : 9 + i < 32
    · have : (0xFFFFFE00#32).getLsbD (9 + i) = true := by
        have : i < 23 := by omega
        revert i; decide
      simp [this]
    · rw [BitVec.getLsbD_of_ge w (9 + i) (by omega)]; simp
  rw [this, BitVec.toNat_ushiftRight, Nat.shiftRight_eq_div_pow]

theorem mant64 (a b : BitVec 32) :
    ((((a.setWidth 64 <<< 32) ||| b.setWidth 64) &&& 0xFFFFFFFFFFFFF000#64) >>> 12).toNat < 2 ^ 52 := by
  rw [BitVec.toNat_ushiftRight, Nat.shiftRight_eq_div_pow]
  have := (((a.setWidth 64 <<< 32) ||| b.setWidth 64) &&& 0xFFFFFFFFFFFFF000#64).isLt
  omega

theorem assemble {w k : ℕ} (e : ℕ) (m : BitVec w) (hk : k ≤ w) (hm : m.toNat < 2 ^ k)
    (he : e < 2 ^ (w - k)) : ((BitVec.ofNat w e <<< k) ||| m).toNat = e * 2 ^ k + m.toNat := by
  have hpow : 2 ^ (w - k) * 2 ^ k = 2 ^ w := by rw [← pow_add]; congr 1; omega
  have hk0 : 0 < 2 ^ k := by positivity
  have hlt : e * 2 ^ k < 2 ^ w := by
    rw [← hpow]; exact Nat.mul_lt_mul_of_pos_right he hk0
  have hlt2 : e < 2 ^ w := lt_of_le_of_lt (Nat.le_mul_of_pos_right e hk0) hlt
  rw [BitVec.toNat_or, BitVec.toNat_shiftLeft, BitVec.toNat_ofNat, Nat.mod_eq_of_lt hlt2,
    Nat.shiftLeft_eq, Nat.mod_eq_of_lt hlt]
  rw [mul_comm, Nat.two_pow_add_eq_or_of_lt hm]

theorem randFloat_fields (p : Pool) (r p') (h : randFloat p = some (r, p')) :
    ∃ e m, r.toNat = e * 2 ^ 23 + m ∧ m < 2 ^ 23 ∧ (e ≤ 126 ∨ (e = 127 ∧ m = 0)) := by
  unfold randFloat at h
  simp only [Option.bind_eq_bind, Option.bind_eq_some_iff] at h
  obtain ⟨⟨e, p1⟩, h1, ⟨w, p2⟩, h2, ⟨e', p3⟩, h3, h4⟩ := h
  simp only [Option.some.injEq, Prod.mk.injEq] at h4
  obtain ⟨rfl, rfl⟩ := h4
  have he := expLoop_le _ _ _ _ h1
  have hm : ((w &&& 0xFFFFFE00#32) >>> 9).toNat < 2 ^ 23 := by
    rw [mant32]; have := w.isLt; omega
  have hb := bump_le _ _ _ _ _ h3
  refine ⟨e', ((w &&& 0xFFFFFE00#32) >>> 9).toNat, ?_, hm, ?_⟩
  · apply assemble _ _ (by decide) hm
    norm_num; omega
  · rcases hb with ⟨hz, hb⟩ | hb
    · rcases Nat.lt_or_ge e' 127 with h5 | h5
      · left; omega
      · right
        refine ⟨by omega, ?_⟩
        simp only [decide_eq_true_eq] at hz
        rw [hz]; rfl
    · left; omega

theorem randDouble_fields (p : Pool) (r p') (h : randDouble p = some (r, p')) :
    ∃ e m, r.toNat = e * 2 ^ 52 + m ∧ m < 2 ^ 52 ∧ (e ≤ 1022 ∨ (e = 1023 ∧ m = 0)) := by
  unfold randDouble at h
  simp only [Option.bind_eq_bind, Option.bind_eq_some_iff] at h
  obtain ⟨⟨e, p1⟩, h1, ⟨a, p2⟩, h2, ⟨b, p2'⟩, h2', ⟨e', p3⟩, h3, h4⟩ := h
  simp only [Option.some.injEq, Prod.mk.injEq] at h4
  obtain ⟨rfl, rfl⟩ := h4
  have he := expLoop_le _ _ _ _ h1
  have hm := mant64 a b
  have hb := bump_le _ _ _ _ _ h3
  refine ⟨e', _, assemble e' _ (by decide) hm (by norm_num; omega), hm, ?_⟩
  rcases hb with ⟨hz, hb⟩ | hb
  · rcases Nat.lt_or_ge e' 1023 with h5 | h5
    · left; omega
    · right
      refine ⟨by omega, ?_⟩
      simp only [decide_eq_true_eq] at hz
      rw [hz]; rfl
  · left; omega

theorem randFloat_isSome (p : Pool) (hl : p.left ≤ 32) (h : 159 ≤ p.bits) : (randFloat p).isSome := by
  obtain ⟨e, p1, h1, h2, h3, h4⟩ := expLoop_some 126 p (by omega) hl
  obtain ⟨w, p2, h5, h6, h7⟩ := word_some p1 (by omega) h4
  obtain ⟨e', p3, h8⟩ := bump_some (decide ((w &&& 0xFFFFFE00#32) >>> 9 = 0)) e p2 (by omega) h7
  simp only [randFloat, Nat.reduceSub, Option.bind_eq_bind, h1, Option.bind_some, h5, h8,
    Option.isSome_some]

theorem randDouble_isSome (p : Pool) (hl : p.left ≤ 32) (h : 1087 ≤ p.bits) :
    (randDouble p).isSome := by
  obtain ⟨e, p1, h1, h2, h3, h4⟩ := expLoop_some 1022 p (by omega) hl
  obtain ⟨w, p2, h5, h6, h7⟩ := word_some p1 (by omega) h4
  obtain ⟨w', p2', h5', h6', h7'⟩ := word_some p2 (by omega) h7
  obtain ⟨e', p3, h8⟩ := bump_some (decide ((((w.setWidth 64 <<< 32) ||| w'.setWidth 64) &&&
    0xFFFFFFFFFFFFF000#64) >>> 12 = 0)) e p2' (by omega) h7'
  simp only [randDouble, Nat.reduceSub, Option.bind_eq_bind, h1, Option.bind_some, h5, h5', h8,
    Option.isSome_some]

/-- The value of finite IEEE fields, in `[0,1]` when the exponent is below the bias. -/
theorem unit_range (bias k e m : ℕ) (hb : 1 ≤ bias) (hm : m < 2 ^ k)
    (h : e ≤ bias - 1 ∨ (e = bias ∧ m = 0)) :
    (0 : ℚ) ≤ (if e = 0 then (m : ℚ) / 2 ^ k * (2 : ℚ) ^ (1 - bias : ℤ)
      else (1 + (m : ℚ) / 2 ^ k) * (2 : ℚ) ^ ((e : ℤ) - bias)) ∧
    (if e = 0 then (m : ℚ) / 2 ^ k * (2 : ℚ) ^ (1 - bias : ℤ)
      else (1 + (m : ℚ) / 2 ^ k) * (2 : ℚ) ^ ((e : ℤ) - bias)) ≤ 1 := by
  have hfr0 : (0 : ℚ) ≤ (m : ℚ) / 2 ^ k := by positivity
  have hfr1 : (m : ℚ) / 2 ^ k ≤ 1 := by
    rw [div_le_one (by positivity)]
    exact_mod_cast hm.le
  split_ifs with h0
  · refine ⟨by positivity, ?_⟩
    have : (2 : ℚ) ^ (1 - bias : ℤ) ≤ 1 := by
      apply zpow_le_one_of_nonpos₀ (by norm_num); omega
    have hp : (0 : ℚ) < (2 : ℚ) ^ (1 - bias : ℤ) := by positivity
    nlinarith
  · refine ⟨by positivity, ?_⟩
    rcases h with h | ⟨rfl, rfl⟩
    · have : (2 : ℚ) ^ ((e : ℤ) - bias) ≤ (2 : ℚ) ^ (-1 : ℤ) := by
        apply zpow_le_zpow_right₀ (by norm_num); omega
      have e1 : (2 : ℚ) ^ (-1 : ℤ) = 1 / 2 := by norm_num
      rw [e1] at this
      have hp : (0 : ℚ) < (2 : ℚ) ^ ((e : ℤ) - bias) := by positivity
      nlinarith
    · simp

/-! ## The bit pool hands out each bit of each word once -/

/-- `n` calls of `rand<bool>()`. -/
def Pool.bools (p : Pool) : ℕ → Option (List Bool × Pool)
  | 0 => some ([], p)
  | n + 1 => do
    let (bs, p) ← p.bools n
    let (b, p) ← p.bool
    some (bs ++ [b], p)

theorem bools_eq (ws : List (BitVec 32)) : ∀ n, n ≤ 32 * ws.length →
    ∃ p, (Pool.fresh ws).bools n = some ((List.range n).map
        (fun i => (ws.getD (i / 32) 0).getLsbD (i % 32)), p) ∧
      p.left ≤ 32 ∧ p.left < 32 ∧ (n + p.left) % 32 = 0 ∧ p.words = ws.drop ((n + p.left) / 32) ∧
      (0 < p.left → p.pool = ws.getD ((n + p.left) / 32 - 1) 0 >>> (32 - p.left)) := by
  intro n
  induction n with
  | zero => intro _; exact ⟨_, rfl, by simp [Pool.fresh], by simp [Pool.fresh], by simp [Pool.fresh],
      by simp [Pool.fresh], by simp [Pool.fresh]⟩
  | succ n ih =>
    intro hn
    obtain ⟨p, e0, e1, e2, e3, e4, e5⟩ := ih (by omega)
    obtain ⟨pool, left, words⟩ := p
    simp only at e1 e2 e3 e4 e5
    rcases Nat.eq_zero_or_pos left with rfl | hpos
    · have hlt : n / 32 < ws.length := by omega
      have hw : words = ws[n / 32] :: ws.drop (n / 32 + 1) := by
        rw [e4, Nat.add_zero, ← List.drop_eq_getElem_cons hlt]
      refine ⟨⟨ws[n / 32] >>> 1, 31, ws.drop (n / 32 + 1)⟩, ?_, by simp, by simp, by simp; omega, ?_,
        ?_⟩
      · rw [Pool.bools, e0]
        simp only [Option.bind_eq_bind, Option.bind_some, Pool.bool, Pool.word, hw, if_true,
          List.range_succ, List.map_append, List.map_cons, List.map_nil]
        have h1 : n % 32 = 0 := by omega
        rw [List.getD_eq_getElem?_getD, List.getElem?_eq_getElem hlt, h1]
        rfl
      · simp only
        rw [show (n + 1 + 31) / 32 = n / 32 + 1 by omega]
      · intro _
        simp only
        rw [show (n + 1 + 31) / 32 - 1 = n / 32 by omega, List.getD_eq_getElem?_getD,
          List.getElem?_eq_getElem hlt]
        rfl
    · have e5 := e5 hpos
      refine ⟨⟨pool >>> 1, left - 1, words⟩, ?_, by simp only; omega, by simp only; omega,
        by simp only; omega, ?_, ?_⟩
      · rw [Pool.bools, e0]
        simp only [Option.bind_eq_bind, Option.bind_some, Pool.bool,
          show left ≠ 0 by omega, if_false, List.range_succ, List.map_append, List.map_cons,
          List.map_nil]
        rw [e5, show (n + left) / 32 - 1 = n / 32 by omega, BitVec.getLsbD_ushiftRight,
          show 32 - left + 0 = n % 32 by omega]
      · simp only
        rw [e4]; congr 2; omega
      · intro h
        simp only at h ⊢
        rw [e5, show (n + left) / 32 - 1 = n / 32 by omega,
          show (n + 1 + (left - 1)) / 32 - 1 = n / 32 by omega, ← BitVec.shiftRight_add]
        congr 1; omega

end Geomc.Random
