import Verif.Random.Model
import Mathlib.Tactic.Ring
import Mathlib.Tactic.Linarith
import Mathlib.SetTheory.Cardinal.Finite

namespace Geomc.Random

theorem signmask_zero {w : ℕ} (hw : 0 < w) (x y : BitVec w) :
    (x &&& (1#w <<< (w - 1))) &&& ~~~y = 0 ↔ (x.msb = true → y.msb = true) := by
  have hx : x.msb = x.getLsbD (w - 1) := by
    rw [BitVec.msb_eq_getLsbD_last]
  have hy : y.msb = y.getLsbD (w - 1) := by
    rw [BitVec.msb_eq_getLsbD_last]
  have hbit : ∀ i, i < w → ((x &&& (1#w <<< (w - 1))) &&& ~~~y).getLsbD i =
      (decide (i = w - 1) && (x.getLsbD i && !y.getLsbD i)) := by
    intro i hi
    simp only [BitVec.getLsbD_and, BitVec.getLsbD_shiftLeft, BitVec.getLsbD_not, hi, decide_true,
      Bool.true_and, BitVec.getLsbD_one]
    by_cases h1 : i = w - 1
    · subst h1
      simp [hw]
    · have h2 : i < w - 1 := by omega
      simp [h1, h2]
  constructor
  · intro h hm
    by_contra hc
    have := hbit (w - 1) (by omega)
    rw [h] at this
    rw [hx] at hm
    rw [hy] at hc
    simp [hm] at this
    exact hc this
  · intro h
    apply BitVec.eq_of_getLsbD_eq
    intro i hi
    rw [hbit i hi]
    by_cases h1 : i = w - 1
    · subst h1
      rw [← hx, ← hy]
      cases hxm : x.msb
      · simp
      · simp [h hxm]
    · simp [h1]

theorem draw_cases {w : ℕ} (hw : 2 ≤ w) (hi bits : BitVec w) (h0 : hi ≠ 0) :
    draw hi bits =
      if 2 ^ (w - 1) ≤ bits.toNat - bits.toNat % hi.toNat →
          2 ^ (w - 1) ≤ (bits.toNat - bits.toNat % hi.toNat + (hi.toNat - 1)) % 2 ^ w
      then .accept (bits % hi) else .reject := by
  have hpos : 0 < hi.toNat := by
    rcases Nat.eq_zero_or_pos hi.toNat with h | h
    · exact absurd (BitVec.eq_of_toNat_eq (by simpa using h)) h0
    · exact h
  have hlo : (bits - bits % hi).toNat = bits.toNat - bits.toNat % hi.toNat := by
    rw [BitVec.toNat_sub_of_le]
    · rw [BitVec.toNat_umod]
    · rw [BitVec.le_def, BitVec.toNat_umod]; exact Nat.mod_le _ _
  have hone : (1 : BitVec w).toNat = 1 := by
    simp only [BitVec.ofNat_eq_ofNat, BitVec.toNat_ofNat]
    exact Nat.mod_eq_of_lt (Nat.one_lt_two_pow (by omega))
  have hm1 : (hi - 1).toNat = hi.toNat - 1 := by
    rw [BitVec.toNat_sub_of_le]
    · rw [hone]
    · rw [BitVec.le_def, hone]; omega
  unfold draw
  rw [if_neg h0]
  dsimp only
  have := signmask_zero (by omega : 0 < w) (bits - bits % hi) (bits - bits % hi + (hi - 1))
  by_cases hc : 2 ^ (w - 1) ≤ bits.toNat - bits.toNat % hi.toNat →
          2 ^ (w - 1) ≤ (bits.toNat - bits.toNat % hi.toNat + (hi.toNat - 1)) % 2 ^ w
  · rw [if_pos hc, if_pos]
    rw [this]
    simp only [BitVec.msb_eq_decide, decide_eq_true_eq, BitVec.toNat_add, hlo, hm1]
    exact hc
  · rw [if_neg hc, if_neg]
    rw [this]
    simp only [BitVec.msb_eq_decide, decide_eq_true_eq, BitVec.toNat_add, hlo, hm1]
    exact hc

/-- For bounds up to three quarters of the range, a word is accepted iff its whole chunk fits. -/
theorem accept_iff {M H B : ℕ} (hM : 0 < M) (hH : 0 < H) (hH3 : H ≤ 3 * M) (hB : B < 4 * M) :
    (2 * M ≤ B - B % H → 2 * M ≤ (B - B % H + (H - 1)) % (4 * M)) ↔ B - B % H + H ≤ 4 * M := by
  have hdm := Nat.div_add_mod B H
  have hmod := Nat.mod_lt B hH
  have hL : B - B % H = H * (B / H) := by omega
  rw [hL]
  set q := B / H with hq
  have hLB : H * q ≤ B := by omega
  constructor
  · intro h
    by_contra hc
    push Not at hc
    have hq1 : 1 ≤ q := by
      rcases Nat.eq_zero_or_pos q with h0 | h0
      · rw [h0] at hc; omega
      · exact h0
    have h2 : 2 * M ≤ H * q := by
      rcases Nat.lt_or_ge (2 * M) H with h3 | h3
      · nlinarith
      · omega
    have h3 := h h2
    rw [Nat.mod_eq_sub_mod (by omega), Nat.mod_eq_of_lt (by omega)] at h3
    rcases Nat.lt_or_ge (2 * M) H with h4 | h4
    · have : q = 1 := by
        by_contra hne
        have : 2 ≤ q := by omega
        nlinarith
      rw [this] at h3 hc
      omega
    · omega
  · intro h h2
    rw [Nat.mod_eq_of_lt (by omega)]
    omega

theorem two_pow_split {w : ℕ} (hw : 2 ≤ w) :
    2 ^ w = 4 * 2 ^ (w - 2) ∧ 2 ^ (w - 1) = 2 * 2 ^ (w - 2) := by
  obtain ⟨k, rfl⟩ : ∃ k, w = k + 2 := ⟨w - 2, by omega⟩
  constructor
  · rw [show k + 2 - 2 = k by omega]; ring
  · rw [show k + 2 - 1 = k + 1 by omega, show k + 2 - 2 = k by omega]; ring

theorem draw_accept_iff {w : ℕ} (hw : 2 ≤ w) (hi bits v : BitVec w) (h0 : hi ≠ 0)
    (h3 : hi.toNat ≤ 3 * 2 ^ (w - 2)) :
    draw hi bits = .accept v ↔
      bits.toNat - bits.toNat % hi.toNat + hi.toNat ≤ 2 ^ w ∧ v.toNat = bits.toNat % hi.toNat := by
  have hpos : 0 < hi.toNat := by
    rcases Nat.eq_zero_or_pos hi.toNat with h | h
    · exact absurd (BitVec.eq_of_toNat_eq (by simpa using h)) h0
    · exact h
  obtain ⟨e1, e2⟩ := two_pow_split hw
  have hb := bits.isLt
  have key := accept_iff (M := 2 ^ (w - 2)) (H := hi.toNat) (B := bits.toNat)
    (by positivity) hpos h3 (by omega)
  rw [draw_cases hw hi bits h0, e1, e2]
  by_cases hc : bits.toNat - bits.toNat % hi.toNat + hi.toNat ≤ 4 * 2 ^ (w - 2)
  · rw [if_pos (key.2 hc)]
    simp only [Draw.accept.injEq, hc, true_and]
    constructor
    · rintro rfl; simp
    · intro h; apply BitVec.eq_of_toNat_eq; simp [h]
  · rw [if_neg (fun h => hc (key.1 h))]
    simp [hc]

theorem chunk_iff {B H T : ℕ} (hH : 0 < H) : B - B % H + H ≤ T ↔ B / H < T / H := by
  have hdm := Nat.div_add_mod B H
  have hL : B - B % H = H * (B / H) := by omega
  rw [hL, ← Nat.mul_succ, Nat.succ_eq_add_one, Nat.lt_iff_add_one_le, Nat.le_div_iff_mul_le hH,
    mul_comm]

/-- Exactly `2^w / hi` words are accepted with value `v`, for each `v < hi`. -/
theorem card_accept {w : ℕ} (hw : 2 ≤ w) (hi v : BitVec w) (h0 : hi ≠ 0)
    (h3 : hi.toNat ≤ 3 * 2 ^ (w - 2)) (hv : v.toNat < hi.toNat) :
    Nat.card {bits : BitVec w // draw hi bits = .accept v} = 2 ^ w / hi.toNat := by
  have hpos : 0 < hi.toNat := by omega
  have hlt : ∀ q, q < 2 ^ w / hi.toNat → hi.toNat * q + v.toNat < 2 ^ w := by
    intro q hq
    have h1 : (q + 1) * hi.toNat ≤ 2 ^ w := (Nat.le_div_iff_mul_le hpos).1 hq
    have h2 : (q + 1) * hi.toNat = hi.toNat * q + hi.toNat := by ring
    omega
  have e : {bits : BitVec w // draw hi bits = .accept v} ≃ Fin (2 ^ w / hi.toNat) := by
    refine ⟨fun b => ⟨b.1.toNat / hi.toNat, ?_⟩,
      fun q => ⟨BitVec.ofNat w (hi.toNat * q + v.toNat), ?_⟩, ?_, ?_⟩
    · exact (chunk_iff hpos).1 ((draw_accept_iff hw hi b.1 v h0 h3).1 b.2).1
    · rw [draw_accept_iff hw hi _ v h0 h3]
      have hm : (BitVec.ofNat w (hi.toNat * q + v.toNat)).toNat = hi.toNat * q + v.toNat := by
        rw [BitVec.toNat_ofNat, Nat.mod_eq_of_lt (hlt q q.2)]
      rw [chunk_iff hpos, hm, Nat.mul_add_div hpos, Nat.div_eq_of_lt hv, Nat.mul_add_mod,
        Nat.mod_eq_of_lt hv]
      exact ⟨by simpa using q.2, rfl⟩
    · rintro ⟨b, hb⟩
      obtain ⟨_, h2⟩ := (draw_accept_iff hw hi b v h0 h3).1 hb
      apply Subtype.ext
      apply BitVec.eq_of_toNat_eq
      simp only [BitVec.toNat_ofNat, h2, Nat.div_add_mod]
      exact Nat.mod_eq_of_lt b.isLt
    · intro q
      apply Fin.ext
      simp only [BitVec.toNat_ofNat]
      rw [Nat.mod_eq_of_lt (hlt q q.2), Nat.mul_add_div hpos, Nat.div_eq_of_lt hv]
      simp
  rw [Nat.card_congr e, Nat.card_fin]

theorem draw_accept_lt {w : ℕ} (hi bits v : BitVec w) (h : draw hi bits = .accept v) :
    v.toNat < hi.toNat := by
  unfold draw at h
  split_ifs at h with h0
  dsimp only at h
  split_ifs at h with h1
  cases h
  rw [BitVec.toNat_umod]
  apply Nat.mod_lt
  rcases Nat.eq_zero_or_pos hi.toNat with h | h
  · exact absurd (BitVec.eq_of_toNat_eq (by simpa using h)) h0
  · exact h

theorem randBelow_lt {w : ℕ} (hi : BitVec w) : ∀ (ws : List (BitVec w)) (v ws'),
    randBelow hi ws = some (v, ws') → v.toNat < hi.toNat ∧ ∃ pre b, ws = pre ++ b :: ws' ∧
      (∀ x ∈ pre, draw hi x = .reject) ∧ draw hi b = .accept v := by
  intro ws
  induction ws with
  | nil => intro v ws' h; simp [randBelow] at h
  | cons b ws ih =>
    intro v ws' h
    rw [randBelow] at h
    cases hd : draw hi b with
    | ub => rw [hd] at h; simp at h
    | reject =>
      rw [hd] at h
      obtain ⟨h1, pre, b', h2, h3, h4⟩ := ih v ws' h
      refine ⟨h1, b :: pre, b', by rw [h2]; rfl, ?_, h4⟩
      intro x hx
      rcases List.mem_cons.1 hx with rfl | hx
      · exact hd
      · exact h3 x hx
    | accept v' =>
      rw [hd] at h
      simp only [Option.some.injEq, Prod.mk.injEq] at h
      obtain ⟨rfl, rfl⟩ := h
      exact ⟨draw_accept_lt hi b v' hd, [], b, rfl, by simp, hd⟩

/-- Every word below `2^(w-1)` is accepted: the loop ends with the first such word at the latest. -/
theorem draw_low {w : ℕ} (hw : 2 ≤ w) (hi bits : BitVec w) (h0 : hi ≠ 0)
    (hb : bits.toNat < 2 ^ (w - 1)) : draw hi bits = .accept (bits % hi) := by
  rw [draw_cases hw hi bits h0, if_pos]
  intro h
  omega

theorem randBelow_some {w : ℕ} (hw : 2 ≤ w) (hi : BitVec w) (h0 : hi ≠ 0) :
    ∀ ws : List (BitVec w), (∃ b ∈ ws, b.toNat < 2 ^ (w - 1)) → (randBelow hi ws).isSome := by
  intro ws
  induction ws with
  | nil => rintro ⟨b, hb, _⟩; simp at hb
  | cons b ws ih =>
    rintro ⟨x, hx, hlt⟩
    rw [randBelow]
    cases hd : draw hi b with
    | ub =>
      rw [draw_cases hw hi b h0] at hd
      split_ifs at hd
    | reject =>
      apply ih
      rcases List.mem_cons.1 hx with rfl | hx
      · rw [draw_low hw hi _ h0 hlt] at hd; cases hd
      · exact ⟨x, hx, hlt⟩
    | accept v => rfl

theorem randBelow_zero {w : ℕ} (ws : List (BitVec w)) : randBelow (0 : BitVec w) ws = none := by
  cases ws with
  | nil => rfl
  | cons b ws => simp [randBelow, draw]

theorem half_double {w : ℕ} (hw : 2 ≤ w) : (2 : ℕ) ^ w = 2 * 2 ^ (w - 1) := by
  obtain ⟨k, rfl⟩ : ∃ k, w = k + 1 := ⟨w - 1, by omega⟩
  rw [Nat.add_sub_cancel, pow_succ]
  omega

theorem ofInt_toNat {w : ℕ} (hw : 2 ≤ w) (x : ℤ) (h0 : 0 ≤ x) (h1 : x < 2 ^ (w - 1)) :
    (BitVec.ofInt w x).toNat = x.toNat := by
  rw [BitVec.toNat_ofInt]
  congr 1
  have e := half_double hw
  have : ((2 ^ (w - 1) : ℕ) : ℤ) = 2 ^ (w - 1) := by push_cast; rfl
  exact Int.emod_eq_of_lt h0 (by rw [e]; push_cast; omega)

theorem toInt_small {w : ℕ} (hw : 2 ≤ w) (v : BitVec w) (h : v.toNat < 2 ^ (w - 1)) : v.toInt = v.toNat := by
  rw [BitVec.toInt_eq_toNat_of_lt]
  rw [half_double hw]
  omega

theorem toInt_neg_small {w : ℕ} (hw : 2 ≤ w) (v : BitVec w) (h : v.toNat < 2 ^ (w - 1)) : (-v).toInt = -(v.toNat : ℤ) := by
  rw [BitVec.toInt_neg, toInt_small hw v h, half_double hw]
  rw [Int.bmod_eq_of_le] <;> omega

theorem randInt_pos {w : ℕ} (hw : 2 ≤ w) (hi : ℤ) (h0 : 0 < hi) (h1 : hi < 2 ^ (w - 1)) (ws : List (BitVec w)) (r ws')
    (h : randInt hi ws = some (r, ws')) : 0 ≤ r ∧ r < hi := by
  unfold randInt at h
  rw [if_neg (by omega)] at h
  simp only [Option.bind_eq_bind, Option.bind_eq_some_iff] at h
  obtain ⟨⟨v, ws1⟩, e1, e2⟩ := h
  simp only [Option.some.injEq, Prod.mk.injEq] at e2
  obtain ⟨rfl, rfl⟩ := e2
  have := (randBelow_lt _ _ _ _ e1).1
  rw [ofInt_toNat hw hi h0.le h1] at this
  have e : ((2 ^ (w - 1) : ℕ) : ℤ) = 2 ^ (w - 1) := by push_cast; rfl
  have hv : v.toNat < 2 ^ (w - 1) := by omega
  rw [toInt_small hw v hv]
  omega

theorem randInt_neg {w : ℕ} (hw : 2 ≤ w) (hi : ℤ) (h0 : hi < 0) (ws : List (BitVec w)) (r ws')
    (h : randInt hi ws = some (r, ws')) : hi < r ∧ r ≤ 0 := by
  unfold randInt at h
  rw [if_pos h0] at h
  simp only [Option.bind_eq_bind, Option.bind_eq_some_iff] at h
  obtain ⟨m, e0, ⟨v, ws1⟩, e1, e2⟩ := h
  simp only [chkInt] at e0
  split_ifs at e0 with hc
  cases e0
  simp only [Option.some.injEq, Prod.mk.injEq] at e2
  obtain ⟨rfl, rfl⟩ := e2
  have := (randBelow_lt _ _ _ _ e1).1
  rw [ofInt_toNat hw (-hi) (by omega) hc.2] at this
  have e : ((2 ^ (w - 1) : ℕ) : ℤ) = 2 ^ (w - 1) := by push_cast; rfl
  have hv : v.toNat < 2 ^ (w - 1) := by have := hc.2; omega
  rw [toInt_neg_small hw v hv]
  omega

end Geomc.Random
