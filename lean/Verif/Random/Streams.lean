import Verif.Random.Props

/-!
# C14, C17, C18: where the signed draws are defined, what the seeds give, and the stream of bits
-/

namespace Geomc.Random

/-- **C14, where the signed range is defined.** For different `int` bounds less than 2^31 apart, one word below 2^31 in the stream is
enough for an answer; the answer lies in the half-open range.  For 64 bits it is 2^63. -/
theorem C14_signed_defined {w : ℕ} (hw2 : 2 ≤ w) {lo hi : ℤ} (hne : lo ≠ hi) (hlo : -2 ^ (w - 1) ≤ min lo hi)
    (hhi : max lo hi < 2 ^ (w - 1)) (hs : max lo hi - min lo hi < 2 ^ (w - 1)) {ws : List (BitVec w)}
    (hw : ∃ b ∈ ws, b.toNat < 2 ^ (w - 1)) :
    ∃ r ws', randIntRange lo hi ws = some (r, ws') ∧ min lo hi ≤ r ∧ r < max lo hi := by
  have hpos : 0 < max lo hi - min lo hi := by
    rcases lt_or_gt_of_ne hne with h | h
    · rw [max_eq_right h.le, min_eq_left h.le]; omega
    · rw [max_eq_left h.le, min_eq_right h.le]; omega
  have hd : max hi lo - min hi lo = max lo hi - min lo hi := by rw [max_comm, min_comm]
  have hn : (BitVec.ofInt w (max lo hi - min lo hi)) ≠ 0 := by
    intro e
    have := ofInt_toNat hw2 _ hpos.le hs
    rw [e] at this
    simp at this
    omega
  obtain ⟨⟨v, ws'⟩, hv⟩ := Option.isSome_iff_exists.1 (randBelow_some hw2 _ hn ws hw)
  have hr : randInt (max lo hi - min lo hi) ws = some (v.toInt, ws') := by
    rw [randInt, if_neg (by omega), hv]
    rfl
  have hb := randInt_pos hw2 _ hpos hs ws _ _ hr
  refine ⟨v.toInt + min lo hi, ws', ?_, by omega, by omega⟩
  simp only [randIntRange, hd, chkInt]
  rw [if_pos (by omega)]
  simp only [Option.bind_eq_bind, Option.bind_some, hr]
  rw [min_comm hi lo, if_pos (by omega)]
  rfl

/-- The least `int` is drawn. -/
example : randIntRange (-2147483648) (-2147483640) [0#32] = some (-2147483648, []) := by decide +kernel

/-- **C17, seeding from a source of entropy.** Four values a golden gamma apart give the state of the single seed; different values give
different states; and the state is zero for exactly one quadruple. -/
theorem C17_entropy :
    (∀ s, Xo.seedF s (s + 0x9E3779B97f4A7C15#64) (s + 0x9E3779B97f4A7C15#64 + 0x9E3779B97f4A7C15#64)
      (s + 0x9E3779B97f4A7C15#64 + 0x9E3779B97f4A7C15#64 + 0x9E3779B97f4A7C15#64) = Xo.rseed s) ∧
    (∀ a b c d a' b' c' d', Xo.seedF a b c d = Xo.seedF a' b' c' d' → a = a' ∧ b = b' ∧ c = c' ∧ d = d') ∧
    ∀ a b c d, Xo.seedF a b c d = ⟨0, 0, 0, 0⟩ ↔ a = -0x9E3779B97f4A7C15#64 ∧ b = -0x9E3779B97f4A7C15#64 ∧
      c = -0x9E3779B97f4A7C15#64 ∧ d = -0x9E3779B97f4A7C15#64 := by
  have hinj : ∀ a b c d a' b' c' d', Xo.seedF a b c d = Xo.seedF a' b' c' d' → a = a' ∧ b = b' ∧ c = c' ∧ d = d' := by
    intro a b c d a' b' c' d' h
    simp only [Xo.seedF, Xo.mk.injEq] at h
    exact ⟨splitmix_inj h.1, splitmix_inj h.2.1, splitmix_inj h.2.2.1, splitmix_inj h.2.2.2⟩
  refine ⟨fun s => rfl, hinj, fun a b c d => ⟨fun h => ?_, ?_⟩⟩
  · rw [← C17_other_seeds_refuted.2.1] at h
    exact hinj _ _ _ _ _ _ _ _ h
  · rintro ⟨rfl, rfl, rfl, rfl⟩
    exact C17_other_seeds_refuted.2.1

/-- The generator after `n` calls of `rand<bool>()`. -/
theorem lc_bits (seed : BitVec 64) (n : ℕ) :
    let g := (fun g : LCGen => g.bool.2)^[n] (LCGen.new seed)
    if n % 32 = 0 then g.left = 0 ∧ g.state = lcStep^[n / 32] seed
    else g.left = 32 - n % 32 ∧ g.state = lcStep^[n / 32 + 1] seed ∧
      g.pool = ((lcStep^[n / 32 + 1] seed >>> 32).setWidth 32) >>> (n % 32) := by
  induction n with
  | zero => exact ⟨rfl, rfl⟩
  | succ n ih =>
    simp only [Function.iterate_succ_apply'] at ih ⊢
    generalize (fun g : LCGen => g.bool.2)^[n] (LCGen.new seed) = g at ih ⊢
    by_cases h0 : n % 32 = 0
    · rw [if_pos h0] at ih
      have h1 : (n + 1) % 32 = 1 := by omega
      have h2 : (n + 1) / 32 = n / 32 := by omega
      rw [if_neg (by omega), h1, h2]
      simp only [LCGen.bool, ih.1, if_true, lcRand32, ih.2, Function.iterate_succ_apply']
      exact ⟨trivial, trivial, trivial⟩
    · rw [if_neg h0] at ih
      have hl : g.left ≠ 0 := by omega
      by_cases h1 : (n + 1) % 32 = 0
      · have h2 : (n + 1) / 32 = n / 32 + 1 := by omega
        rw [if_pos h1, h2]
        simp only [LCGen.bool, if_neg hl]
        rw [Function.iterate_succ_apply']
        exact ⟨by omega, ih.2.1⟩
      · have h2 : (n + 1) / 32 = n / 32 := by omega
        have h3 : (n + 1) % 32 = n % 32 + 1 := by omega
        rw [if_neg h1, h2, h3]
        simp only [LCGen.bool, if_neg hl]
        refine ⟨by omega, ih.2.1, ?_⟩
        rw [ih.2.2, BitVec.shiftRight_add]

/-- **C18, bits.** The stream of `rand<bool>()` of a new `LCRand` is the bits of its words, from the lowest up: none is dropped or given
twice. -/
theorem C18_bits (seed : BitVec 64) (n : ℕ) :
    ((fun g : LCGen => g.bool.2)^[n] (LCGen.new seed)).bool.1 =
      ((lcStep^[n / 32 + 1] seed >>> 32).setWidth 32 : BitVec 32).getLsbD (n % 32) := by
  have h := lc_bits seed n
  simp only at h
  generalize (fun g : LCGen => g.bool.2)^[n] (LCGen.new seed) = g at h ⊢
  by_cases h0 : n % 32 = 0
  · rw [if_pos h0] at h
    simp only [LCGen.bool, h.1, if_true, lcRand32, h.2, Function.iterate_succ_apply', h0]
  · rw [if_neg h0] at h
    have hl : g.left ≠ 0 := by omega
    simp only [LCGen.bool, if_neg hl, h.2.2, BitVec.getLsbD_ushiftRight, Nat.add_zero]

/-- The first bits from the seed 2. -/
example : (List.range 8).map (fun n => ((fun g : LCGen => g.bool.2)^[n] (LCGen.new 2#64)).bool.1) =
    (List.range 8).map (fun n => ((lcStep 2#64 >>> 32).setWidth 32 : BitVec 32).getLsbD n) := by decide +kernel

end Geomc.Random
