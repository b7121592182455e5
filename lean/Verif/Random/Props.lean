import Verif.Random.LemmasInt
import Verif.Random.LemmasFloat
import Verif.Random.LemmasGen
import Mathlib.Data.List.FinRange

/-!
# C14-C18: random numbers
-/

namespace Geomc.Random

/-! ## C14 -/

/-- **C14, range and termination.** At 32 and 64 bits (any width ≥ 2), for every stream of generator
words: a value returned by `rand(hi)` is below `hi` and comes from the first word which is not
rejected; and every stream containing a word of the lower half of the range makes the call return
(each `hi ≠ 0`). -/
theorem C14_range {w : ℕ} (hw : 2 ≤ w) (hi : BitVec w) (h0 : hi ≠ 0) (ws : List (BitVec w)) :
    (∀ v ws', randBelow hi ws = some (v, ws') → v.toNat < hi.toNat) ∧
    ((∃ b ∈ ws, b.toNat < 2 ^ (w - 1)) → (randBelow hi ws).isSome = true) :=
  ⟨fun v ws' h => (randBelow_lt hi ws v ws' h).1, randBelow_some hw hi h0 ws⟩

/-- The words for which one pass of the loop yields `v`. -/
def Words {w : ℕ} (hi v : BitVec w) : Type := {bits : BitVec w // draw hi bits = .accept v}

/-- **C14, exactness.** For bounds up to three quarters of the word range every result `v < hi` is
produced by exactly `⌊2^w / hi⌋` generator words: no value is favoured.
Missing: larger bounds, for which it is false (`C14_biased_refuted`). -/
theorem C14_unbiased_partial {w : ℕ} (hw : 2 ≤ w) (hi v : BitVec w) (h0 : hi ≠ 0)
    (h3 : hi.toNat ≤ 3 * 2 ^ (w - 2)) (hv : v.toNat < hi.toNat) :
    Nat.card (Words hi v) = 2 ^ w / hi.toNat :=
  card_accept hw hi v h0 h3 hv

example : (5#32).toNat ≤ 3 * 2 ^ (32 - 2) ∧ (4#32).toNat < (5#32).toNat := by decide

/-- **C14 refuted** for every bound above three quarters of the word range: value `0` is produced by
two words and value `hi - 1` by only one. -/
theorem C14_biased_refuted {w : ℕ} (hw : 2 ≤ w) (hi : BitVec w) (h3 : 3 * 2 ^ (w - 2) < hi.toNat) :
    draw hi 0 = .accept 0 ∧ draw hi hi = .accept 0 ∧ (0 : BitVec w) ≠ hi ∧
    draw hi (hi - 1) = .accept (hi - 1) ∧
    ∀ b, draw hi b = .accept (hi - 1) → b = hi - 1 := by
  obtain ⟨e1, e2⟩ := two_pow_split hw
  have hlt := hi.isLt
  have hM : 0 < 2 ^ (w - 2) := by positivity
  have hpos : 0 < hi.toNat := by omega
  have h0 : hi ≠ 0 := by rintro rfl; simp at hpos
  have hone : (1 : BitVec w).toNat = 1 := by
    simp only [BitVec.ofNat_eq_ofNat, BitVec.toNat_ofNat]
    exact Nat.mod_eq_of_lt (Nat.one_lt_two_pow (by omega))
  have hm1 : (hi - 1).toNat = hi.toNat - 1 := by
    rw [BitVec.toNat_sub_of_le]
    · rw [hone]
    · rw [BitVec.le_def, hone]; omega
  refine ⟨?_, ?_, fun h => h0 h.symm, ?_, ?_⟩
  · rw [draw_cases hw hi 0 h0, if_pos]
    · congr 1
    · simp
  · rw [draw_cases hw hi hi h0, if_pos]
    · congr 1; apply BitVec.eq_of_toNat_eq; simp
    · intro _
      rw [Nat.mod_self, Nat.sub_zero, Nat.mod_eq_sub_mod (by omega), Nat.mod_eq_of_lt (by omega)]
      omega
  · rw [draw_cases hw hi (hi - 1) h0, if_pos]
    · congr 1
      apply BitVec.eq_of_toNat_eq
      rw [BitVec.toNat_umod, hm1, Nat.mod_eq_of_lt (by omega)]
    · intro h
      rw [hm1, Nat.mod_eq_of_lt (by omega)] at h
      omega
  · intro b hb
    rw [draw_cases hw hi b h0] at hb
    split_ifs at hb
    simp only [Draw.accept.injEq] at hb
    have := congrArg BitVec.toNat hb
    rw [BitVec.toNat_umod, hm1] at this
    apply BitVec.eq_of_toNat_eq
    rw [hm1]
    have hb' := b.isLt
    have hd := Nat.div_add_mod b.toNat hi.toNat
    rcases Nat.eq_zero_or_pos (b.toNat / hi.toNat) with hq | hq
    · rw [hq] at hd; omega
    · have : hi.toNat * 1 ≤ hi.toNat * (b.toNat / hi.toNat) := Nat.mul_le_mul_left _ hq
      omega

example : 3 * 2 ^ (32 - 2) < (0xE0000000#32).toNat := by decide

/-- **C14, signed bounds.** `rand<int>(hi)` lies in `[0,hi)` for positive and `(hi,0]` for negative
bounds; `rand<int>(lo,hi)` lies in `[min,max)`, whichever order the bounds are given in; likewise for wider integers. -/
theorem C14_signed {w : ℕ} (hw : 2 ≤ w) (ws ws' : List (BitVec w)) (r : ℤ) :
    (∀ hi, 0 < hi → hi < 2 ^ (w - 1) → randInt hi ws = some (r, ws') → 0 ≤ r ∧ r < hi) ∧
    (∀ hi, hi < 0 → randInt hi ws = some (r, ws') → hi < r ∧ r ≤ 0) ∧
    (∀ lo hi, lo ≠ hi → randIntRange lo hi ws = some (r, ws') → min lo hi ≤ r ∧ r < max lo hi) := by
  refine ⟨fun hi h0 h1 h => randInt_pos hw hi h0 h1 ws r ws' h,
    fun hi h0 h => randInt_neg hw hi h0 ws r ws' h, ?_⟩
  intro lo hi hne h
  simp only [randIntRange, Option.bind_eq_bind, Option.bind_eq_some_iff] at h
  obtain ⟨d, e1, ⟨v, ws1⟩, e2, r', e3, e4⟩ := h
  simp only [chkInt] at e1 e3
  split_ifs at e1 e3 with c1 c3
  cases e1
  cases e3
  simp only [Option.some.injEq, Prod.mk.injEq] at e4
  obtain ⟨rfl, rfl⟩ := e4
  have hpos : 0 < max hi lo - min hi lo := by
    rcases lt_or_gt_of_ne hne with h | h
    · rw [max_eq_left h.le, min_eq_right h.le]; omega
    · rw [max_eq_right h.le, min_eq_left h.le]; omega
  have := randInt_pos hw _ hpos c1.2 ws v ws1 e2
  rw [max_comm, min_comm] at this
  rw [min_comm hi lo]
  omega

/-- The signed calls are undefined exactly where the doc's ranges make no sense or overflow: `lo = hi`
and spans of 2^31 or more (2^63 for 64 bits); and the least integer as a bound. -/
theorem C14_signed_undefined {w : ℕ} (ws : List (BitVec w)) :
    (∀ lo, randIntRange lo lo ws = none) ∧
    (∀ lo hi, 2 ^ (w - 1) ≤ max hi lo - min hi lo → randIntRange lo hi ws = none) ∧
    randInt (-2 ^ (w - 1)) ws = none := by
  have hp : (0 : ℤ) < 2 ^ (w - 1) := by positivity
  refine ⟨?_, ?_, ?_⟩
  · intro lo
    have h0 := randBelow_zero (w := w) ws
    simp only [BitVec.ofNat_eq_ofNat] at h0
    simp [randIntRange, chkInt, randInt, h0]
  · intro lo hi h
    simp only [randIntRange, chkInt]
    rw [if_neg (by omega)]; rfl
  · rw [randInt, if_pos (by omega)]
    simp only [chkInt]
    rw [if_neg (by omega)]; rfl

example : (randIntRange 3 7 [5#32]) = some (4, []) ∧ (randIntRange (-3) 7000000000 [5#64]) = some (2, []) := by decide +kernel

/-! ## C15 -/

/-- IEEE-754 value of a binary32 pattern (`none` for infinities and NaN). -/
def decode32 (b : BitVec 32) : Option ℚ :=
  let s : ℕ := b.toNat / 2 ^ 31
  let e : ℕ := b.toNat / 2 ^ 23 % 256
  let m : ℕ := b.toNat % 2 ^ 23
  if e = 255 then none
  else some ((-1) ^ s * (if e = 0 then (m : ℚ) / 2 ^ 23 * (2 : ℚ) ^ (1 - (127 : ℕ) : ℤ)
    else (1 + (m : ℚ) / 2 ^ 23) * (2 : ℚ) ^ ((e : ℤ) - (127 : ℕ))))

/-- IEEE-754 value of a binary64 pattern. -/
def decode64 (b : BitVec 64) : Option ℚ :=
  let s : ℕ := b.toNat / 2 ^ 63
  let e : ℕ := b.toNat / 2 ^ 52 % 2048
  let m : ℕ := b.toNat % 2 ^ 52
  if e = 2047 then none
  else some ((-1) ^ s * (if e = 0 then (m : ℚ) / 2 ^ 52 * (2 : ℚ) ^ (1 - (1023 : ℕ) : ℤ)
    else (1 + (m : ℚ) / 2 ^ 52) * (2 : ℚ) ^ ((e : ℤ) - (1023 : ℕ))))

/-- **C15.** For every state of the bit pool and every stream of generator words, the pattern returned
by `rand<float>` / `rand<double>` is a finite number in `[0,1]`; and 5 (35) further words always
suffice, so the exponent loop ends. -/
theorem C15_unit_interval (p : Pool) :
    (∀ r p', randFloat p = some (r, p') → ∃ q, decode32 r = some q ∧ 0 ≤ q ∧ q ≤ 1) ∧
    (∀ r p', randDouble p = some (r, p') → ∃ q, decode64 r = some q ∧ 0 ≤ q ∧ q ≤ 1) ∧
    (p.left ≤ 32 → 5 ≤ p.words.length → (randFloat p).isSome = true) ∧
    (p.left ≤ 32 → 35 ≤ p.words.length → (randDouble p).isSome = true) := by
  refine ⟨?_, ?_, ?_, ?_⟩
  · intro r p' h
    obtain ⟨e, m, hr, hm, he⟩ := randFloat_fields p r p' h
    have h1 : r.toNat / 2 ^ 31 = 0 := by omega
    have h2 : r.toNat / 2 ^ 23 % 256 = e := by omega
    have h3 : r.toNat % 2 ^ 23 = m := by omega
    refine ⟨_, ?_, unit_range 127 23 e m (by decide) hm (by omega)⟩
    simp only [decode32, h1, h2, h3, pow_zero, one_mul]
    rw [if_neg (by omega)]
  · intro r p' h
    obtain ⟨e, m, hr, hm, he⟩ := randDouble_fields p r p' h
    have h1 : r.toNat / 2 ^ 63 = 0 := by omega
    have h2 : r.toNat / 2 ^ 52 % 2048 = e := by omega
    have h3 : r.toNat % 2 ^ 52 = m := by omega
    refine ⟨_, ?_, unit_range 1023 52 e m (by decide) hm (by omega)⟩
    simp only [decode64, h1, h2, h3, pow_zero, one_mul]
    rw [if_neg (by omega)]
  · intro hl h
    exact randFloat_isSome p hl (by simp only [Pool.bits]; omega)
  · intro hl h
    exact randDouble_isSome p hl (by simp only [Pool.bits]; omega)

/-- **C15, bits.** `rand<bool>()` hands out every bit of every generator word exactly once, least
significant first. -/
theorem C15_bits (ws : List (BitVec 32)) (n : ℕ) (hn : n ≤ 32 * ws.length) :
    ∃ p, (Pool.fresh ws).bools n =
      some ((List.range n).map (fun i => (ws.getD (i / 32) 0).getLsbD (i % 32)), p) := by
  obtain ⟨p, h, _⟩ := bools_eq ws n hn
  exact ⟨p, h⟩

/-- `k` calls of `rand<bool>()`, all returning `false`, lead from the first pool to the second. -/
inductive Tails : Pool → ℕ → Pool → Prop
  | nil (p) : Tails p 0 p
  | cons {p p1 p2 k} : p.bool = some (false, p1) → Tails p1 k p2 → Tails p (k + 1) p2

theorem expLoop_tails : ∀ (n : ℕ) (p : Pool) (e : ℕ) (p2 : Pool), expLoop n p = some (e, p2) →
    ∃ k p1, e + k = n ∧ Tails p k p1 ∧ if k = n then p2 = p1 else p1.bool = some (true, p2) := by
  intro n
  induction n with
  | zero =>
    intro p e p2 h
    simp only [expLoop, Option.some.injEq, Prod.mk.injEq] at h
    exact ⟨0, p, by omega, .nil p, by simp [h.2]⟩
  | succ n ih =>
    intro p e p2 h
    rw [expLoop] at h
    simp only [Option.bind_eq_bind, Option.bind_eq_some_iff] at h
    obtain ⟨⟨b, q⟩, e1, h⟩ := h
    cases b with
    | true =>
      simp only [if_true, Option.some.injEq, Prod.mk.injEq] at h
      refine ⟨0, p, by omega, .nil p, ?_⟩
      rw [if_neg (by omega), e1, h.2]
    | false =>
      simp only [Bool.false_eq_true, if_false] at h
      obtain ⟨k, p1, f1, f2, f3⟩ := ih q e p2 h
      refine ⟨k + 1, p1, by omega, .cons e1 f2, ?_⟩
      simpa using f3

/-- **C15, distribution.** The value of `rand<float>()` as a function of the coins: the binade is chosen
by the number `k` of tails before the first head (at most 126), the position inside it by the top 23
bits `m` of one word; on `m = 0` one more coin decides between the two ends of the binade. -/
theorem C15_law (p : Pool) (r : BitVec 32) (p' : Pool) (h : randFloat p = some (r, p')) :
    ∃ k p1 p2 w p3, k ≤ 126 ∧ Tails p k p1 ∧
      (if k = 126 then p2 = p1 else p1.bool = some (true, p2)) ∧ p2.word = some (w, p3) ∧
      (w.toNat / 2 ^ 9 ≠ 0 → p' = p3 ∧ decode32 r = some (if k = 126 then
          ((w.toNat / 2 ^ 9 : ℕ) : ℚ) / 2 ^ 23 * 2 ^ (-126 : ℤ)
        else (1 + ((w.toNat / 2 ^ 9 : ℕ) : ℚ) / 2 ^ 23) * 2 ^ (-(k + 1) : ℤ))) ∧
      (w.toNat / 2 ^ 9 = 0 → ∃ b, p3.bool = some (b, p') ∧
        decode32 r = some (if b then 2 ^ (-(k : ℤ)) else
          if k = 126 then 0 else 2 ^ (-(k + 1) : ℤ))) := by
  unfold randFloat at h
  simp only [Option.bind_eq_bind, Option.bind_eq_some_iff] at h
  obtain ⟨⟨e, p2⟩, h1, ⟨w, p3⟩, h2, ⟨e', p4⟩, h3, h4⟩ := h
  simp only [Option.some.injEq, Prod.mk.injEq] at h4
  obtain ⟨hr, rfl⟩ := h4
  obtain ⟨k, p1, f1, f2, f3⟩ := expLoop_tails _ _ _ _ h1
  have hm : ((w &&& 0xFFFFFE00#32) >>> 9).toNat < 2 ^ 23 := by
    rw [mant32]; have := w.isLt; omega
  have hb := bump_le _ _ _ _ _ h3
  have hr' := assemble (k := 23) e' _ (by decide) hm (by norm_num; omega)
  rw [hr, mant32] at hr'
  rw [mant32] at hm
  have d1 : r.toNat / 2 ^ 31 = 0 := by omega
  have d2 : r.toNat / 2 ^ 23 % 256 = e' := by omega
  have d3 : r.toNat % 2 ^ 23 = w.toNat / 2 ^ 9 := by omega
  have hz : ((w &&& 0xFFFFFE00#32) >>> 9 = 0) ↔ w.toNat / 2 ^ 9 = 0 := by
    rw [← mant32]
    constructor
    · intro h; rw [h]; rfl
    · intro h; exact BitVec.eq_of_toNat_eq h
  have hdec : decode32 r = some (if e' = 0 then
      ((w.toNat / 2 ^ 9 : ℕ) : ℚ) / 2 ^ 23 * (2 : ℚ) ^ (1 - (127 : ℕ) : ℤ)
      else (1 + ((w.toNat / 2 ^ 9 : ℕ) : ℚ) / 2 ^ 23) * (2 : ℚ) ^ ((e' : ℤ) - (127 : ℕ))) := by
    simp only [decode32, d1, d2, d3, pow_zero, one_mul]
    rw [if_neg (by omega)]
  refine ⟨k, p1, p2, w, p3, by omega, f2, by simpa using f3, h2, ?_, ?_⟩
  · intro hne
    simp only [bump, hz, hne, decide_false, Bool.false_eq_true, if_false, Option.some.injEq,
      Prod.mk.injEq] at h3
    obtain ⟨rfl, rfl⟩ := h3
    refine ⟨rfl, ?_⟩
    rw [hdec]
    congr 1
    by_cases hk : k = 126
    · rw [if_pos hk, if_pos (by omega)]
      norm_num
    · rw [if_neg hk, if_neg (by omega)]
      congr 2
      push_cast; omega
  · intro h0
    simp only [bump, hz, h0, decide_true, if_true, Option.bind_eq_bind,
      Option.bind_eq_some_iff] at h3
    obtain ⟨⟨b, q⟩, g1, g2⟩ := h3
    simp only [Option.some.injEq, Prod.mk.injEq] at g2
    obtain ⟨rfl, rfl⟩ := g2
    refine ⟨b, g1, ?_⟩
    rw [hdec, h0]
    congr 1
    cases b with
    | true =>
      simp only [if_true, Nat.cast_zero, zero_div, add_zero, one_mul]
      rw [if_neg (by omega)]
      congr 1
      push_cast; omega
    | false =>
      simp only [Bool.false_eq_true, if_false, Nat.cast_zero, zero_div, zero_mul, add_zero, one_mul]
      by_cases hk : k = 126
      · rw [if_pos hk, if_pos (by omega)]
      · rw [if_neg hk, if_neg (by omega)]
        congr 1
        push_cast; omega

/-- A concrete draw: the largest value, exactly `1.0`, when the first coin stops the loop, the mantissa
is zero and the last coin is set. -/
example : (randFloat (Pool.fresh [3#32, 0#32])).map (·.1) = some 0x3F800000#32 := by decide

/-! ## C16 -/

/-- **C16.** For every length `n`, `permute` is defined for every sequence of in-range choices, its
result is a rearrangement of the input, and choices correspond one-to-one to the `n!` orders. -/
theorem C16_permute (n : ℕ) :
    (∀ (α : Type) (c : (i : Fin n) → Fin (n - i)) (objs : ℕ → α),
      ∃ out, permute n (fun i => if h : i < n then (c ⟨i, h⟩ : ℕ) else 0) objs = some out ∧
        ((List.range n).map out).Perm ((List.range n).map objs)) ∧
    (∀ τ : Equiv.Perm (Fin n), ∃! c : (i : Fin n) → Fin (n - i),
      ∀ (α : Type) (objs : ℕ → α), ∃ out,
        permute n (fun i => if h : i < n then (c ⟨i, h⟩ : ℕ) else 0) objs = some out ∧
        ∀ k : Fin n, out k = objs (τ k)) := by
  have hc : ∀ c : (i : Fin n) → Fin (n - i), ∀ j, j < n →
      (fun i => if h : i < n then (c ⟨i, h⟩ : ℕ) else 0) j + j < n := by
    intro c j hj
    have := (c ⟨j, hj⟩).2
    simp only [hj, dif_pos]
    simp only at this
    omega
  constructor
  · intro α c objs
    refine ⟨_, permute_eq n _ (hc c) objs, ?_⟩
    set σ := shuffle (fun i => if h : i < n then (c ⟨i, h⟩ : ℕ) else 0) 0 n with hσ
    have hfix : ∀ k, n ≤ k → σ k = k := fun k hk =>
      shuffle_fix _ n n 0 (by omega) (fun j _ => hc c j) k (Or.inr hk)
    have hlt : ∀ k, k < n → σ k < n := by
      intro k hk
      by_contra hcon
      have := hfix (σ k) (by omega)
      have := σ.injective this
      omega
    rw [← List.map_map]
    apply List.Perm.map
    rw [List.perm_ext_iff_of_nodup (List.Nodup.map σ.injective List.nodup_range) List.nodup_range]
    intro a
    simp only [List.mem_map, List.mem_range]
    constructor
    · rintro ⟨k, hk, rfl⟩; exact hlt k hk
    · intro ha
      refine ⟨σ.symm a, ?_, by simp⟩
      by_contra hcon
      have := hfix (σ.symm a) (by omega)
      simp at this
      omega
  · intro τ
    -- extend τ to all of ℕ
    let T : Equiv.Perm ℕ := τ.extendDomain (Fin.equivSubtype (n := n))
    have hT1 : ∀ k : Fin n, T k = τ k := fun k => by
      have := Equiv.Perm.extendDomain_apply_image τ (Fin.equivSubtype (n := n)) k
      simpa [T] using this
    have hT2 : ∀ k, n ≤ k → T k = k := fun k hk =>
      Equiv.Perm.extendDomain_apply_not_subtype τ (Fin.equivSubtype (n := n)) (by omega)
    obtain ⟨c, hcb, hs⟩ := shuffle_exists n n 0 T (by omega) (by
      intro k hk; exact hT2 k (by omega))
    have hagree : ∀ (d e : ℕ → ℕ) (m i : ℕ), (∀ j, i ≤ j → j < i + m → d j = e j) →
        shuffle d i m = shuffle e i m := by
      intro d e m
      induction m with
      | zero => intros; rfl
      | succ m ih =>
        intro i h
        rw [shuffle, shuffle, h i (le_refl _) (by omega), ih (i + 1) (fun j hj hj2 => h j (by omega)
          (by omega))]
    let c' : (i : Fin n) → Fin (n - i) :=
      fun i => ⟨c i, by have := hcb i (by omega) i.2; omega⟩
    refine ⟨c', ?_, ?_⟩
    · intro α objs
      refine ⟨_, permute_eq n _ (hc c') objs, fun k => ?_⟩
      rw [hagree _ c n 0 (fun j _ hj => by simp [show j < n by omega, c']), hs]
      simp [hT1]
    · intro d hd
      obtain ⟨out, e1, e2⟩ := hd ℕ id
      rw [permute_eq n _ (hc d) id] at e1
      cases e1
      have := shuffle_unique n (fun i => if h : i < n then (d ⟨i, h⟩ : ℕ) else 0) c n 0 (by omega)
        (fun j _ => hc d j) hcb (by
          intro k hk
          rw [hs, hT1 ⟨k, hk⟩]
          exact e2 ⟨k, hk⟩)
      funext i
      apply Fin.ext
      have := this i (by omega) i.2
      simpa using this

example : permute 3 (fun i => [2, 0, 0].getD i 0) (fun i => [10, 20, 30].getD i 0) ≠ none := by
  rw [permute_eq 3 _ (by decide)]; simp

/-! ## C17 -/

/-- **C17.** The state transition of `XoshiroRand` is a bijection of the 256-bit state; a state which is
not all zero never becomes all zero, after any number of draws; and `rseed` never produces the
all-zero state. -/
theorem C17_xoshiro :
    Function.Bijective (fun s : Xo => s.rand64.2) ∧
    (∀ (s : Xo) (n : ℕ), s ≠ ⟨0, 0, 0, 0⟩ → (fun s : Xo => s.rand64.2)^[n] s ≠ ⟨0, 0, 0, 0⟩) ∧
    (∀ seed, Xo.rseed seed ≠ ⟨0, 0, 0, 0⟩) := by
  have e : Xo ≃ Fin (2 ^ 64) × Fin (2 ^ 64) × Fin (2 ^ 64) × Fin (2 ^ 64) :=
    ⟨fun s => (s.s0.toFin, s.s1.toFin, s.s2.toFin, s.s3.toFin),
     fun p => ⟨⟨p.1⟩, ⟨p.2.1⟩, ⟨p.2.2.1⟩, ⟨p.2.2.2⟩⟩, fun _ => rfl, fun _ => rfl⟩
  have : Finite Xo := Finite.of_equiv _ e.symm
  refine ⟨Finite.injective_iff_bijective.1 xo_step_inj, ?_, ?_⟩
  · intro s n hs h
    have hz : (fun s : Xo => s.rand64.2)^[n] ⟨0, 0, 0, 0⟩ = ⟨0, 0, 0, 0⟩ := by
      induction n with
      | zero => rfl
      | succ n ih =>
        have h1 : (⟨0, 0, 0, 0⟩ : Xo).rand64.2 = ⟨0, 0, 0, 0⟩ := by decide
        rw [Function.iterate_succ_apply]
        simp only [h1]
        clear ih h
        induction n with
        | zero => rfl
        | succ n ih => rw [Function.iterate_succ_apply]; simp only [h1]; exact ih
    exact hs (xo_step_inj.iterate n (h.trans hz.symm))
  · intro seed h
    simp only [Xo.rseed, Xo.mk.injEq] at h
    have h1 : (splitmix64 seed).1 = (splitmix64 (splitmix64 seed).2).1 := by rw [h.1, h.2.1]
    have h2 : seed = (splitmix64 seed).2 := splitmix_inj h1
    simp only [splitmix64] at h2
    have h3 := (BitVec.add_right_inj seed (x := 0#64) (y := 0x9E3779B97f4A7C15#64)).1 (by
      rw [BitVec.add_zero]; exact h2)
    revert h3; decide

example : Xo.rseed 0#64 = ⟨0xE220A8397B1DCDAF#64, 0x6E789E6AA1B965F4#64, 0x06C45D188009454F#64,
    0xF88BB8A8724C81EC#64⟩ := by decide +kernel

/-- One step of xoshiro256++ written from its definition (Blackman and Vigna): output and new state as
functions of the old state words. -/
def xoshiro256pp (s0 s1 s2 s3 : BitVec 64) :
    BitVec 64 × BitVec 64 × BitVec 64 × BitVec 64 × BitVec 64 :=
  ((s0 + s3).rotateLeft 23 + s0, s0 ^^^ s1 ^^^ s3, s0 ^^^ s1 ^^^ s2, s0 ^^^ s2 ^^^ (s1 <<< 17),
    (s1 ^^^ s3).rotateLeft 45)

/-- **C17, reference.** Output and state transition are those of xoshiro256++. -/
theorem C17_reference (s : Xo) :
    (s.rand64.1, s.rand64.2.s0, s.rand64.2.s1, s.rand64.2.s2, s.rand64.2.s3) =
      xoshiro256pp s.s0 s.s1 s.s2 s.s3 := by
  obtain ⟨a, b, c, d⟩ := s
  have h0 : a ^^^ (d ^^^ b) = a ^^^ b ^^^ d := by rw [BitVec.xor_comm d, BitVec.xor_assoc]
  have h1 : b ^^^ (c ^^^ a) = a ^^^ b ^^^ c := by
    rw [BitVec.xor_comm c, ← BitVec.xor_assoc, BitVec.xor_comm b a]
  have h2 : c ^^^ a ^^^ (b <<< 17) = a ^^^ c ^^^ (b <<< 17) := by rw [BitVec.xor_comm c]
  have h3 : (d ^^^ b).rotateLeft 45 = (b ^^^ d).rotateLeft 45 := by rw [BitVec.xor_comm]
  exact Prod.ext rfl (Prod.ext h0 (Prod.ext h1 (Prod.ext h2 h3)))

/-- The first output from state `1,2,3,4` is the published 41943041. -/
example : (⟨1, 2, 3, 4⟩ : Xo).rand64.1 = 41943041#64 := by decide

/-- The other two ways of seeding can yield the all-zero state, from which every output is zero:
`seed(const uint64_t[4])` with zeros, and `seed(F)` ("this ensures that there are no zeros") with a
source returning `-0x9E3779B97F4A7C15`. -/
theorem C17_other_seeds_refuted :
    Xo.seedArray 0 0 0 0 = ⟨0, 0, 0, 0⟩ ∧
    (let e := -0x9E3779B97f4A7C15#64; Xo.seedF e e e e = ⟨0, 0, 0, 0⟩) ∧
    (⟨0, 0, 0, 0⟩ : Xo).rand64 = (0, ⟨0, 0, 0, 0⟩) := by decide +kernel

/-! ## C18 -/

/-- **C18, LCRand.** From every seed the generator visits every 64-bit state exactly once before
repeating: the period is exactly 2^64. -/
theorem C18_lcrand_period (s : BitVec 64) :
    (∀ n, 0 < n → n < 2 ^ 64 → lcStep^[n] s ≠ s) ∧ lcStep^[2 ^ 64] s = s ∧
    ∀ y, ∃! n : Fin (2 ^ 64), lcStep^[n] s = y := by
  refine ⟨?_, ?_, lc_covers s⟩
  · intro n h0 h1 h
    have := Function.IsPeriodicPt.minimalPeriod_le h0 (f := lcStep) (x := s) h
    rw [lc_period] at this
    omega
  · have := Function.isPeriodicPt_minimalPeriod lcStep s
    rw [lc_period] at this
    exact this

/-- **C18, MTRand.** From every seed and for every number of draws: no access falls outside the
624-word table; the first 624 outputs are the words of the seeding `LCRand`, and every later output
satisfies the Mersenne-twister recurrence on the preceding outputs.  (The outputs are thus a function
of the seed alone.) -/
theorem C18_mtrand (seed : BitVec 64) : ∃ x : ℕ → BitVec 32,
    (∀ k, k < 624 → x k = (lcStep^[k + 1] seed >>> 32).setWidth 32) ∧
    (∀ k, x (k + 624) = x (k + 397) ^^^
      (let s := (x k &&& 0x80000000#32) ||| (x (k + 1) &&& 0x7FFFFFFF#32)
       (s >>> 1) ^^^ (if s.getLsbD 0 then 0x9908B0DF#32 else 0#32))) ∧
    ∃ m, MT.rseed seed = some m ∧ ∀ n, ∃ m', m.run n = some ((List.range n).map x, m') := by
  obtain ⟨m, e, hi, hb⟩ := mt_rseed seed
  refine ⟨mtSeq m.buf, ?_, ?_, m, e, ?_⟩
  · intro k hk
    rw [mtSeq_init _ k hk, hb k hk]
  · intro k
    rw [mtSeq_rec]
    generalize mtSeq m.buf (k + 397) = a, mtSeq m.buf k = b, mtSeq m.buf (k + 1) = c
    refine congrArg (a ^^^ ·) ?_
    simp only [mix, twist]
    generalize (b &&& 0x80000000#32) ||| (c &&& 0x7FFFFFFF#32) = s
    refine congrArg ((s >>> 1) ^^^ ·) ?_
    have hmul : ∀ s : BitVec 32, (s &&& 1#32) * 0x9908B0DF#32 =
        if s.getLsbD 0 then 0x9908B0DF#32 else 0#32 := by
      intro s
      have h1 : s &&& 1#32 = if s.getLsbD 0 then 1#32 else 0#32 := by
        apply BitVec.eq_of_getLsbD_eq
        intro i hi
        rcases Nat.eq_zero_or_pos i with rfl | hpos
        · cases h : s.getLsbD 0 <;> rw [BitVec.getLsbD_and, h] <;> simp
        · cases h : s.getLsbD 0 <;> simp [BitVec.getLsbD_one] <;> omega
      rw [h1]
      split_ifs <;> decide
    exact hmul _
  · intro n
    obtain ⟨m', h, _⟩ := mt_run (mtSeq m.buf) (mtSeq_rec m.buf) m
      ⟨0, 0, by omega, by omega, by omega, fun p hp => by
        rw [mtSeq_init _ _ (by omega)]; exact congrArg m.buf (by omega)⟩ n
    exact ⟨m', h⟩

/-- **C18 refuted** for bits: `rseed` does not empty the pool of buffered bits, so after re-seeding with
the same value `rand<bool>()` (and `rand<float>`, which uses it) need not repeat the stream. -/
theorem C18_reseed_refuted :
    let g := LCGen.new 2#64
    let first := g.bool
    (first.2.rseed 2#64).bool.1 ≠ ((LCGen.new 2#64).bool).1 := by decide +kernel

end Geomc.Random
