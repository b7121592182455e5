import Verif.Random.Model
import Verif.Hash.Lemmas
import Mathlib.Tactic.Ring
import Mathlib.Tactic.LinearCombination
import Mathlib.Data.BitVec
import Mathlib.Dynamics.PeriodicPts.Defs
import Mathlib.Dynamics.PeriodicPts.Lemmas
import Mathlib.Logic.Equiv.Fintype
import Mathlib.GroupTheory.Perm.Basic

namespace Geomc.Random

/-! ## `permute` -/

/-- Product of the transpositions made by steps `i, i+1, ..., i+m-1`. -/
def shuffle (c : ℕ → ℕ) : ℕ → ℕ → Equiv.Perm ℕ
  | _, 0 => 1
  | i, m + 1 => Equiv.swap i (c i + i) * shuffle c (i + 1) m

theorem swap_update {α : Type} (objs : ℕ → α) (i s : ℕ) :
    Function.update (Function.update objs s (objs i)) i (objs s) = objs ∘ Equiv.swap i s := by
  funext k
  by_cases hk : k = i
  · subst hk; simp
  · rw [Function.update_of_ne hk]
    by_cases hs : k = s
    · subst hs; simp
    · rw [Function.update_of_ne hs]
      simp [Equiv.swap_apply_of_ne_of_ne hk hs]

theorem permute_loop {α : Type} (len : ℕ) (c : ℕ → ℕ) : ∀ (m i : ℕ) (objs : ℕ → α), i + m = len →
    (∀ j, i ≤ j → j < len → c j + j < len) →
    (List.range' i m).foldlM (fun (objs : ℕ → α) (i : ℕ) =>
      let swapIdx := c i + i
      if swapIdx < len then
        let tmp := objs swapIdx
        let objs := Function.update objs swapIdx (objs i)
        some (Function.update objs i tmp)
      else none) objs = some (objs ∘ shuffle c i m) := by
  intro m
  induction m with
  | zero => intro i objs _ _; rfl
  | succ m ih =>
    intro i objs hm hc
    rw [List.range'_succ, List.foldlM_cons]
    have h1 : c i + i < len := hc i (le_refl _) (by omega)
    simp only [h1, if_true, Option.bind_eq_bind, Option.bind_some]
    rw [swap_update]
    have := ih (i + 1) (objs ∘ Equiv.swap i (c i + i)) (by omega) (fun j hj => hc j (by omega))
    rw [this]; rfl

theorem permute_eq {α : Type} (len : ℕ) (c : ℕ → ℕ) (hc : ∀ j, j < len → c j + j < len)
    (objs : ℕ → α) : permute len c objs = some (objs ∘ shuffle c 0 len) := by
  unfold permute
  rw [List.range_eq_range']
  exact permute_loop len c len 0 objs (by omega) (fun j _ => hc j)

theorem shuffle_fix (c : ℕ → ℕ) (n : ℕ) : ∀ (m i : ℕ), i + m = n →
    (∀ j, i ≤ j → j < n → c j + j < n) → ∀ k, k < i ∨ n ≤ k → shuffle c i m k = k := by
  intro m
  induction m with
  | zero => intros; rfl
  | succ m ih =>
    intro i hm hc k hk
    have := ih (i + 1) (by omega) (fun j hj => hc j (by omega)) k (by omega)
    rw [shuffle, Equiv.Perm.mul_apply, this]
    have := hc i (le_refl _) (by omega)
    apply Equiv.swap_apply_of_ne_of_ne <;> omega

theorem shuffle_exists (n : ℕ) : ∀ (m i : ℕ) (τ : Equiv.Perm ℕ), i + m = n →
    (∀ k, k < i ∨ n ≤ k → τ k = k) →
    ∃ c : ℕ → ℕ, (∀ j, i ≤ j → j < n → c j + j < n) ∧ shuffle c i m = τ := by
  intro m
  induction m with
  | zero =>
    intro i τ hm hτ
    refine ⟨fun _ => 0, by intros; omega, ?_⟩
    ext k
    rw [hτ k (by omega)]; rfl
  | succ m ih =>
    intro i τ hm hτ
    have hge : i ≤ τ i := by
      by_contra hc
      have := hτ (τ i) (by omega)
      have := τ.injective this
      omega
    have hlt : τ i < n := by
      by_contra hc
      have := hτ (τ i) (by omega)
      have := τ.injective this
      omega
    obtain ⟨c, hc, e⟩ := ih (i + 1) (Equiv.swap i (τ i) * τ) (by omega) (by
      intro k hk
      rw [Equiv.Perm.mul_apply]
      by_cases hki : k = i
      · subst hki; simp
      · rw [hτ k (by omega)]
        apply Equiv.swap_apply_of_ne_of_ne <;> omega)
    have hsh : ∀ (m i : ℕ) (d : ℕ → ℕ), (∀ j, i ≤ j → d j = c j) → shuffle d i m = shuffle c i m := by
      intro m
      induction m with
      | zero => intros; rfl
      | succ m ih =>
        intro i d hd
        rw [shuffle, shuffle, hd i (le_refl _), ih (i + 1) d (fun j hj => hd j (by omega))]
    refine ⟨Function.update c i (τ i - i), ?_, ?_⟩
    · intro j hj hjn
      by_cases hji : j = i
      · subst hji; simp; omega
      · rw [Function.update_of_ne hji]; exact hc j (by omega) hjn
    · rw [shuffle, Function.update_self, show τ i - i + i = τ i by omega,
        hsh m (i + 1) _ (fun j hj => Function.update_of_ne (by omega) _ _), e, ← mul_assoc]
      simp

theorem shuffle_unique (n : ℕ) (c d : ℕ → ℕ) : ∀ (m i : ℕ), i + m = n →
    (∀ j, i ≤ j → j < n → c j + j < n) → (∀ j, i ≤ j → j < n → d j + j < n) →
    (∀ k, k < n → shuffle c i m k = shuffle d i m k) → ∀ j, i ≤ j → j < n → c j = d j := by
  intro m
  induction m with
  | zero => intros; omega
  | succ m ih =>
    intro i hm hc hd h j hj hjn
    have fc := shuffle_fix c n m (i + 1) (by omega) (fun j hj => hc j (by omega)) i (by omega)
    have fd := shuffle_fix d n m (i + 1) (by omega) (fun j hj => hd j (by omega)) i (by omega)
    have h0 : c i = d i := by
      have := h i (by omega)
      simp only [shuffle, Equiv.Perm.mul_apply, fc, fd, Equiv.swap_apply_left] at this
      omega
    by_cases hji : j = i
    · subst hji; exact h0
    · refine ih (i + 1) (by omega) (fun j hj => hc j (by omega)) (fun j hj => hd j (by omega)) ?_ j
        (by omega) hjn
      intro k hk
      have := h k hk
      simp only [shuffle, Equiv.Perm.mul_apply, h0] at this
      exact (Equiv.swap i (d i + i)).injective this

/-! ## LCRand -/

theorem lc_pow : ∀ j : ℕ, ∃ u v : BitVec 64, ∀ x : BitVec 64,
    lcStep^[2 ^ j] x = (1 + 4 * 2 ^ j * u) * x + 2 ^ j * (2 * v + 1) := by
  intro j
  induction j with
  | zero =>
    refine ⟨1591034055961698251#64, 721347520444481703#64, fun x => ?_⟩
    simp only [pow_zero, Function.iterate_one, lcStep]
    congr 1
  | succ j ih =>
    obtain ⟨u, v, h⟩ := ih
    refine ⟨u + 2 * 2 ^ j * u ^ 2, v + 2 ^ j * u * (2 * v + 1), fun x => ?_⟩
    rw [pow_succ, mul_two, Function.iterate_add_apply, h, h, pow_succ]
    ring

theorem lc_period (x : BitVec 64) : Function.minimalPeriod lcStep x = 2 ^ 64 := by
  have : Fact (Nat.Prime 2) := ⟨Nat.prime_two⟩
  have h64 : (2 : BitVec 64) ^ 64 = 0 := by decide +kernel
  apply Function.minimalPeriod_eq_prime_pow (p := 2) (k := 63)
  · obtain ⟨u, v, h⟩ := lc_pow 63
    intro hp
    have := hp
    rw [Function.IsPeriodicPt, Function.IsFixedPt, h] at this
    have h65 : (4 : BitVec 64) * 2 ^ 63 = 0 := by decide +kernel
    have h63 : (2 : BitVec 64) ^ 63 * 2 = 0 := by decide +kernel
    have e : (2 : BitVec 64) ^ 63 = 0 := by
      have e2 : (1 + 4 * (2 : BitVec 64) ^ 63 * u) * x + 2 ^ 63 * (2 * v + 1) =
        x + 2 ^ 63 + (4 * 2 ^ 63) * (u * x) + (2 ^ 63 * 2) * v := by ring
      rw [e2, h65, h63] at this
      linear_combination this
    revert e
    decide +kernel
  · obtain ⟨u, v, h⟩ := lc_pow 64
    rw [Function.IsPeriodicPt, Function.IsFixedPt, h, h64]
    ring

theorem lc_covers (x y : BitVec 64) : ∃! n : Fin (2 ^ 64), lcStep^[n] x = y := by
  have hinj : Function.Injective (fun n : Fin (2 ^ 64) => lcStep^[n] x) := by
    intro a b h
    have := Function.iterate_injOn_Iio_minimalPeriod (f := lcStep) (x := x)
    rw [lc_period] at this
    exact Fin.ext (this (Set.mem_Iio.2 a.2) (Set.mem_Iio.2 b.2) h)
  let e : Fin (2 ^ 64) ≃ BitVec 64 := ⟨fun n => ⟨n⟩, fun b => b.toFin, fun _ => rfl, fun _ => rfl⟩
  have hbij : Function.Bijective (fun n : Fin (2 ^ 64) => e.symm (lcStep^[n] x)) := by
    rw [← Finite.injective_iff_bijective]
    exact fun a b h => hinj (e.symm.injective h)
  obtain ⟨n, hn, hu⟩ := hbij.existsUnique (e.symm y)
  exact ⟨n, e.symm.injective hn, fun m hm => hu m (by simp only [hm])⟩

/-! ## Xoshiro -/

theorem xorshr_inj {w : ℕ} (k : ℕ) (hk : 0 < k) :
    Function.Injective (fun x : BitVec w => x ^^^ (x >>> k)) := by
  intro x y h
  simp only at h
  have key : ∀ m i, w ≤ i + m → x.getLsbD i = y.getLsbD i := by
    intro m
    induction m with
    | zero =>
      intro i hi
      rw [BitVec.getLsbD_of_ge _ _ (by omega), BitVec.getLsbD_of_ge _ _ (by omega)]
    | succ m ih =>
      intro i hi
      have e := congrArg (fun z => z.getLsbD i) h
      simp only [BitVec.getLsbD_xor, BitVec.getLsbD_ushiftRight] at e
      rw [ih (k + i) (by omega)] at e
      simpa using e
  exact BitVec.eq_of_getLsbD_eq fun i _ => key w i (by omega)

theorem xorshl_inj {w : ℕ} (k : ℕ) (hk : 0 < k) :
    Function.Injective (fun x : BitVec w => x ^^^ (x <<< k)) := by
  intro x y h
  simp only at h
  have key : ∀ i, x.getLsbD i = y.getLsbD i := by
    intro i
    induction i using Nat.strong_induction_on with
    | _ i ih =>
      have e := congrArg (fun z => z.getLsbD i) h
      simp only [BitVec.getLsbD_xor, BitVec.getLsbD_shiftLeft] at e
      by_cases hi : i < k
      · simpa [hi] using e
      · rw [ih (i - k) (by omega)] at e
        simpa using e
  exact BitVec.eq_of_getLsbD_eq fun i _ => key i

theorem mul_inj (c d : BitVec 64) (h : c * d = 1) : Function.Injective (fun x : BitVec 64 => x * c) := by
  intro x y e
  simp only at e
  have := congrArg (· * d) e
  simp only [mul_assoc, h, mul_one] at this
  exact this

theorem splitmix_inj : Function.Injective (fun s => (splitmix64 s).1) := by
  have i1 : Function.Injective (fun s : BitVec 64 => s + 0x9E3779B97f4A7C15#64) :=
    fun a b h => (BitVec.add_left_inj _).1 h
  have i2 := xorshr_inj (w := 64) 30 (by decide)
  have i3 := mul_inj 0xBF58476D1CE4E5B9#64 0x96de1b173f119089#64 (by decide +kernel)
  have i4 := xorshr_inj (w := 64) 27 (by decide)
  have i5 := mul_inj 0x94D049BB133111EB#64 0x319642b2d24d8ec3#64 (by decide +kernel)
  have i6 := xorshr_inj (w := 64) 31 (by decide)
  exact i6.comp (i5.comp (i4.comp (i3.comp (i2.comp i1))))

theorem xo_step_inj : Function.Injective (fun s : Xo => s.rand64.2) := by
  rintro ⟨a0, a1, a2, a3⟩ ⟨b0, b1, b2, b3⟩ h
  simp only [Xo.rand64, Xo.mk.injEq] at h
  obtain ⟨h0, h1, h2, h3⟩ := h
  have h3 := Hash.rotl_inj (w := 64) 45 (by decide) h3
  try simp only at h3
  rw [h3, BitVec.xor_left_inj] at h0
  subst h0
  have h1' : a1 ^^^ (a1 <<< 17) = b1 ^^^ (b1 <<< 17) := by
    have e : ∀ x y z : BitVec 64, x ^^^ z = (x ^^^ y) ^^^ (y ^^^ z) := by
      intro x y z
      rw [BitVec.xor_assoc, ← BitVec.xor_assoc y y z, BitVec.xor_self, BitVec.zero_xor]
    rw [e a1 (a2 ^^^ a0) (a1 <<< 17), h1, h2, ← e]
  have h1' := xorshl_inj (w := 64) 17 (by decide) h1'
  subst h1'
  rw [BitVec.xor_right_inj, BitVec.xor_left_inj] at h1
  rw [BitVec.xor_left_inj] at h3
  rw [h1, h3]

/-! ## MTRand -/

/-- The sequence MT19937 (without tempering) generates from 624 initial words. -/
def mtSeq (init : ℕ → BitVec 32) (n : ℕ) : BitVec 32 :=
  if _h : n < 624 then init n
  else mtSeq init (n - 227) ^^^ mix (twist (mtSeq init (n - 624)) (mtSeq init (n - 623)))
termination_by n
decreasing_by all_goals omega

theorem mtSeq_init (init : ℕ → BitVec 32) (k : ℕ) (h : k < 624) : mtSeq init k = init k := by
  rw [mtSeq.eq_def]; exact dif_pos h

theorem mtSeq_rec (init : ℕ → BitVec 32) (k : ℕ) : mtSeq init (k + 624) =
    mtSeq init (k + 397) ^^^ mix (twist (mtSeq init k) (mtSeq init (k + 1))) := by
  rw [mtSeq, dif_neg (by omega), show k + 624 - 227 = k + 397 by omega,
    show k + 624 - 624 = k by omega, show k + 624 - 623 = k + 1 by omega]

/-- During regeneration of block `j+1`, the first `i` cells are new. -/
def Mid (x : ℕ → BitVec 32) (j i : ℕ) (b : ℕ → BitVec 32) : Prop :=
  ∀ p, p < 624 → b p = if p < i then x (624 * (j + 1) + p) else x (624 * j + p)

theorem mtCell_mid (x : ℕ → BitVec 32)
    (hx : ∀ k, x (k + 624) = x (k + 397) ^^^ mix (twist (x k) (x (k + 1))))
    (j i i' i'' : ℕ) (hi : i < 624) (b : ℕ → BitVec 32) (hb : Mid x j i b)
    (h1 : (i < 623 ∧ i' = i + 1) ∨ (i = 623 ∧ i' = 0))
    (h2 : (i < 227 ∧ i'' = i + 397) ∨ (227 ≤ i ∧ i'' = i - 227)) :
    ∃ b', mtCell b i i' i'' = some b' ∧ Mid x j (i + 1) b' := by
  have hi' : i' < 624 := by omega
  have hi'' : i'' < 624 := by omega
  refine ⟨Function.update b i (b i'' ^^^ mix (twist (b i) (b i'))), ?_, ?_⟩
  · simp [mtCell, mtGet, mtSet, hi, hi', hi'']
  · intro p hp
    by_cases hpi : p = i
    · subst hpi
      have v0 : b p = x (624 * j + p) := by rw [hb p hi, if_neg (by omega)]
      have v1 : b i' = x (624 * j + p + 1) := by
        rw [hb i' hi']
        rcases h1 with ⟨h1, h1'⟩ | ⟨h1, h1'⟩
        · rw [if_neg (by omega)]; exact congrArg x (by omega)
        · rw [if_pos (by omega)]; exact congrArg x (by omega)
      have v2 : b i'' = x (624 * j + p + 397) := by
        rw [hb i'' hi'']
        rcases h2 with ⟨h2, h2'⟩ | ⟨h2, h2'⟩
        · rw [if_neg (by omega)]; exact congrArg x (by omega)
        · rw [if_pos (by omega)]; exact congrArg x (by omega)
      rw [Function.update_self, if_pos (by omega), v0, v1, v2,
        show 624 * (j + 1) + p = (624 * j + p) + 624 by ring, hx]
    · rw [Function.update_of_ne hpi, hb p hp]
      have : (p < i) = (p < i + 1) := by apply propext; omega
      simp only [this]

theorem mtRefill_eq (x : ℕ → BitVec 32)
    (hx : ∀ k, x (k + 624) = x (k + 397) ^^^ mix (twist (x k) (x (k + 1))))
    (j : ℕ) (b : ℕ → BitVec 32) (hb : ∀ p, p < 624 → b p = x (624 * j + p)) :
    ∃ b', mtRefill b = some b' ∧ ∀ p, p < 624 → b' p = x (624 * (j + 1) + p) := by
  have h0 : Mid x j 0 b := fun p hp => by simpa using hb p hp
  obtain ⟨b1, e1, m1⟩ := foldlM_range_inv (fun b i => mtCell b i (i + 1) (i + 397))
    (fun i b => Mid x j i b) 227 b h0 (by
      intro i hi b hb
      exact mtCell_mid x hx j i (i + 1) (i + 397) (by omega) b hb (by omega) (by omega))
  obtain ⟨b2, e2, m2⟩ := foldlM_range_inv
    (fun b k => mtCell b (227 + k) (227 + k + 1) (227 + k - 227))
    (fun k b => Mid x j (227 + k) b) (623 - 227) b1 m1 (by
      intro k hk b hb
      exact mtCell_mid x hx j (227 + k) (227 + k + 1) (227 + k - 227) (by omega) b hb (by omega)
        (by omega))
  obtain ⟨b3, e3, m3⟩ := mtCell_mid x hx j 623 0 396 (by omega) b2 m2 (by omega) (by omega)
  refine ⟨b3, ?_, fun p hp => ?_⟩
  · rw [mtRefill]
    simp only [Option.bind_eq_bind]
    rw [e1, Option.bind_some, e2, Option.bind_some, e3]
  · rw [m3 p hp, if_pos (by omega)]

/-- State after some draws: the table is block `j`, and `n` words have been handed out. -/
def MTInv (x : ℕ → BitVec 32) (n : ℕ) (m : MT) : Prop :=
  ∃ j i, n = 624 * j + i ∧ i ≤ 624 ∧ m.index = 4 * i ∧ ∀ p, p < 624 → m.buf p = x (624 * j + p)

theorem mt_step (x : ℕ → BitVec 32)
    (hx : ∀ k, x (k + 624) = x (k + 397) ^^^ mix (twist (x k) (x (k + 1))))
    (n : ℕ) (m : MT) (h : MTInv x n m) : ∃ m', m.rand32 = some (x n, m') ∧ MTInv x (n + 1) m' := by
  obtain ⟨j, i, hn, hi, hidx, hb⟩ := h
  by_cases hc : i = 624
  · subst hc
    obtain ⟨b', e, hb'⟩ := mtRefill_eq x hx j m.buf hb
    refine ⟨⟨b', 0 + 4⟩, ?_, j + 1, 1, by omega, by omega, rfl, hb'⟩
    rw [MT.rand32, if_pos (by omega), e]
    simp only [Option.bind_eq_bind, Option.bind_some, Nat.zero_mod, if_true, mtGet, Nat.zero_div,
      show 0 < 624 by decide]
    rw [hb' 0 (by decide), show 624 * (j + 1) + 0 = n by omega]
  · refine ⟨⟨m.buf, m.index + 4⟩, ?_, j, i + 1, by omega, by omega, by simp only; omega, hb⟩
    rw [MT.rand32, if_neg (by omega)]
    simp only [Option.bind_eq_bind, Option.bind_some, hidx, mtGet]
    rw [if_pos (by omega), show 4 * i / 4 = i by omega, if_pos (by omega), hb i (by omega)]
    rw [hn]; rfl

theorem mt_run (x : ℕ → BitVec 32)
    (hx : ∀ k, x (k + 624) = x (k + 397) ^^^ mix (twist (x k) (x (k + 1))))
    (m : MT) (h : MTInv x 0 m) : ∀ n, ∃ m', m.run n = some ((List.range n).map x, m') ∧
      MTInv x n m' := by
  intro n
  induction n with
  | zero => exact ⟨m, rfl, h⟩
  | succ n ih =>
    obtain ⟨m1, e1, h1⟩ := ih
    obtain ⟨m2, e2, h2⟩ := mt_step x hx n m1 h1
    refine ⟨m2, ?_, h2⟩
    rw [MT.run, e1]
    simp only [Option.bind_eq_bind, Option.bind_some, e2, List.range_succ, List.map_append,
      List.map_cons, List.map_nil]

theorem mt_rseed (seed : BitVec 64) : ∃ m, MT.rseed seed = some m ∧ m.index = 0 ∧
    ∀ p, p < 624 → m.buf p = (lcStep^[p + 1] seed >>> 32).setWidth 32 := by
  obtain ⟨st, e, h⟩ := foldlM_range_inv (fun (st : (ℕ → BitVec 32) × BitVec 64) (i : ℕ) => do
      let (v, s) := lcRand32 st.2
      let b ← mtSet st.1 i v
      some (b, s))
    (fun i st => st.2 = lcStep^[i] seed ∧
      ∀ p, p < i → st.1 p = (lcStep^[p + 1] seed >>> 32).setWidth 32) 624
    ((fun _ => 0), seed) ⟨rfl, by intros; omega⟩ (by
      rintro i hi ⟨b, s⟩ ⟨h1, h2⟩
      simp only at h1 h2
      refine ⟨(Function.update b i ((lcStep s >>> 32).setWidth 32), lcStep s), ?_, ?_, ?_⟩
      · simp [lcRand32, mtSet, hi]
      · simp only; rw [h1, Function.iterate_succ_apply']
      · intro p hp
        by_cases hpi : p = i
        · subst hpi
          simp only [Function.update_self]
          rw [h1, Function.iterate_succ_apply']
        · simp only [Function.update_of_ne hpi]
          exact h2 p (by omega))
  exact ⟨⟨st.1, 0⟩, by rw [MT.rseed, e]; rfl, rfl, h.2⟩

end Geomc.Random
