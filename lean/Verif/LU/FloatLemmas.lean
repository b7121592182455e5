import Verif.LU.FloatModel
import Verif.LU.Solve
import Verif.Float.Geom

/-!
# Rounding errors of elimination and substitution
-/

namespace Geomc.LU

open Geomc.Flt (IsRound IsFloat eps)

variable {K : Type} [Field K] [LinearOrder K] [IsStrictOrderedRing K]

/-- What is used of the rounding. -/
structure Near (rnd : K → K) (u : K) : Prop where
  nonneg : 0 ≤ u
  rel : ∀ x, |rnd x - x| ≤ u * |x|
  inv : ∀ x, |rnd x - x| ≤ u * |rnd x|
  one : ∀ x, |x| ≤ 1 → |rnd x| ≤ 1

theorem Near.zero {rnd : K → K} {u : K} (h : Near rnd u) : rnd 0 = 0 := by
  have := h.rel 0
  rw [abs_zero, mul_zero, sub_zero] at this
  exact abs_eq_zero.1 (le_antisymm this (abs_nonneg _))

/-- One more term: `b - T` was `s` up to an error, and now `s - t` is `s'` up to an error. -/
theorem acc_step {b T S s t s' g u : K} (hg : 0 ≤ g) (hu : 0 ≤ u) (hS : 0 ≤ S) (h : |b - T - s| ≤ g * (S + |s|))
    (h' : |s - t - s'| ≤ u * (|t| + |s'|)) :
    |b - (T + t) - s'| ≤ ((1 + g) * (1 + u) - 1) * (S + |t| + |s'|) := by
  have hs : |s| ≤ (1 + u) * (|t| + |s'|) := by
    have h1 : |s| ≤ |s - t - s'| + |t + s'| := by
      have := abs_add_le (s - t - s') (t + s')
      rwa [show s - t - s' + (t + s') = s by ring] at this
    have h2 := abs_add_le t s'
    nlinarith
  have h3 : |b - (T + t) - s'| ≤ |b - T - s| + |s - t - s'| := by
    have := abs_add_le (b - T - s) (s - t - s')
    rwa [show b - T - s + (s - t - s') = b - (T + t) - s' by ring] at this
  have h4 : g * |s| ≤ g * ((1 + u) * (|t| + |s'|)) := mul_le_mul_of_nonneg_left hs hg
  have h5 : 0 ≤ u * S := mul_nonneg hu hS
  have h6 : 0 ≤ g * u * S := mul_nonneg (mul_nonneg hg hu) hS
  nlinarith

/-- The growth of the error with the number of operations. -/
def gam (u : K) (k : ℕ) : K := (1 + u) ^ k - 1

omit [LinearOrder K] [IsStrictOrderedRing K] in
theorem gam_succ (u : K) (k : ℕ) : (1 + gam u k) * (1 + u) - 1 = gam u (k + 1) := by
  unfold gam
  rw [pow_succ]
  ring

theorem gam_nonneg {u : K} (hu : 0 ≤ u) (k : ℕ) : 0 ≤ gam u k := by
  have : (1 : K) ≤ (1 + u) ^ k := one_le_pow₀ (by linarith)
  unfold gam
  linarith

theorem gam_mono {u : K} (hu : 0 ≤ u) {k l : ℕ} (h : k ≤ l) : gam u k ≤ gam u l := by
  have : (1 + u) ^ k ≤ (1 + u) ^ l := pow_le_pow_right₀ (by linarith) h
  unfold gam
  linarith

omit [LinearOrder K] [IsStrictOrderedRing K] in
theorem gam_add (u : K) (k l : ℕ) : gam u (k + l) = gam u k + gam u l + gam u k * gam u l := by
  unfold gam
  rw [pow_add]
  ring

theorem subProd_err {rnd : K → K} {u : K} (h : Near rnd u) (f : Bool) (x y z : K) :
    |x - y * z - subProd rnd f x y z| ≤ u * (|y * z| + |subProd rnd f x y z|) := by
  unfold subProd
  cases f with
  | true =>
    simp only [if_true]
    have := h.inv (x - y * z)
    rw [abs_sub_comm] at this
    have h0 := mul_nonneg h.nonneg (abs_nonneg (y * z))
    linarith
  | false =>
    simp only [Bool.false_eq_true, if_false]
    have h1 := h.inv (x - rnd (y * z))
    have h2 := h.rel (y * z)
    rw [abs_sub_comm] at h1
    have h3 := abs_add_le (rnd (y * z) - y * z) (x - rnd (y * z) - rnd (x - rnd (y * z)))
    rw [show rnd (y * z) - y * z + (x - rnd (y * z) - rnd (x - rnd (y * z))) = x - y * z - rnd (x - rnd (y * z)) by ring] at h3
    linarith

/-- A sum that is taken off one product at a time. -/
theorem chain_err {rnd : K → K} {u : K} (h : Near rnd u) (f : Bool) (y z : ℕ → K) (x : K) (k : ℕ) :
    |x - ∑ j ∈ Finset.range k, y j * z j - loop k (fun j s => subProd rnd f s (y j) (z j)) x| ≤
      gam u k * (∑ j ∈ Finset.range k, |y j * z j| + |loop k (fun j s => subProd rnd f s (y j) (z j)) x|) := by
  induction k with
  | zero => simp [loop, gam]
  | succ k ih =>
    rw [Finset.sum_range_succ, Finset.sum_range_succ, ← gam_succ]
    exact acc_step (gam_nonneg h.nonneg k) h.nonneg (Finset.sum_nonneg fun _ _ => abs_nonneg _) ih (subProd_err h f _ _ _)

theorem div_err {rnd : K → K} {u : K} (h : Near rnd u) {s a : K} (ha : a ≠ 0) :
    |s - rnd (s / a) * a - 0| ≤ u * (|rnd (s / a) * a| + |(0 : K)|) := by
  have h1 := h.inv (s / a)
  rw [sub_zero, abs_zero, add_zero]
  have e : s - rnd (s / a) * a = -((rnd (s / a) - s / a) * a) := by
    field_simp
    ring
  rw [e, abs_neg, abs_mul, abs_mul, ← mul_assoc]
  exact mul_le_mul_of_nonneg_right h1 (abs_nonneg a)

/-! ### Elimination -/

omit [LinearOrder K] [IsStrictOrderedRing K] in
theorem elimRowF_apply (rnd : K → K) (A : ℕ → ℕ → K) (cols i r : ℕ) (b : K) (hi : i < cols) (hr : r ≠ i) (r' c' : ℕ) :
    loopFrom (i + 1) cols (fun c A => put A r c (Flt.multiplyAdd rnd (-b) (A i c) (A r c))) A r' c' =
      if r' = r ∧ i < c' ∧ c' < cols then rnd (A r c' - b * A i c') else A r' c' := by
  have key := loopFrom_inv (lo := i + 1) (hi := cols) (f := fun c A => put A r c (Flt.multiplyAdd rnd (-b) (A i c) (A r c))) (s := A)
    (fun k B => ∀ r' c', B r' c' = if r' = r ∧ i < c' ∧ c' < k then rnd (A r c' - b * A i c') else A r' c') hi
    (fun r' c' => by rw [if_neg (by omega)]) (by
      intro k hk hk' B hB r' c'
      by_cases h : r' = r ∧ c' = k
      · obtain ⟨rfl, rfl⟩ := h
        rw [put_self, if_pos ⟨rfl, by omega, by omega⟩, hB, hB, if_neg (by omega), if_neg (by omega), Flt.multiplyAdd]
        congr 1
        ring
      · rw [put_of_ne _ _ h, hB]
        exact if_congr (by omega) rfl rfl)
  exact key r' c'

/-- What an element becomes: `b` is the multiplier of its row. -/
def upd (rnd : K → K) (b s t : K) : K := if b = 0 then s else rnd (s - b * t)

omit [IsStrictOrderedRing K] in
theorem eliminateF_apply (rnd : K → K) (A : ℕ → ℕ → K) {rows cols i : ℕ} (hr : i < rows) (hc : i < cols) (r c : ℕ) :
    eliminateF rnd A rows cols i r c = if i < r ∧ r < rows then
        if c = i then rnd (A r i / A i i) else
          if i < c ∧ c < cols then upd rnd (rnd (A r i / A i i)) (A r c) (A i c) else A r c
      else A r c := by
  have key := loopFrom_inv (lo := i + 1) (hi := rows) (f := fun r B =>
      put (if rnd (B r i / A i i) ≠ 0 then
          loopFrom (i + 1) cols (fun c B' => put B' r c (Flt.multiplyAdd rnd (-(rnd (B r i / A i i))) (B' i c) (B' r c))) B
        else B) r i (rnd (B r i / A i i))) (s := A)
    (fun k B => ∀ r c, B r c = if i < r ∧ r < k then
        if c = i then rnd (A r i / A i i) else
          if i < c ∧ c < cols then upd rnd (rnd (A r i / A i i)) (A r c) (A i c) else A r c
      else A r c) hr (fun r c => by rw [if_neg (by omega)]) (by
      intro k hk hk' B hB r c
      have hBk : B k i = A k i := by rw [hB, if_neg (by omega)]
      by_cases hrk : r = k
      · subst hrk
        rw [if_pos (show i < r ∧ r < r + 1 from ⟨hk, Nat.lt_succ_self r⟩)]
        by_cases hci : c = i
        · subst hci
          rw [put_self, if_pos rfl, hBk]
        · rw [put_of_ne _ _ (fun h => hci h.2), if_neg hci, hBk]
          have h1 : ∀ c, B r c = A r c := fun c => by rw [hB, if_neg (by omega)]
          have h2 : ∀ c, B i c = A i c := fun c => by rw [hB, if_neg (by omega)]
          by_cases hb : rnd (A r i / A i i) = 0
          · rw [if_neg (not_not.2 hb), upd, if_pos hb, ite_self, h1]
          · rw [if_pos hb, elimRowF_apply rnd B cols i r _ hc (by omega), upd, if_neg hb, h1, h2]
            exact if_congr (by simp) rfl rfl
      · rw [put_of_ne _ _ (fun h => hrk h.1)]
        have : (if rnd (B k i / A i i) ≠ 0 then
            loopFrom (i + 1) cols (fun c B' => put B' k c (Flt.multiplyAdd rnd (-(rnd (B k i / A i i))) (B' i c) (B' k c))) B
            else B) r c = B r c := by
          split_ifs
          · rw [elimRowF_apply rnd B cols i k _ hc (by omega), if_neg (fun h => hrk h.1)]
          · rfl
        rw [this, hB]
        exact if_congr (by omega) rfl rfl)
  exact key r c

theorem upd_err {rnd : K → K} {u : K} (h : Near rnd u) (b s t : K) :
    |s - b * t - upd rnd b s t| ≤ u * (|b * t| + |upd rnd b s t|) := by
  unfold upd
  have h0 := h.nonneg
  split_ifs with hb
  · rw [hb, zero_mul, sub_zero, sub_self, abs_zero]
    positivity
  · have := h.inv (s - b * t)
    rw [abs_sub_comm] at this
    have h0 := mul_nonneg h.nonneg (abs_nonneg (b * t))
    linarith

/-- After `i` rounds the row-permuted input `B` is the product of the finished part of the factors, plus the unfinished remainder, up to
rounding. -/
def FactorsE (u : K) (B A : ℕ → ℕ → K) (rows cols i : ℕ) : Prop :=
  ∀ r < rows, ∀ c < cols,
    |B r c - (∑ k ∈ Finset.range (min r i), if k ≤ c then A r k * A k c else 0) - (if min r i ≤ c then A r c else 0)| ≤
      gam u (min r i) * ((∑ k ∈ Finset.range (min r i), |if k ≤ c then A r k * A k c else 0|) + |if min r i ≤ c then A r c else 0|)

theorem FactorsE.zero (u : K) (A : ℕ → ℕ → K) (rows cols : ℕ) : FactorsE u A A rows cols 0 := by
  intro r _ c _
  simp [gam]

omit [IsStrictOrderedRing K] in
/-- The sums over a row that is not changed. -/
theorem FactorsE.congr {u : K} {B B' A A' : ℕ → ℕ → K} {cols i r r' : ℕ} (hm : min r i = min r' i)
    (h : ∀ c < cols, |B r c - (∑ k ∈ Finset.range (min r i), if k ≤ c then A r k * A k c else 0) - (if min r i ≤ c then A r c else 0)| ≤
      gam u (min r i) * ((∑ k ∈ Finset.range (min r i), |if k ≤ c then A r k * A k c else 0|) + |if min r i ≤ c then A r c else 0|))
    (hB : ∀ c < cols, B' r' c = B r c) (hA : ∀ c < cols, A' r' c = A r c) (hk : ∀ k < min r i, ∀ c < cols, A' k c = A k c)
    (c : ℕ) (hc : c < cols) :
    |B' r' c - (∑ k ∈ Finset.range (min r' i), if k ≤ c then A' r' k * A' k c else 0) - (if min r' i ≤ c then A' r' c else 0)| ≤
      gam u (min r' i) * ((∑ k ∈ Finset.range (min r' i), |if k ≤ c then A' r' k * A' k c else 0|) + |if min r' i ≤ c then A' r' c else 0|) := by
  have e : ∀ k ∈ Finset.range (min r' i), (if k ≤ c then A' r' k * A' k c else 0) = if k ≤ c then A r k * A k c else 0 := by
    intro k hk'
    rw [Finset.mem_range, ← hm] at hk'
    by_cases hkc : k ≤ c
    · rw [if_pos hkc, if_pos hkc, hA k (by omega), hk k hk' c hc]
    · rw [if_neg hkc, if_neg hkc]
  have := h c hc
  rw [Finset.sum_congr rfl e, Finset.sum_congr rfl (fun k hk => congrArg abs (e k hk)), hB c hc, hA c hc, ← hm]
  exact this

theorem FactorsE.swapRows {u : K} {B A : ℕ → ℕ → K} {rows cols i j : ℕ} (h : FactorsE u B A rows cols i) (hij : i < j)
    (hj : j < rows) :
    FactorsE u (fun r c => B (Equiv.swap i j r) c) (LU.swapRows A cols i j) rows cols i := by
  intro r hr c hc
  have hlt : Equiv.swap i j r < rows := by
    rw [Equiv.swap_apply_def]
    split_ifs <;> omega
  have hmin : min (Equiv.swap i j r) i = min r i := by
    rw [Equiv.swap_apply_def]
    split_ifs <;> omega
  refine FactorsE.congr (B' := fun r c => B (Equiv.swap i j r) c) (A' := LU.swapRows A cols i j) hmin (h _ hlt) (fun _ _ => rfl) (fun c hc => ?_) (fun k hk c hc => ?_) c hc
  · rw [swapRows_apply, if_pos hc]
  · rw [swapRows_apply, if_pos hc, Equiv.swap_apply_of_ne_of_ne (by omega) (by omega)]

/-- One more round, row by row. -/
theorem FactorsE.step {u : K} (hu : 0 ≤ u) {B A A' : ℕ → ℕ → K} {rows cols i : ℕ} (h : FactorsE u B A rows cols i)
    (low : ∀ k ≤ i, ∀ c < cols, A' k c = A k c)
    (left : ∀ r, i < r → r < rows → ∀ c < i, A' r c = A r c)
    (up : ∀ r, i < r → r < rows → ∀ c, i ≤ c → c < cols →
      |A r c - A' r i * A i c - (if i + 1 ≤ c then A' r c else 0)| ≤ u * (|A' r i * A i c| + |if i + 1 ≤ c then A' r c else 0|)) :
    FactorsE u B A' rows cols (i + 1) := by
  intro r hr c hc
  by_cases hri : r ≤ i
  · have hm : min r (i + 1) = min r i := by omega
    rw [hm]
    exact FactorsE.congr rfl (h r hr) (fun _ _ => rfl) (fun c hc => low r hri c hc) (fun k hk c hc => low k (by omega) c hc) c hc
  · have := h r hr c hc
    rw [show min r i = i by omega] at this
    rw [show min r (i + 1) = i + 1 by omega, Finset.sum_range_succ, Finset.sum_range_succ, ← gam_succ]
    have e : ∀ k ∈ Finset.range i, (if k ≤ c then A' r k * A' k c else 0) = if k ≤ c then A r k * A k c else 0 := by
      intro k hk
      rw [Finset.mem_range] at hk
      by_cases hkc : k ≤ c
      · rw [if_pos hkc, if_pos hkc, low k hk.le c hc, left r (by omega) hr k hk]
      · rw [if_neg hkc, if_neg hkc]
    rw [Finset.sum_congr rfl e, Finset.sum_congr rfl (fun k hk => congrArg abs (e k hk))]
    refine acc_step (gam_nonneg hu i) hu (Finset.sum_nonneg fun _ _ => abs_nonneg _) this ?_
    by_cases hic : i ≤ c
    · rw [if_pos hic, if_pos hic, low i le_rfl c hc]
      exact up r (by omega) hr c hic hc
    · rw [if_neg hic, if_neg hic, if_neg (by omega)]
      simp

theorem FactorsE.degenerate {u : K} (hu : 0 ≤ u) {B A : ℕ → ℕ → K} {rows cols i : ℕ} (h : FactorsE u B A rows cols i)
    (hz : ∀ r, i ≤ r → r < rows → A r i = 0) : FactorsE u B A rows cols (i + 1) := by
  refine h.step hu (fun _ _ _ _ => rfl) (fun _ _ _ _ _ => rfl) (fun r hr hr' c hic hc => ?_)
  rw [hz r hr.le hr', zero_mul, sub_zero, abs_zero, zero_add]
  by_cases hc' : i + 1 ≤ c
  · rw [if_pos hc', sub_self, abs_zero]
    exact mul_nonneg hu (abs_nonneg _)
  · rw [if_neg hc', show c = i by omega, hz r hr.le hr']
    simp

theorem FactorsE.eliminate {rnd : K → K} {u : K} (hn : Near rnd u) {B A : ℕ → ℕ → K} {rows cols i : ℕ}
    (h : FactorsE u B A rows cols i) (hi : i < rows) (hic : i < cols) (ha : A i i ≠ 0) :
    FactorsE u B (eliminateF rnd A rows cols i) rows cols (i + 1) := by
  refine h.step hn.nonneg (fun k hk c _ => ?_) (fun r hr hr' c hc => ?_) (fun r hr hr' c hc hcc => ?_)
  · rw [eliminateF_apply rnd A hi hic, if_neg (by omega)]
  · rw [eliminateF_apply rnd A hi hic, if_pos ⟨hr, hr'⟩, if_neg (by omega), if_neg (by omega)]
  · have e : eliminateF rnd A rows cols i r i = rnd (A r i / A i i) := by
      rw [eliminateF_apply rnd A hi hic, if_pos ⟨hr, hr'⟩, if_pos rfl]
    rw [e]
    by_cases hci : i + 1 ≤ c
    · rw [if_pos hci, eliminateF_apply rnd A hi hic, if_pos ⟨hr, hr'⟩, if_neg (by omega), if_pos ⟨by omega, hcc⟩]
      exact upd_err hn _ _ _
    · rw [if_neg hci]
      obtain rfl : c = i := by omega
      exact div_err hn ha

end Geomc.LU
