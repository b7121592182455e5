import Verif.Perlin.Model
import Mathlib.Analysis.Calculus.FDeriv.Mul
import Mathlib.Analysis.Calculus.FDeriv.Add
import Mathlib.Analysis.Calculus.FDeriv.Pi
import Mathlib.Analysis.Calculus.Deriv.Pow
import Mathlib.Analysis.Calculus.Deriv.Mul
import Mathlib.Analysis.Calculus.Deriv.Add
import Mathlib.Analysis.Calculus.Deriv.Comp
import Mathlib.Analysis.Calculus.Deriv.Abs
import Mathlib.Analysis.Calculus.TangentCone.Pi
import Mathlib.Analysis.Calculus.TangentCone.Real
import Mathlib.Tactic.FieldSimp
import Mathlib.Data.Nat.Bitwise

/-! # Property C65: Perlin noise -/

namespace Geomc.Perlin

open Util (mix)

/-! ## The passes -/

section
variable {K : Type} [Field K]

theorem pass_eq (t : K) (n : ℕ) (f : ℕ → K) (p : ℕ) :
    pass t n f p = if p < n then mix t (f (p * 2)) (f (p * 2 + 1)) else f p := by
  unfold pass
  induction n generalizing p with
  | zero => simp
  | succ n ih =>
    rw [List.range_succ, List.foldl_append, List.foldl_cons, List.foldl_nil]
    by_cases hp : p = n
    · subst hp
      rw [Function.update_self, ih, ih, if_neg (by omega), if_neg (by omega), if_pos (by omega)]
    · rw [Function.update_of_ne hp, ih]
      split_ifs <;> first | rfl | omega

theorem gradPass_eq {N : ℕ} (axis : Fin N) (t dt : K) (n : ℕ) (s : St N K) (p : ℕ) :
    gradPass axis t dt n s p = if p < n then
      (mix t (s (p * 2)).1 (s (p * 2 + 1)).1, fun i =>
        (if i = axis then ((s (p * 2 + 1)).1 - (s (p * 2)).1) * dt else 0) + (1 - t) * (s (p * 2)).2 i +
          t * (s (p * 2 + 1)).2 i) else s p := by
  unfold gradPass
  induction n generalizing p with
  | zero => simp
  | succ n ih =>
    rw [List.range_succ, List.foldl_append, List.foldl_cons, List.foldl_nil]
    generalize hG : (List.range n).foldl (gradBody axis t dt) s = G at ih ⊢
    unfold gradBody
    by_cases hp : p = n
    · subst hp
      simp only [Function.update_self]
      rw [ih, ih, if_neg (by omega), if_neg (by omega), if_pos (by omega)]
      ext i
      · rfl
      · simp only [Function.update_apply, zero_add]
    · rw [Function.update_of_ne hp, ih]
      split_ifs <;> first | rfl | omega

theorem corner_eq (N c : ℕ) (i : Fin N) : corner N c i = if c.testBit i then 1 else 0 := by
  unfold corner
  have : (c &&& (1 <<< (i : ℕ)) ≠ 0) ↔ c.testBit i = true := by
    rw [Nat.one_shiftLeft, Nat.and_two_pow]
    cases c.testBit i <;> simp
  simp only [this]

end

/-! ## Gradient of the cell polynomial -/

noncomputable section

/-- The linear functional with the given coefficients. -/
def lin {N : ℕ} (w : Fin N → ℝ) : (Fin N → ℝ) →L[ℝ] ℝ := ∑ i, w i • ContinuousLinearMap.proj (R := ℝ) i

theorem lin_apply {N : ℕ} (w h : Fin N → ℝ) : lin w h = ∑ i, w i * h i := by
  simp [lin]

theorem fade_deriv (t : ℝ) : HasDerivAt (fade : ℝ → ℝ) (dfade t) t := by
  have hid := hasDerivAt_id t
  have hx3 := (hid.mul hid).mul hid
  have hq := ((hid.mul ((hid.mul_const 6).sub_const 15)).add_const 10)
  refine (hx3.mul hq).congr_deriv ?_
  simp [dfade]
  ring

/-- Value and gradient of each entry, as functions of the position within the cell, stay in step. -/
theorem stage {N : ℕ} (grad : (Fin N → ℤ) → Fin N → ℝ) (p0 : Fin N → ℤ) (k : ℕ) (c : ℕ) (x : Fin N → ℝ) :
    (gradPasses x (gradPlanes grad p0 x) k c).1 = passes x (planes grad p0 x) k c ∧
    HasFDerivAt (fun x => passes x (planes grad p0 x) k c)
      (lin (gradPasses x (gradPlanes grad p0 x) k c).2) x := by
  induction k generalizing c with
  | zero =>
    refine ⟨rfl, ?_⟩
    show HasFDerivAt (fun x => planes grad p0 x c) _ x
    unfold planes dot gradPasses gradPlanes lin
    refine (HasFDerivAt.fun_sum (fun i _ => ?_))
    have h := (hasFDerivAt_apply (𝕜 := ℝ) i x).sub_const ((corner N c i : ℤ) : ℝ)
    have := h.mul_const (grad (fun i => p0 i + corner N c i) i)
    exact this
  | succ k ih =>
    by_cases hk : k < N
    · simp only [gradPasses, passes, hk, dif_pos, gradPass_eq, pass_eq]
      by_cases hc : c < 2 ^ (N - k - 1)
      · simp only [hc, if_true]
        obtain ⟨a1, a2⟩ := ih (c * 2)
        obtain ⟨b1, b2⟩ := ih (c * 2 + 1)
        refine ⟨by rw [a1, b1], ?_⟩
        have hf : HasFDerivAt (fun x : Fin N → ℝ => fade (x ⟨k, hk⟩))
            (dfade (x ⟨k, hk⟩) • ContinuousLinearMap.proj (R := ℝ) (φ := fun _ : Fin N => ℝ) ⟨k, hk⟩) x := by
          have := (fade_deriv (x ⟨k, hk⟩)).comp_hasFDerivAt x (hasFDerivAt_apply (𝕜 := ℝ) (⟨k, hk⟩ : Fin N) x)
          exact this
        have hm := ((hf.const_sub 1).mul a2).add (hf.mul b2)
        refine hm.congr_fderiv ?_
        ext h
        simp only [ContinuousLinearMap.add_apply, ContinuousLinearMap.smul_apply, ContinuousLinearMap.neg_apply,
          lin_apply, smul_eq_mul, ContinuousLinearMap.proj_apply, add_mul, Finset.sum_add_distrib, ite_mul, zero_mul,
          Finset.sum_ite_eq', Finset.mem_univ, if_true, mul_assoc, ← Finset.mul_sum, a1, b1]
        ring
      · simp only [hc, if_false]
        exact ih c
    · simp only [gradPasses, passes, hk, dif_neg, not_false_iff]
      exact ih c

/-! ## The noise as a sum over lattice points -/

/-- The bump a lattice point contributes along one axis. -/
def bump (x : ℝ) : ℝ := if |x| ≤ 1 then 1 - fade |x| else 0

theorem fade_flip (t : ℝ) : fade (1 - t) = 1 - fade t := by unfold fade; ring

theorem bump_right (x : ℝ) (h0 : 0 ≤ x) (h1 : x ≤ 1) : bump x = 1 - fade x := by
  rw [bump, abs_of_nonneg h0, if_pos h1]

theorem bump_left (x : ℝ) (h0 : 0 ≤ x) (h1 : x ≤ 1) : bump (x - 1) = fade x := by
  rw [bump, abs_of_nonpos (by linarith), if_pos (by linarith), neg_sub, fade_flip]; ring

theorem bump_far (x : ℝ) (h : 1 ≤ |x|) : bump x = 0 := by
  unfold bump
  split_ifs with h'
  · rw [le_antisymm h' h]; unfold fade; norm_num
  · rfl

theorem bump_even (x : ℝ) : bump (-x) = bump x := by simp [bump]

theorem glue {f : ℝ → ℝ} {t l r v : ℝ} (hl : l < t) (hr : t < r) {g h : ℝ → ℝ} (hg : HasDerivAt g v t)
    (hh : HasDerivAt h v t) (eg : ∀ s, l < s → s ≤ t → f s = g s) (eh : ∀ s, t ≤ s → s < r → f s = h s) :
    HasDerivAt f v t := by
  have h1 : HasDerivWithinAt f v (Set.Iic t) t := by
    refine hg.hasDerivWithinAt.congr_of_eventuallyEq ?_ (eg t hl le_rfl)
    filter_upwards [self_mem_nhdsWithin, mem_nhdsWithin_of_mem_nhds (lt_mem_nhds hl)] with s hs hs'
    exact eg s hs' hs
  have h2 : HasDerivWithinAt f v (Set.Ici t) t := by
    refine hh.hasDerivWithinAt.congr_of_eventuallyEq ?_ (eh t le_rfl hr)
    filter_upwards [self_mem_nhdsWithin, mem_nhdsWithin_of_mem_nhds (gt_mem_nhds hr)] with s hs hs'
    exact eh s hs hs'
  have := h1.union h2
  rwa [Set.Iic_union_Ici, hasDerivWithinAt_univ] at this

theorem bump_deriv_pos (x : ℝ) (hx : 0 ≤ x) : ∃ v, HasDerivAt bump v x := by
  have hr : ∀ t : ℝ, HasDerivAt (fun t : ℝ => 1 - fade t) (-dfade t) t := fun t => (fade_deriv t).const_sub 1
  have hl : ∀ t : ℝ, HasDerivAt (fun t : ℝ => 1 - fade (-t)) (dfade (-t)) t := fun t => by
    have := ((fade_deriv (-t)).comp t (hasDerivAt_neg t)).const_sub 1
    refine this.congr_deriv ?_
    ring
  have hb : ∀ s, -1 ≤ s → s ≤ 0 → bump s = 1 - fade (-s) := fun s h1 h2 => by
    rw [← bump_even, bump_right _ (by linarith) (by linarith)]
  rcases hx.eq_or_lt with rfl | hx
  · refine ⟨0, glue (l := -1) (r := 1) (by norm_num) (by norm_num) ((hl 0).congr_deriv ?_)
      ((hr 0).congr_deriv ?_) (fun s h1 h2 => hb s h1.le h2) (fun s h1 h2 => bump_right s h1 h2.le)⟩
    · simp [dfade]
    · simp [dfade]
  · rcases lt_trichotomy x 1 with h | h | h
    · refine ⟨_, glue (l := 0) (r := 1) hx h (hr x) (hr x) (fun s h1 h2 => bump_right s h1.le (by linarith))
        (fun s h1 h2 => bump_right s (by linarith) h2.le)⟩
    · subst h
      refine ⟨0, glue (l := 0) (r := 2) (by norm_num) (by norm_num) ((hr 1).congr_deriv ?_)
        (hasDerivAt_const 1 (0 : ℝ)) (fun s h1 h2 => bump_right s h1.le h2)
        (fun s h1 h2 => bump_far s (by rw [abs_of_pos (by linarith)]; exact h1))⟩
      simp [dfade]
    · refine ⟨0, glue (l := 1) (r := x + 1) h (by linarith) (hasDerivAt_const x (0 : ℝ)) (hasDerivAt_const x (0 : ℝ))
        (fun s h1 h2 => bump_far s (by rw [abs_of_pos (by linarith)]; exact h1.le))
        (fun s h1 h2 => bump_far s (by rw [abs_of_pos (by linarith)]; linarith))⟩

theorem bump_diff (x : ℝ) : ∃ v, HasDerivAt bump v x := by
  rcases le_total 0 x with h | h
  · exact bump_deriv_pos x h
  · obtain ⟨v, hv⟩ := bump_deriv_pos (-x) (by linarith)
    refine ⟨v * (-1), ?_⟩
    have := hv.comp x (hasDerivAt_neg x)
    refine this.congr_of_eventuallyEq (Filter.Eventually.of_forall fun s => ?_)
    exact (bump_even s).symm

/-- Sum over the values reduced in the first `k` passes. -/
theorem passes_sum {N : ℕ} (x : Fin N → ℝ) (f : ℕ → ℝ) (k : ℕ) (hk : k ≤ N) (p : ℕ) (hp : p < 2 ^ (N - k)) :
    passes x f k p = ∑ c ∈ Finset.range (2 ^ k), (∏ i ∈ Finset.range k,
      if h : i < N then (if c.testBit i then fade (x ⟨i, h⟩) else 1 - fade (x ⟨i, h⟩)) else 1) * f (p * 2 ^ k + c) := by
  induction k generalizing p with
  | zero => simp [passes]
  | succ k ih =>
    have hkN : k < N := hk
    have hpow : 2 ^ (N - k) = 2 * 2 ^ (N - k - 1) := by
      rw [← pow_succ']; congr 1; omega
    have hp' : p < 2 ^ (N - k - 1) := by rwa [show N - k - 1 = N - (k + 1) by omega]
    simp only [passes, hkN, dif_pos, pass_eq, hp', if_true]
    rw [ih hkN.le (p * 2) (by omega), ih hkN.le (p * 2 + 1) (by omega)]
    rw [show 2 ^ (k + 1) = 2 ^ k + 2 ^ k by ring, Finset.sum_range_add]
    unfold mix
    rw [Finset.mul_sum, Finset.mul_sum]
    congr 1
    · apply Finset.sum_congr rfl
      intro c hc
      have hc' := Finset.mem_range.1 hc
      rw [Finset.prod_range_succ, dif_pos hkN, Nat.testBit_lt_two_pow hc']
      rw [show p * 2 * 2 ^ k + c = p * (2 ^ k + 2 ^ k) + c by ring]
      simp only [Bool.false_eq_true, if_false]
      ring
    · apply Finset.sum_congr rfl
      intro c hc
      have hc' := Finset.mem_range.1 hc
      rw [Finset.prod_range_succ, dif_pos hkN, Nat.testBit_two_pow_add_eq, Nat.testBit_lt_two_pow hc']
      rw [show (p * 2 + 1) * 2 ^ k + c = p * (2 ^ k + 2 ^ k) + (2 ^ k + c) by ring]
      simp only [Bool.not_false, if_true]
      have : (∏ i ∈ Finset.range k, if h : i < N then (if (2 ^ k + c).testBit i then fade (x ⟨i, h⟩) else
          1 - fade (x ⟨i, h⟩)) else 1) = ∏ i ∈ Finset.range k, if h : i < N then
          (if c.testBit i then fade (x ⟨i, h⟩) else 1 - fade (x ⟨i, h⟩)) else 1 := by
        apply Finset.prod_congr rfl
        intro i hi
        rw [Nat.testBit_two_pow_add_gt (Finset.mem_range.1 hi)]
      rw [this]; ring

/-- Sums over corner numbers are sums over `{0,1}^N`. -/
theorem sum_corners {N : ℕ} (F : (Fin N → ℤ) → ℝ) :
    ∑ c ∈ Finset.range (2 ^ N), F (corner N c) = ∑ e ∈ Fintype.piFinset (fun _ : Fin N => ({0, 1} : Finset ℤ)), F e := by
  refine Finset.sum_bij (fun c _ => corner N c) ?_ ?_ ?_ ?_
  · intro c _
    rw [Fintype.mem_piFinset]
    intro i
    rw [corner_eq]
    split_ifs <;> simp
  · intro c hc d hd h
    apply Nat.eq_of_testBit_eq
    intro i
    by_cases hi : i < N
    · have := congrFun h ⟨i, hi⟩
      rw [corner_eq, corner_eq] at this
      simp only at this
      revert this
      cases c.testBit i <;> cases d.testBit i <;> simp
    · rw [Nat.testBit_lt_two_pow (lt_of_lt_of_le (Finset.mem_range.1 hc) (Nat.pow_le_pow_right (by norm_num) (by omega))),
        Nat.testBit_lt_two_pow (lt_of_lt_of_le (Finset.mem_range.1 hd) (Nat.pow_le_pow_right (by norm_num) (by omega)))]
  · intro e he
    rw [Fintype.mem_piFinset] at he
    have key : ∀ (N : ℕ) (b : Fin N → Bool), ∃ c < 2 ^ N, ∀ i : Fin N, c.testBit i = b i := by
      intro N
      induction N with
      | zero => intro b; exact ⟨0, by simp, fun i => i.elim0⟩
      | succ n ih =>
        intro b
        obtain ⟨c, hc, hb⟩ := ih (fun i => b i.castSucc)
        by_cases hl : b (Fin.last n) = true
        · refine ⟨2 ^ n + c, by rw [pow_succ]; omega, fun i => ?_⟩
          refine Fin.lastCases ?_ (fun j => ?_) i
          · rw [Fin.val_last, Nat.testBit_two_pow_add_eq, Nat.testBit_lt_two_pow hc, hl]; rfl
          · rw [Fin.val_castSucc, Nat.testBit_two_pow_add_gt j.isLt]; exact hb j
        · refine ⟨c, by rw [pow_succ]; omega, fun i => ?_⟩
          refine Fin.lastCases ?_ (fun j => ?_) i
          · rw [Fin.val_last, Nat.testBit_lt_two_pow hc]; simpa using hl
          · exact hb j
    obtain ⟨c, hc, hb⟩ := key N (fun i => decide (e i = 1))
    refine ⟨c, Finset.mem_range.2 hc, ?_⟩
    funext i
    rw [corner_eq, hb i]
    have := he i
    simp only [Finset.mem_insert, Finset.mem_singleton] at this
    rcases this with h | h <;> simp [h]
  · intro c _; rfl

/-- The cell polynomial as a sum over the corners of the cell. -/
theorem passes_corners {N : ℕ} (grad : (Fin N → ℤ) → Fin N → ℝ) (p0 : Fin N → ℤ) (x : Fin N → ℝ) :
    passes x (planes grad p0 x) N 0 = ∑ e ∈ Fintype.piFinset (fun _ : Fin N => ({0, 1} : Finset ℤ)),
      (∏ i, if e i = 1 then fade (x i) else 1 - fade (x i)) *
        ∑ i, (x i - (e i : ℝ)) * grad (fun j => p0 j + e j) i := by
  rw [passes_sum x _ N le_rfl 0 (by simp), ← sum_corners (N := N) (fun e =>
    (∏ i, if e i = 1 then fade (x i) else 1 - fade (x i)) * ∑ i, (x i - (e i : ℝ)) * grad (fun j => p0 j + e j) i)]
  apply Finset.sum_congr rfl
  intro c _
  rw [zero_mul, zero_add]
  congr 1
  rw [Finset.prod_range]
  apply Finset.prod_congr rfl
  intro i _
  rw [dif_pos i.isLt, corner_eq]
  cases c.testBit i <;> simp

/-- One lattice point's contribution at `p`. -/
def term {N : ℕ} (grad : (Fin N → ℤ) → Fin N → ℝ) (q : Fin N → ℤ) (p : Fin N → ℝ) : ℝ :=
  (∏ i, bump (p i - q i)) * ∑ i, (p i - (q i : ℝ)) * grad q i

/-- On a closed cell the noise polynomial is the sum of the contributions of any finite set of lattice points
which includes the corners of the cell. -/
theorem cell_eq {N : ℕ} (grad : (Fin N → ℤ) → Fin N → ℝ) (p0 : Fin N → ℤ) (p : Fin N → ℝ)
    (h0 : ∀ i, (p0 i : ℝ) ≤ p i) (h1 : ∀ i, p i ≤ p0 i + 1) (S : Finset (Fin N → ℤ))
    (hS : ∀ e ∈ Fintype.piFinset (fun _ : Fin N => ({0, 1} : Finset ℤ)), (fun i => p0 i + e i) ∈ S) :
    passes (fun i => p i - p0 i) (planes grad p0 (fun i => p i - p0 i)) N 0 = ∑ q ∈ S, term grad q p := by
  rw [passes_corners]
  have hinj : ∀ e ∈ Fintype.piFinset (fun _ : Fin N => ({0, 1} : Finset ℤ)),
      ∀ e' ∈ Fintype.piFinset (fun _ : Fin N => ({0, 1} : Finset ℤ)),
      (fun i => p0 i + e i) = (fun i => p0 i + e' i) → e = e' := by
    intro e _ e' _ h
    funext i
    have := congrFun h i
    simpa using this
  rw [← Finset.sum_subset (f := fun q => term grad q p) (s₂ := S) (s₁ := (Fintype.piFinset (fun _ : Fin N => ({0, 1} : Finset ℤ))).image
    (fun e i => p0 i + e i))]
  · rw [Finset.sum_image hinj]
    apply Finset.sum_congr rfl
    intro e he
    rw [Fintype.mem_piFinset] at he
    unfold term
    congr 1
    · apply Finset.prod_congr rfl
      intro i _
      have := he i
      simp only [Finset.mem_insert, Finset.mem_singleton] at this
      rcases this with h | h
      · rw [if_neg (by omega), ← bump_right (p i - p0 i) (by linarith [h0 i]) (by linarith [h1 i])]
        simp [h]
      · rw [if_pos h]
        rw [← bump_left (p i - p0 i) (by linarith [h0 i]) (by linarith [h1 i])]
        congr 1; simp only [h]; push_cast; ring
    · apply Finset.sum_congr rfl
      intro i _
      push_cast; ring
  · intro q hq
    rw [Finset.mem_image] at hq
    obtain ⟨e, he, rfl⟩ := hq
    exact hS e he
  · intro q _ hq
    have : ∃ i, q i ≠ p0 i ∧ q i ≠ p0 i + 1 := by
      by_contra hc
      push Not at hc
      apply hq
      rw [Finset.mem_image]
      refine ⟨fun i => q i - p0 i, ?_, by funext i; ring⟩
      rw [Fintype.mem_piFinset]
      intro i
      simp only [Finset.mem_insert, Finset.mem_singleton]
      by_cases h : q i = p0 i
      · left; omega
      · right; have := hc i h; omega
    obtain ⟨i, hi1, hi2⟩ := this
    unfold term
    rw [Finset.prod_eq_zero (Finset.mem_univ i), zero_mul]
    apply bump_far
    rcases lt_or_gt_of_ne hi1 with h | h
    · have : (q i : ℝ) + 1 ≤ p0 i := by exact_mod_cast h
      rw [abs_of_nonneg (by linarith [h0 i])]; linarith [h0 i]
    · have : (p0 i : ℝ) + 2 ≤ q i := by exact_mod_cast (by omega : p0 i + 2 ≤ q i)
      rw [abs_of_nonpos (by linarith [h1 i])]; linarith [h1 i]

theorem eval_eq {N : ℕ} (grad : (Fin N → ℤ) → Fin N → ℝ) (p : Fin N → ℝ) (S : Finset (Fin N → ℤ))
    (hS : ∀ e ∈ Fintype.piFinset (fun _ : Fin N => ({0, 1} : Finset ℤ)), (fun i => ⌊p i⌋ + e i) ∈ S) :
    eval grad p = ∑ q ∈ S, term grad q p :=
  cell_eq grad (fun i => ⌊p i⌋) p (fun i => Int.floor_le _) (fun i => (Int.lt_floor_add_one _).le) S hS

theorem term_diff {N : ℕ} (grad : (Fin N → ℤ) → Fin N → ℝ) (q : Fin N → ℤ) (p : Fin N → ℝ) :
    DifferentiableAt ℝ (term grad q) p := by
  unfold term
  have hc : ∀ i : Fin N, DifferentiableAt ℝ (fun p : Fin N → ℝ => p i - (q i : ℝ)) p := fun i =>
    ((hasFDerivAt_apply (𝕜 := ℝ) i p).differentiableAt).sub_const _
  apply DifferentiableAt.mul
  · refine (HasFDerivAt.finset_prod (u := Finset.univ) (fun i _ => DifferentiableAt.hasFDerivAt ?_)).differentiableAt
    obtain ⟨v, hv⟩ := bump_diff (p i - q i)
    exact (hv.differentiableAt).comp p (hc i)
  · apply DifferentiableAt.fun_sum
    intro i _
    exact (hc i).mul_const _

/-- **C65.** The noise is a differentiable (hence continuous) function of position on all of space. -/
theorem C65_differentiable {N : ℕ} (grad : (Fin N → ℤ) → Fin N → ℝ) : Differentiable ℝ (eval grad) := by
  intro p
  let S : Finset (Fin N → ℤ) := Fintype.piFinset (fun i => Finset.Icc (⌊p i⌋ - 1) (⌊p i⌋ + 2))
  have hd : DifferentiableAt ℝ (fun x => ∑ q ∈ S, term grad q x) p :=
    DifferentiableAt.fun_sum (fun q _ => term_diff grad q p)
  refine hd.congr_of_eventuallyEq ?_
  have hnear : ∀ᶠ x in nhds p, ∀ i, |x i - p i| < 1 := by
    rw [Filter.eventually_all]
    intro i
    have : Filter.Tendsto (fun x : Fin N → ℝ => |x i - p i|) (nhds p) (nhds |p i - p i|) :=
      ((continuous_apply i).sub continuous_const).abs.tendsto p
    rw [sub_self, abs_zero] at this
    exact this.eventually (gt_mem_nhds (by norm_num))
  filter_upwards [hnear] with x hx
  apply eval_eq
  intro e he
  rw [Fintype.mem_piFinset] at he ⊢
  intro i
  have h1 := abs_lt.1 (hx i)
  have h2 := he i
  have hlo : ⌊p i⌋ - 1 ≤ ⌊x i⌋ := by
    rw [Int.le_floor]; push_cast; linarith [Int.floor_le (p i)]
  have hhi : ⌊x i⌋ < ⌊p i⌋ + 2 := by
    rw [Int.floor_lt]; push_cast; linarith [Int.lt_floor_add_one (p i)]
  simp only [Finset.mem_insert, Finset.mem_singleton] at h2
  rw [Finset.mem_Icc]
  rcases h2 with h | h <;> omega

theorem C65_continuous {N : ℕ} (grad : (Fin N → ℤ) → Fin N → ℝ) : Continuous (eval grad) :=
  (C65_differentiable grad).continuous

/-- **C65.** The noise vanishes at every lattice point. -/
theorem C65_zero {N : ℕ} (grad : (Fin N → ℤ) → Fin N → ℝ) (q : Fin N → ℤ) :
    eval grad (fun i => (q i : ℝ)) = 0 := by
  unfold eval
  simp only [Int.floor_intCast, sub_self]
  rw [passes_corners]
  apply Finset.sum_eq_zero
  intro e he
  by_cases h : ∀ i, e i = 0
  · simp [h]
  · push Not at h
    obtain ⟨i, hi⟩ := h
    rw [Fintype.mem_piFinset] at he
    have h1 : e i = 1 := by
      have := he i
      simp only [Finset.mem_insert, Finset.mem_singleton] at this
      tauto
    rw [Finset.prod_eq_zero (Finset.mem_univ i), zero_mul]
    rw [if_pos h1]; simp [fade]

/-- **C65.** `gradient` returns the noise value and its exact gradient, at every point (faces and corners of
cells included), in every dimension but one. -/
theorem C65_gradient {N : ℕ} (hN : N ≠ 1) (grad : (Fin N → ℤ) → Fin N → ℝ) (p : Fin N → ℝ) :
    ∃ g, gradient grad p = some (eval grad p, g) ∧ HasFDerivAt (eval grad) (lin g) p := by
  have hst := stage grad (fun i => ⌊p i⌋) N 0 (fun i => p i - (⌊p i⌋ : ℝ))
  refine ⟨(gradPasses (fun i => p i - (⌊p i⌋ : ℝ)) (gradPlanes grad (fun i => ⌊p i⌋)
    (fun i => p i - (⌊p i⌋ : ℝ))) N 0).2, ?_, ?_⟩
  · simp only [gradient, hN, if_false]
    congr 1
    ext1
    · exact hst.1
    · rfl
  · -- the noise agrees with the cell polynomial on the closed cell
    set B : Set (Fin N → ℝ) := Set.univ.pi (fun i => Set.Icc (⌊p i⌋ : ℝ) (⌊p i⌋ + 1)) with hB
    have hpB : p ∈ B := by
      intro i _
      exact ⟨Int.floor_le _, (Int.lt_floor_add_one _).le⟩
    have hu : UniqueDiffWithinAt ℝ B p :=
        (UniqueDiffOn.univ_pi (fun i => uniqueDiffOn_Icc (by linarith))) p hpB
    have hd := (C65_differentiable grad p).hasFDerivAt
    have hP : HasFDerivAt (fun x : Fin N → ℝ => passes (fun i => x i - (⌊p i⌋ : ℝ)) (planes grad (fun i => ⌊p i⌋)
        (fun i => x i - (⌊p i⌋ : ℝ))) N 0) (lin (gradPasses (fun i => p i - (⌊p i⌋ : ℝ)) (gradPlanes grad
          (fun i => ⌊p i⌋) (fun i => p i - (⌊p i⌋ : ℝ))) N 0).2) p := by
      have hsub : HasFDerivAt (fun x : Fin N → ℝ => (fun i => x i - (⌊p i⌋ : ℝ)))
          (ContinuousLinearMap.id ℝ (Fin N → ℝ)) p :=
        (hasFDerivAt_id p).sub_const (fun i => (⌊p i⌋ : ℝ))
      have := hst.2.comp p hsub
      exact this
    have heq : ∀ x ∈ B, eval grad x = passes (fun i => x i - (⌊p i⌋ : ℝ)) (planes grad (fun i => ⌊p i⌋)
        (fun i => x i - (⌊p i⌋ : ℝ))) N 0 := by
      intro x hx
      let S : Finset (Fin N → ℤ) := Fintype.piFinset (fun i => Finset.Icc (⌊p i⌋) (⌊p i⌋ + 2))
      rw [eval_eq grad x S ?_, cell_eq grad (fun i => ⌊p i⌋) x (fun i => (hx i trivial).1)
        (fun i => (hx i trivial).2) S ?_]
      · intro e he
        rw [Fintype.mem_piFinset] at he ⊢
        intro i
        have := he i
        simp only [Finset.mem_insert, Finset.mem_singleton] at this
        rw [Finset.mem_Icc]
        rcases this with h | h <;> omega
      · intro e he
        rw [Fintype.mem_piFinset] at he ⊢
        intro i
        have := he i
        simp only [Finset.mem_insert, Finset.mem_singleton] at this
        rw [Finset.mem_Icc]
        have h1 : ⌊p i⌋ ≤ ⌊x i⌋ := Int.le_floor.2 (hx i trivial).1
        have h2 : ⌊x i⌋ ≤ ⌊p i⌋ + 1 := by
          have := Int.floor_le_floor (hx i trivial).2
          rwa [Int.floor_add_one, Int.floor_intCast] at this
        rcases this with h | h <;> omega
    have hw : HasFDerivWithinAt (eval grad) _ B p := hP.hasFDerivWithinAt.congr heq (heq p hpB)
    rw [hu.eq hw hd.hasFDerivWithinAt]
    exact hd

end

/-- **C65 refuted in one dimension:** the accumulator is read uninitialised. -/
theorem C65_gradient_1d_refuted {K : Type} [Field K] [LinearOrder K] [FloorRing K]
    (grad : (Fin 1 → ℤ) → Fin 1 → K) (p : Fin 1 → K) : gradient grad p = none := by
  simp [gradient]

theorem scramble_none (idx k : ℤ) (h : k + idx ≤ -2 ∨ 2 ≤ k + idx) : scramble idx k = none := by
  have c1 : ¬ (-(2 : ℤ) ^ (64 - 1) ≤ 6364136223846793005 * (k + idx) ∧
      6364136223846793005 * (k + idx) < 2 ^ (64 - 1)) := by omega
  unfold scramble Util.chk
  split_ifs with c0
  · simp only [Option.bind_eq_bind, Option.bind_some]
    rw [if_neg c1]; rfl
  · rfl

/-- **C65, gradient selection refuted.** With two or more coordinates the index computation overflows signed
64 bit arithmetic - undefined - whenever the second coordinate is below `2^60` in magnitude. -/
theorem C65_index_refuted (k₁ k₂ : ℤ) (rest : List ℤ) (h : |k₂| ≤ 2 ^ 60) :
    gridIndex (k₁ :: k₂ :: rest) = none := by
  obtain ⟨h1, h2⟩ := abs_le.1 h
  unfold gridIndex
  simp only [List.foldlM_cons, Option.bind_eq_bind]
  by_cases e : k₁ = -1 ∨ k₁ = 0 ∨ k₁ = 1
  · have e0 : scramble 0 (-1) = some (-4921441182957829598) := by decide
    have e1 : scramble 0 0 = some 1442695040888963407 := by decide
    have e2 : scramble 0 1 = some 7806831264735756412 := by decide
    rcases e with rfl | rfl | rfl
    · rw [e0, Option.bind_some, scramble_none _ _ (by omega)]; rfl
    · rw [e1, Option.bind_some, scramble_none _ _ (by omega)]; rfl
    · rw [e2, Option.bind_some, scramble_none _ _ (by omega)]; rfl
  · rw [scramble_none 0 k₁ (by omega)]; rfl

/-- In one dimension the index is defined exactly next to the origin. -/
theorem C65_index_1d (k : ℤ) : (gridIndex [k]).isSome ↔ -1 ≤ k ∧ k ≤ 1 := by
  constructor
  · intro h
    by_contra hc
    rw [gridIndex, List.foldlM_cons, scramble_none 0 k (by omega)] at h
    simp at h
  · intro h
    have e : k = -1 ∨ k = 0 ∨ k = 1 := by omega
    rcases e with rfl | rfl | rfl <;> decide +kernel

/-- A two dimensional sample with the constant gradient `(1, 0)`. -/
example : eval (N := 2) (fun _ => ![1, 0]) ![(1 : ℚ) / 4, 1 / 2] = 75 / 512 := by decide +kernel

end Geomc.Perlin
