import Verif.SH.Zonal

/-! # Property C92: convolution of functions on the sphere -/

namespace Geomc.SH

open Polynomial Basis

theorem double_sum {ι : Type} (S : Finset ι) (φ ψ : ι → ℝ → ℝ) (hφ : ∀ i ∈ S, Continuous (φ i))
    (hψ : ∀ i ∈ S, Continuous (ψ i)) :
    ∫ t in (0 : ℝ)..2 * Real.pi, ∫ x in (-1 : ℝ)..1, ∑ i ∈ S, φ i t * ψ i x =
      ∑ i ∈ S, ∫ t in (0 : ℝ)..2 * Real.pi, ∫ x in (-1 : ℝ)..1, φ i t * ψ i x := by
  have h1 : ∀ t : ℝ, ∫ x in (-1 : ℝ)..1, ∑ i ∈ S, φ i t * ψ i x = ∑ i ∈ S, ∫ x in (-1 : ℝ)..1, φ i t * ψ i x := by
    intro t
    rw [intervalIntegral.integral_finset_sum]
    intro i hi
    exact ((hψ i hi).intervalIntegrable _ _).const_mul _
  simp only [h1]
  rw [intervalIntegral.integral_finset_sum]
  intro i hi
  simp only [intervalIntegral.integral_const_mul]
  exact ((hφ i hi).intervalIntegrable _ _).mul_const _

theorem azim_cont (m : ℤ) : Continuous (azim m) := by
  unfold azim
  split_ifs
  · exact continuous_const.mul (Real.continuous_cos.comp (continuous_const.mul continuous_id))
  · exact continuous_const.mul (Real.continuous_sin.comp (continuous_const.mul continuous_id))
  · exact continuous_const

theorem assoc_cont (l m : ℕ) (h : m ≤ l) : Continuous fun x : ℝ => assocLegendre realFns.halfPow l m x := by
  have e : (fun x : ℝ => assocLegendre realFns.halfPow l m x) = fun x =>
      (-1) ^ m * (if m = 0 then 1 else realFns.halfPow m (1 - x * x)) * (derivative^[m] (leg l : ℝ[X])).eval x := by
    funext x
    exact C64_associated realFns.halfPow l m h x (leg l) (legendre_eq l)
  rw [e]
  refine (continuous_const.mul ?_).mul (Polynomial.continuous _)
  split_ifs
  · exact continuous_const
  · simp only [realFns]
    exact (continuous_const.sub (continuous_id.mul continuous_id)).rpow_const fun x => Or.inr (by positivity)

/-- The pairs `(l, m)` of the first `B` bands. -/
noncomputable def bandIdx (B : ℕ) : Finset (Σ _ : ℕ, ℤ) := (Finset.range B).sigma fun l => Finset.Icc (-(l : ℤ)) l

theorem mem_bandIdx {B : ℕ} {i : Σ _ : ℕ, ℤ} : i ∈ bandIdx B ↔ i.1 < B ∧ |i.2| ≤ i.1 := by
  simp [bandIdx, abs_le]

theorem sum_bandIdx (B : ℕ) (f : ℕ → ℤ → ℝ) :
    ∑ l ∈ Finset.range B, ∑ m ∈ Finset.Icc (-(l : ℤ)) l, f l m = ∑ i ∈ bandIdx B, f i.1 i.2 := by
  rw [bandIdx, Finset.sum_sigma]

/-- Inner products of functions with finitely many bands. -/
theorem inner_bands (A B : ℕ) (a b : ℕ → ℤ → ℝ) :
    ∫ t in (0 : ℝ)..2 * Real.pi, ∫ x in (-1 : ℝ)..1,
      (∑ l ∈ Finset.range A, ∑ m ∈ Finset.Icc (-(l : ℤ)) l, a l m * shCoeff realFns l m x t) *
      (∑ l ∈ Finset.range B, ∑ m ∈ Finset.Icc (-(l : ℤ)) l, b l m * shCoeff realFns l m x t) =
      ∑ l ∈ Finset.range (min A B), ∑ m ∈ Finset.Icc (-(l : ℤ)) l, a l m * b l m := by
  have e : ∀ t x : ℝ,
      (∑ l ∈ Finset.range A, ∑ m ∈ Finset.Icc (-(l : ℤ)) l, a l m * shCoeff realFns l m x t) *
      (∑ l ∈ Finset.range B, ∑ m ∈ Finset.Icc (-(l : ℤ)) l, b l m * shCoeff realFns l m x t) =
      ∑ p ∈ bandIdx A ×ˢ bandIdx B,
        (a p.1.1 p.1.2 * b p.2.1 p.2.2 * (azim p.1.2 t * azim p.2.2 t)) *
        ((knorm realFns p.1.1 p.1.2.natAbs * assocLegendre realFns.halfPow p.1.1 p.1.2.natAbs x) *
          (knorm realFns p.2.1 p.2.2.natAbs * assocLegendre realFns.halfPow p.2.1 p.2.2.natAbs x)) := by
    intro t x
    rw [sum_bandIdx, sum_bandIdx, Finset.sum_mul_sum, ← Finset.sum_product']
    apply Finset.sum_congr rfl
    intro p _
    rw [shCoeff_split, shCoeff_split]
    ring
  simp only [e]
  have nab : ∀ {C : ℕ} {i : Σ _ : ℕ, ℤ}, i ∈ bandIdx C → i.2.natAbs ≤ i.1 := by
    intro C i hi
    have := abs_le.1 (mem_bandIdx.1 hi).2
    omega
  rw [double_sum]
  · have hterm : ∀ p ∈ bandIdx A ×ˢ bandIdx B, (∫ t in (0 : ℝ)..2 * Real.pi, ∫ x in (-1 : ℝ)..1,
        (a p.1.1 p.1.2 * b p.2.1 p.2.2 * (azim p.1.2 t * azim p.2.2 t)) *
        ((knorm realFns p.1.1 p.1.2.natAbs * assocLegendre realFns.halfPow p.1.1 p.1.2.natAbs x) *
          (knorm realFns p.2.1 p.2.2.natAbs * assocLegendre realFns.halfPow p.2.1 p.2.2.natAbs x))) =
        if p.1 = p.2 then a p.1.1 p.1.2 * b p.2.1 p.2.2 else 0 := by
      rintro ⟨⟨l, m⟩, ⟨l', m'⟩⟩ hp
      obtain ⟨h1, h2⟩ := Finset.mem_product.1 hp
      have ho := C70_orthonormal l l' m m' (mem_bandIdx.1 h1).2 (mem_bandIdx.1 h2).2
      have e2 : ∀ t x : ℝ, (a l m * b l' m' * (azim m t * azim m' t)) *
          ((knorm realFns l m.natAbs * assocLegendre realFns.halfPow l m.natAbs x) *
          (knorm realFns l' m'.natAbs * assocLegendre realFns.halfPow l' m'.natAbs x)) =
          (a l m * b l' m') * (shCoeff realFns l m x t * shCoeff realFns l' m' x t) := by
        intro t x; rw [shCoeff_split, shCoeff_split]; ring
      simp only [e2, intervalIntegral.integral_const_mul, ho]
      by_cases h : l = l' ∧ m = m'
      · obtain ⟨rfl, rfl⟩ := h; simp
      · rw [if_neg h, if_neg, mul_zero]
        intro hc
        simp only [Sigma.mk.injEq, heq_eq_eq] at hc
        exact h hc
    rw [Finset.sum_congr rfl hterm, Finset.sum_product, sum_bandIdx]
    have hsub : bandIdx (min A B) ⊆ bandIdx A := by
      intro i hi
      rw [mem_bandIdx] at hi ⊢
      exact ⟨lt_of_lt_of_le hi.1 (min_le_left _ _), hi.2⟩
    rw [← Finset.sum_subset hsub]
    · apply Finset.sum_congr rfl
      intro i hi
      rw [Finset.sum_ite_eq]
      rw [if_pos]
      rw [mem_bandIdx] at hi ⊢
      exact ⟨lt_of_lt_of_le hi.1 (min_le_right _ _), hi.2⟩
    · intro i hi hni
      apply Finset.sum_eq_zero
      intro j hj
      rw [if_neg]
      intro hij
      have hij : i = j := hij
      subst hij
      apply hni
      rw [mem_bandIdx] at *
      exact ⟨lt_min hi.1 hj.1, hi.2⟩
  · intro p _
    exact continuous_const.mul ((azim_cont _).mul (azim_cont _))
  · intro p hp
    obtain ⟨h1, h2⟩ := Finset.mem_product.1 hp
    exact (continuous_const.mul (assoc_cont _ _ (nab h1))).mul (continuous_const.mul (assoc_cont _ _ (nab h2)))

/-- The cosine of the angle between two directions on the sphere. -/
noncomputable def cosAngle (x t y t' : ℝ) : ℝ :=
  x * y + Real.sqrt (1 - x * x) * Real.sqrt (1 - y * y) * Real.cos (t - t')

/-- `g` is the convolution of `f`, a function on the sphere (of the cosine of the polar angle, and the
azimuth), with the kernel `k`, a function of the cosine of the angle to its axis: each value of `g` is the
integral over the sphere of `f` weighted by the kernel centred there. -/
def IsConv (f : ℝ → ℝ → ℝ) (k : ℝ → ℝ) (g : ℝ → ℝ → ℝ) : Prop :=
  ∀ x t, -1 ≤ x → x ≤ 1 →
    g x t = ∫ t' in (0 : ℝ)..2 * Real.pi, ∫ y in (-1 : ℝ)..1, f y t' * k (cosAngle x t y t')

theorem conv_bands (s : SH ℝ) (z : ZH ℝ) (h : 1 ≤ z.bands) (f : ℝ → ℝ → ℝ) (k : ℝ → ℝ)
    (hf : ∀ y t, s.eval realFns y t = some (f y t)) (hk : ∀ u, z.eval u = some (k u)) (x t : ℝ)
    (h1 : -1 ≤ x) (h2 : x ≤ 1) :
    (∫ t' in (0 : ℝ)..2 * Real.pi, ∫ y in (-1 : ℝ)..1, f y t' * k (cosAngle x t y t')) =
      ∑ l ∈ Finset.range (min s.bands z.bands), ∑ m ∈ Finset.Icc (-(l : ℤ)) l,
        s.c (idx l m) * (z.c l * (4 * Real.pi / (2 * l + 1)) * shCoeff realFns l m x t) := by
  have hf' : ∀ y t, f y t = ∑ l ∈ Finset.range s.bands, ∑ m ∈ Finset.Icc (-(l : ℤ)) l,
      s.c (idx l m) * shCoeff realFns l m y t := by
    intro y t
    have := hf y t
    rw [C70_eval] at this
    exact (Option.some.inj this).symm
  have hk' : ∀ u, k u = ∑ l ∈ Finset.range z.bands, z.c l * (leg l : ℝ[X]).eval u := by
    intro u
    have := hk u
    rw [C71_eval z h] at this
    rw [← Option.some.inj this]
    simp only [legendre_eq]
  rw [← inner_bands]
  congr 1
  funext t'
  apply intervalIntegral.integral_congr
  intro y hy
  rw [Set.uIcc_of_le (by norm_num)] at hy
  simp only
  rw [hf', hk']
  congr 1
  apply Finset.sum_congr rfl
  intro l _
  have had := addition l x y t t' (by nlinarith) (by nlinarith [hy.1, hy.2])
  have hpi := Real.pi_pos
  have hl : (0 : ℝ) < 2 * l + 1 := by positivity
  have : (leg l : ℝ[X]).eval (cosAngle x t y t') = (4 * Real.pi / (2 * l + 1)) *
      ∑ m ∈ Finset.Icc (-(l : ℤ)) l, shCoeff realFns l m x t * shCoeff realFns l m y t' := by
    rw [had, cosAngle, ← mul_assoc,
      show 4 * Real.pi / (2 * (l : ℝ) + 1) * ((2 * l + 1) / (4 * Real.pi)) = 1 by field_simp, one_mul]
  rw [this, Finset.mul_sum, Finset.mul_sum]
  apply Finset.sum_congr rfl
  intro m _
  ring

/-- **C92, what holds.** `convolve(zh)` computes the spherical convolution with the kernel whose band `l` is
`(2l+1)/4π` times that of `zh`; so convolving with a kernel scaled beforehand by `4π/(2l+1)` per band gives
the convolution with the kernel itself, at every point of the sphere and for any band counts.  The unscaled
call does not: see `C92_convolve_refuted`. -/
theorem C92_convolve_partial (s : SH ℝ) (z : ZH ℝ) (h : 1 ≤ z.bands) (f : ℝ → ℝ → ℝ) (k : ℝ → ℝ)
    (hf : ∀ y t, s.eval realFns y t = some (f y t)) (hk : ∀ u, z.eval u = some (k u)) :
    ∃ r g, s.convolve (scaled z fun l => 4 * Real.pi / (2 * l + 1)) = some r ∧
      (∀ y t, r.eval realFns y t = some (g y t)) ∧ IsConv f k g := by
  obtain ⟨r, h1, h2, h3⟩ := C70_convolve s (scaled z fun l => 4 * Real.pi / (2 * l + 1))
  replace h3 : ∀ (l : ℕ) (m : ℤ), l < s.bands → |m| ≤ l → r.c (idx l m) =
      if l < z.bands then s.c (idx l m) * (z.c l * (4 * Real.pi / (2 * l + 1))) else 0 := h3
  refine ⟨r, _, h1, fun y t => C70_eval realFns r y t, ?_⟩
  intro x t hx1 hx2
  rw [conv_bands s z h f k hf hk x t hx1 hx2]
  simp only
  have hsub : Finset.range (min s.bands z.bands) ⊆ Finset.range r.bands := by
    rw [h2]; exact Finset.range_subset_range.2 (min_le_left _ _)
  rw [← Finset.sum_subset hsub]
  · apply Finset.sum_congr rfl
    intro l hl
    have hl' := lt_min_iff.1 (Finset.mem_range.1 hl)
    apply Finset.sum_congr rfl
    intro m hm
    rw [h3 l m hl'.1 (abs_le.2 (Finset.mem_Icc.1 hm)), if_pos hl'.2]
    ring
  · intro l hl hnl
    apply Finset.sum_eq_zero
    intro m hm
    have hl' : l < s.bands := by have := Finset.mem_range.1 hl; omega
    rw [h3 l m hl' (abs_le.2 (Finset.mem_Icc.1 hm)), if_neg, zero_mul]
    intro hz
    exact hnl (Finset.mem_range.2 (lt_min hl' hz))

/-- **C92, refuted**: whenever some coefficient of the function and the kernel's coefficient for its band are
both non-zero, the result of `convolve` is not the convolution. -/
theorem C92_convolve_refuted (s : SH ℝ) (z : ZH ℝ) (f : ℝ → ℝ → ℝ) (k : ℝ → ℝ)
    (hf : ∀ y t, s.eval realFns y t = some (f y t)) (hk : ∀ u, z.eval u = some (k u))
    (L : ℕ) (M : ℤ) (hL : L < s.bands) (hLz : L < z.bands) (hM : |M| ≤ L)
    (hs : s.c (idx L M) ≠ 0) (hz : z.c L ≠ 0) :
    ∃ r g, s.convolve z = some r ∧ (∀ y t, r.eval realFns y t = some (g y t)) ∧ ¬ IsConv f k g := by
  obtain ⟨r, h1, h2, h3⟩ := C70_convolve s z
  refine ⟨r, _, h1, fun y t => C70_eval realFns r y t, ?_⟩
  intro hcon
  -- the difference has the coefficients below, and vanishes on the sphere
  set a : ℕ → ℤ → ℝ := fun l m => r.c (idx l m) -
    (if l < z.bands then s.c (idx l m) * (z.c l * (4 * Real.pi / (2 * l + 1))) else 0) with ha
  have hzero : ∀ x t, -1 ≤ x → x ≤ 1 → ∑ l ∈ Finset.range s.bands, ∑ m ∈ Finset.Icc (-(l : ℤ)) l,
      a l m * shCoeff realFns l m x t = 0 := by
    intro x t hx1 hx2
    have e := hcon x t hx1 hx2
    rw [conv_bands s z (by omega) f k hf hk x t hx1 hx2] at e
    simp only [h2] at e
    simp only [ha, sub_mul, Finset.sum_sub_distrib]
    rw [e, sub_eq_zero]
    have hsub : Finset.range (min s.bands z.bands) ⊆ Finset.range s.bands :=
      Finset.range_subset_range.2 (min_le_left _ _)
    rw [← Finset.sum_subset hsub]
    · apply Finset.sum_congr rfl
      intro l hl
      have hl' := lt_min_iff.1 (Finset.mem_range.1 hl)
      apply Finset.sum_congr rfl
      intro m _
      rw [if_pos hl'.2]
      ring
    · intro l hl hnl
      apply Finset.sum_eq_zero
      intro m _
      rw [if_neg, zero_mul]
      intro hz'
      exact hnl (Finset.mem_range.2 (lt_min (Finset.mem_range.1 hl) hz'))
  have hi := inner_bands s.bands s.bands a (fun l m => if l = L ∧ m = M then 1 else 0)
  have hl0 : (∫ t in (0 : ℝ)..2 * Real.pi, ∫ x in (-1 : ℝ)..1,
      (∑ l ∈ Finset.range s.bands, ∑ m ∈ Finset.Icc (-(l : ℤ)) l, a l m * shCoeff realFns l m x t) *
      (∑ l ∈ Finset.range s.bands, ∑ m ∈ Finset.Icc (-(l : ℤ)) l,
        (if l = L ∧ m = M then 1 else 0) * shCoeff realFns l m x t)) = 0 := by
    have : ∀ t : ℝ, (∫ x in (-1 : ℝ)..1,
        (∑ l ∈ Finset.range s.bands, ∑ m ∈ Finset.Icc (-(l : ℤ)) l, a l m * shCoeff realFns l m x t) *
        (∑ l ∈ Finset.range s.bands, ∑ m ∈ Finset.Icc (-(l : ℤ)) l,
          (if l = L ∧ m = M then 1 else 0) * shCoeff realFns l m x t)) = 0 := by
      intro t
      rw [show (0 : ℝ) = ∫ x in (-1 : ℝ)..1, (0 : ℝ) by simp]
      apply intervalIntegral.integral_congr
      intro x hx
      rw [Set.uIcc_of_le (by norm_num)] at hx
      simp only
      rw [hzero x t hx.1 hx.2, zero_mul]
    simp only [this, intervalIntegral.integral_zero]
  rw [hl0, min_self, Finset.sum_eq_single L, Finset.sum_eq_single M] at hi
  · simp only [and_self, if_true, mul_one, ha, hLz] at hi
    rw [h3 L M hL hM, if_pos hLz] at hi
    have hpi := Real.pi_pos
    have hl : (2 * (L : ℝ) + 1) ≠ 0 := by positivity
    have : s.c (idx L M) * z.c L * (1 - 4 * Real.pi / (2 * L + 1)) = 0 := by linear_combination -hi
    rcases mul_eq_zero.1 this with h0 | h0
    · rcases mul_eq_zero.1 h0 with h0 | h0
      · exact hs h0
      · exact hz h0
    · apply odd_ne_four_pi L
      have : 4 * Real.pi / (2 * (L : ℝ) + 1) = 1 := by linarith
      rw [div_eq_one_iff_eq hl] at this
      exact this.symm
  · intro m _ hm
    rw [if_neg (fun hc => hm hc.2), mul_zero]
  · intro hc
    exact absurd (Finset.mem_Icc.2 (abs_le.1 hM)) hc
  · intro l _ hl
    apply Finset.sum_eq_zero
    intro m _
    rw [if_neg (fun hc => hl hc.1), mul_zero]
  · intro hc
    exact absurd (Finset.mem_range.2 hL) hc

/-- Convolving the constant 1 with the constant kernel 1 should give `4π`, and `convolve` gives 1. -/
example : IsConv (fun _ _ => 1) (fun _ => 1) (fun _ _ => 4 * Real.pi) := by
  intro x t _ _
  simp
  ring

/-! ## Zonal functions -/

/-- A loop which rewrites each coefficient of a zonal function. -/
theorem zfold {K : Type} [Field K] (g : ℕ → K → K) (body : ZH K → ℕ → Option (ZH K)) (z : ZH K) (n : ℕ)
    (hn : n ≤ z.bands)
    (hb : ∀ (t : ZH K) (l : ℕ), t.bands = z.bands → l < n →
      body t l = some ⟨t.bands, Function.update t.c l (g l (t.c l))⟩) :
    (List.range n).foldlM body z = some ⟨z.bands, fun l => if l < n then g l (z.c l) else z.c l⟩ := by
  induction n with
  | zero => simp
  | succ n ih =>
    rw [List.range_succ, List.foldlM_append, ih (by omega) (fun t l ht hl => hb t l ht (by omega))]
    simp only [Option.bind_eq_bind, Option.bind_some, List.foldlM_cons, List.foldlM_nil]
    rw [hb (⟨z.bands, fun l => if l < n then g l (z.c l) else z.c l⟩ : ZH K) n rfl (by omega)]
    simp only [Option.bind_some, lt_irrefl, if_false]
    show some _ = some _
    congr 2
    funext l
    by_cases h : l = n
    · subst h; simp
    · rw [Function.update_of_ne h]
      by_cases h2 : l < n
      · rw [if_pos h2, if_pos (by omega)]
      · rw [if_neg h2, if_neg (by omega)]

theorem zconvolve_eq {K : Type} [Field K] (F : Fns K) (z w : ZH K) (h : z.bands ≤ w.bands) :
    z.convolve F w = some ⟨z.bands, fun l => if l < z.bands then z.c l * (kfac F l * w.c l) else z.c l⟩ := by
  unfold ZH.convolve
  refine zfold (fun l a => a * (kfac F l * w.c l)) _ z z.bands le_rfl ?_
  intro t l ht hl
  rw [zget (by omega : l < t.bands), zget (by omega : l < w.bands)]
  simp only [Option.bind_eq_bind, Option.bind_some]
  rw [zput _ (by omega : l < t.bands)]

theorem ofZH_spec (z : ZH ℝ) : ∃ s, SH.ofZH realFns z = some s ∧ s.bands = z.bands ∧
    ∀ (l : ℕ) (m : ℤ), l < z.bands → |m| ≤ l →
      s.c (idx l m) = if m = 0 then z.c l * Real.sqrt (4 * Real.pi / (2 * (l : ℝ) + 1)) else 0 := by
  obtain ⟨s, h1, h2, h3, h4⟩ := fold_put (K := ℝ) (fun l : ℕ => idx l 0)
    (fun l _ => z.c l * Real.sqrt (4 * Real.pi / (2 * (l : ℝ) + 1)))
    (fun (s : SH ℝ) (l : ℕ) => do
      let p ← z.get l
      s.put (idx l 0) (p * Real.sqrt (4 * Real.pi / (2 * (l : ℝ) + 1)))) z.bands (List.range z.bands)
    (SH.new z.bands) rfl
    ((List.nodup_range).map fun a b hab =>
      (idx_inj a b 0 0 (by omega) (by omega) (by omega) (by omega) hab).1)
    (by
      intro t l ht hl
      have hl' := List.mem_range.1 hl
      rw [zget hl']
      simp only [Option.bind_eq_bind, Option.bind_some]
      rw [put_of]
      have := idx_bound z.bands l 0 hl' (by omega) (by omega)
      unfold SH.size; rw [ht]; exact this)
  refine ⟨s, h1, h2, ?_⟩
  intro l m hl hm
  split_ifs with h0
  · subst h0; exact h3 l (List.mem_range.2 hl)
  · rw [h4, SH.new]
    intro a _ hc
    obtain ⟨e1, e2⟩ := abs_le.1 hm
    exact h0 (idx_inj a l 0 m (by omega) (by omega) e1 e2 hc).2.symm

/-- The convolution of two zonal functions, band by band. -/
theorem conv_zonal (z w : ZH ℝ) (h : 1 ≤ z.bands) (hw : 1 ≤ w.bands) (f k : ℝ → ℝ)
    (hf : ∀ u, z.eval u = some (f u)) (hk : ∀ u, w.eval u = some (k u)) (x t : ℝ) (h1 : -1 ≤ x) (h2 : x ≤ 1) :
    (∫ t' in (0 : ℝ)..2 * Real.pi, ∫ y in (-1 : ℝ)..1, f y * k (cosAngle x t y t')) =
      ∑ l ∈ Finset.range (min z.bands w.bands), z.c l * w.c l * (4 * Real.pi / (2 * l + 1)) * legendre l x := by
  obtain ⟨s, e1, e2, e3⟩ := ofZH_spec z
  have hs : ∀ y t, s.eval realFns y t = some (f y) := by
    intro y t
    obtain ⟨s', v, a1, _, a2, a3⟩ := C71_ofZH_eval z h y t
    rw [e1] at a1
    cases a1
    rw [a2, ← a3, hf]
  rw [conv_bands s w hw (fun y _ => f y) k hs hk x t h1 h2, e2]
  apply Finset.sum_congr rfl
  intro l hl
  have hl' := lt_min_iff.1 (Finset.mem_range.1 hl)
  rw [Finset.sum_eq_single 0]
  · rw [e3 l 0 hl'.1 (by simp), if_pos rfl, shCoeff_zero, Basis.C64_overloads]
    have hk : Real.sqrt (4 * Real.pi / (2 * (l : ℝ) + 1)) * knorm realFns l 0 = 1 := by
      unfold knorm zprod
      simp only [realFns, Nat.mul_zero, List.range_zero, List.foldl_nil, ite_self, div_one, one_mul]
      rw [← Real.sqrt_mul (by positivity)]
      have : 4 * Real.pi / (2 * (l : ℝ) + 1) * ((2 * (l : ℝ) + 1) / (4 * Real.pi)) = 1 := by
        have := Real.pi_pos.ne'
        have : (2 * (l : ℝ) + 1) ≠ 0 := by positivity
        field_simp
      rw [this, Real.sqrt_one]
    linear_combination (z.c l * w.c l * (4 * Real.pi / (2 * (l : ℝ) + 1)) * Basis.legendre (l : ℤ) x) * hk
  · intro m hm hm0
    rw [e3 l m hl'.1 (abs_le.2 (Finset.mem_Icc.1 hm)), if_neg hm0, zero_mul]
  · intro hc
    exact absurd (Finset.mem_Icc.2 ⟨by omega, by omega⟩) hc

theorem kfac_real (l : ℕ) : kfac realFns l = Real.sqrt (4 * Real.pi / (2 * l + 1)) := by
  simp only [kfac, realFns, mul_comm Real.pi 4]

theorem kfac_pos (l : ℕ) : 0 < kfac realFns l := by
  rw [kfac_real]
  have := Real.pi_pos
  positivity

theorem kfac_sq (l : ℕ) : kfac realFns l * kfac realFns l = 4 * Real.pi / (2 * l + 1) := by
  have := Real.pi_pos
  rw [kfac_real, Real.mul_self_sqrt (by positivity)]

/-- **C92, what holds for zonal functions.** `convolve` of one zonal function with another which has at least
as many bands computes the convolution with the kernel whose bands are `√((2l+1)/4π)` times those given: with
a kernel scaled beforehand by `√(4π/(2l+1))` it is exact. -/
theorem C92_zonal_partial (z w : ZH ℝ) (h : 1 ≤ z.bands) (hw : z.bands ≤ w.bands) (f k : ℝ → ℝ)
    (hf : ∀ u, z.eval u = some (f u)) (hk : ∀ u, w.eval u = some (k u)) :
    ∃ (r : ZH ℝ) (g : ℝ → ℝ), z.convolve realFns (scaled w fun l => Real.sqrt (4 * Real.pi / (2 * l + 1))) = some r ∧
      (∀ u, r.eval u = some (g u)) ∧ IsConv (fun y _ => f y) k (fun x _ => g x) := by
  have e := zconvolve_eq realFns z (scaled w fun l => Real.sqrt (4 * Real.pi / (2 * l + 1))) hw
  refine ⟨_, _, e, fun u => C71_eval _ (by exact h) u, ?_⟩
  intro x t h1 h2
  rw [conv_zonal z w h (by omega) f k hf hk x t h1 h2]
  simp only [min_eq_left hw]
  apply Finset.sum_congr rfl
  intro l hl
  rw [if_pos (Finset.mem_range.1 hl)]
  simp only [scaled]
  rw [← kfac_real]
  linear_combination (z.c l * w.c l * legendre (l : ℤ) x) * kfac_sq l

/-- **C92, refuted for zonal functions**: whenever the two functions have a band where both are non-zero, the
result of `convolve` is not the convolution. -/
theorem C92_zonal_refuted (z w : ZH ℝ) (hw : z.bands ≤ w.bands) (f k : ℝ → ℝ)
    (hf : ∀ u, z.eval u = some (f u)) (hk : ∀ u, w.eval u = some (k u)) (L : ℕ) (hL : L < z.bands)
    (hz : z.c L ≠ 0) (hwL : w.c L ≠ 0) :
    ∃ (r : ZH ℝ) (g : ℝ → ℝ), z.convolve realFns w = some r ∧ (∀ u, r.eval u = some (g u)) ∧
      ¬ IsConv (fun y _ => f y) k (fun x _ => g x) := by
  have h : 1 ≤ z.bands := by omega
  have e := zconvolve_eq realFns z w hw
  refine ⟨_, _, e, fun u => C71_eval _ (by exact h) u, ?_⟩
  intro hcon
  have h0 := leg_series_zero z.bands
    (fun l => z.c l * w.c l * (kfac realFns l - 4 * Real.pi / (2 * l + 1))) (by
      intro x h1 h2
      have e2 := hcon x 0 h1 h2
      rw [conv_zonal z w h (by omega) f k hf hk x 0 h1 h2] at e2
      simp only [min_eq_left hw, legendre_eq] at e2
      rw [← sub_eq_zero] at e2
      rw [← e2, ← Finset.sum_sub_distrib]
      apply Finset.sum_congr rfl
      intro l hl
      rw [if_pos (Finset.mem_range.1 hl)]
      ring) L hL
  rcases mul_eq_zero.1 h0 with h3 | h3
  · rcases mul_eq_zero.1 h3 with h4 | h4
    · exact hz h4
    · exact hwL h4
  · rw [← kfac_sq] at h3
    have hp := kfac_pos L
    have h5 : kfac realFns L = 1 := by
      have : kfac realFns L * (1 - kfac realFns L) = 0 := by linear_combination h3
      rcases mul_eq_zero.1 this with h6 | h6
      · exact absurd h6 hp.ne'
      · linarith
    have h6 := kfac_sq L
    rw [h5, one_mul, eq_comm, div_eq_one_iff_eq (by positivity)] at h6
    exact odd_ne_four_pi L h6.symm

/-- **C92, refuted for dynamic sizes**: a kernel with fewer bands makes the zonal `convolve` read past the
kernel's coefficients. -/
theorem C92_zonal_bands_refuted (z w : ZH ℝ) (h : w.bands < z.bands) : z.convolve realFns w = none := by
  unfold ZH.convolve
  rw [show z.bands = w.bands + (z.bands - w.bands) by omega, List.range_add, List.foldlM_append,
    show z.bands - w.bands = (z.bands - w.bands - 1) + 1 by omega, List.range_succ_eq_map]
  cases (List.range w.bands).foldlM (fun (t : ZH ℝ) (l : ℕ) => do
      let a ← t.get l
      let b ← w.get l
      t.put l (a * (kfac realFns l * b))) z with
  | none => rfl
  | some t =>
    simp only [List.map_cons, List.foldlM_cons, Option.bind_eq_bind, Option.bind_some]
    rw [show w.get (w.bands + 0) = none from if_neg (by omega)]
    cases ZH.get t (w.bands + 0) <;> rfl

end Geomc.SH
