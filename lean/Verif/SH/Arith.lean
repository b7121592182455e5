import Verif.SH.ArithModel
import Verif.SH.Ortho
import Mathlib.Analysis.Real.Pi.Bounds

/-! # Property C96: arithmetic of spherical functions -/

namespace Geomc.SH

open Basis

section
variable {K : Type} [Field K]

theorem map_all (s : SH K) (g : K → K) (step : SH K → ℕ → Option (SH K))
    (h : ∀ (t : SH K) (i : ℕ) (a : K), t.get i = some a → step t i = t.put i (g a)) :
    ∃ t, (List.range s.size).foldlM step s = some t ∧ t.bands = s.bands ∧
      ∀ (l : ℕ) (m : ℤ), l < s.bands → |m| ≤ l → t.c (idx l m) = g (s.c (idx l m)) := by
  obtain ⟨t, h1, h2, h3, _⟩ := fold_put (fun i : ℕ => (i : ℤ)) (fun _ a => g a) step s.bands
    (List.range s.size) s rfl ((List.nodup_range).map Nat.cast_injective) (by
      intro t a ht ha
      have hb : 0 ≤ (a : ℤ) ∧ (a : ℤ) < t.size := by
        refine ⟨by positivity, ?_⟩
        have := List.mem_range.1 ha
        unfold SH.size at *; rw [ht]; exact_mod_cast this
      rw [h t a _ (get_of t a hb), put_of t a _ hb])
  refine ⟨t, h1, h2, ?_⟩
  intro l m hl hm
  obtain ⟨h4, h5⟩ := abs_le.1 hm
  obtain ⟨b0, b1⟩ := idx_bound s.bands l m hl h4 h5
  obtain ⟨i, hi⟩ := Int.eq_ofNat_of_zero_le b0
  have := h3 i (by rw [List.mem_range, SH.size]; rw [hi] at b1; exact_mod_cast b1)
  rw [hi]; exact this

theorem eval_map (F : Fns K) (s t : SH K) (k x azi : K) (hb : t.bands = s.bands)
    (h : ∀ (l : ℕ) (m : ℤ), l < s.bands → |m| ≤ l → t.c (idx l m) = k * s.c (idx l m)) :
    t.eval F x azi = (s.eval F x azi).map (k * ·) := by
  rw [C70_eval, C70_eval, hb, Option.map_some, Finset.mul_sum]
  congr 1
  apply Finset.sum_congr rfl
  intro l hl
  rw [Finset.mul_sum]
  apply Finset.sum_congr rfl
  intro m hm
  rw [h l m (Finset.mem_range.1 hl) (abs_le.2 (Finset.mem_Icc.1 hm))]
  ring

/-- **C96.** `*= k` multiplies the value in every direction by `k`, `/= k` divides it, and unary minus
negates it (and changes the object it is applied to, as documented). -/
theorem C96_scale [DecidableEq K] (F : Fns K) (s : SH K) (k : K) :
    (∃ t, s.scale k = some t ∧ ∀ x azi, t.eval F x azi = (s.eval F x azi).map (k * ·)) ∧
    (k ≠ 0 → ∃ t, s.div k = some t ∧ ∀ x azi, t.eval F x azi = (s.eval F x azi).map (· / k)) ∧
    (∃ t, s.neg = some t ∧ ∀ x azi, t.eval F x azi = (s.eval F x azi).map (- ·)) := by
  refine ⟨?_, fun hk => ?_, ?_⟩
  · obtain ⟨t, h1, h2, h3⟩ := C24_scale s k
    exact ⟨t, h1, fun x azi => eval_map F s t k x azi h2 fun l m hl hm => by rw [h3 l m hl hm, mul_comm]⟩
  · obtain ⟨t, h1, h2, h3⟩ := map_all s (· / k) (fun (t : SH K) (i : ℕ) => do
      let a ← t.get i
      if k = 0 then none else t.put i (a / k)) (by
        intro t i a ha; simp [ha, hk])
    refine ⟨t, h1, fun x azi => ?_⟩
    rw [eval_map F s t k⁻¹ x azi h2 fun l m hl hm => by rw [h3 l m hl hm, div_eq_inv_mul]]
    congr 1; funext y; rw [div_eq_inv_mul]
  · obtain ⟨t, h1, h2, h3⟩ := map_all s (- ·) (fun (t : SH K) (i : ℕ) => do
      let a ← t.get i
      t.put i (-a)) (by intro t i a ha; simp [ha])
    refine ⟨t, h1, fun x azi => ?_⟩
    rw [eval_map F s t (-1) x azi h2 fun l m hl hm => by rw [h3 l m hl hm, neg_one_mul]]
    congr 1; funext y; rw [neg_one_mul]

/-- **C96.** `a += b` adds the values in every direction, if `b` has no more bands than `a`. -/
theorem C96_add_partial (F : Fns K) (s o : SH K) (hb : o.bands ≤ s.bands) :
    ∃ t, s.addAssign o = some t ∧ ∀ x azi,
      t.eval F x azi = (s.eval F x azi).bind fun a => (o.eval F x azi).map fun b => a + b := by
  obtain ⟨t, h1, h2, h3⟩ := C24_add s o
  refine ⟨t, h1, fun x azi => ?_⟩
  rw [C70_eval, C70_eval, C70_eval, h2]
  simp only [Option.bind_some, Option.map_some]
  congr 1
  have e : ∑ l ∈ Finset.range o.bands, ∑ m ∈ Finset.Icc (-(l : ℤ)) l, o.c (idx l m) * shCoeff F l m x azi =
      ∑ l ∈ Finset.range s.bands, if l < o.bands then
        ∑ m ∈ Finset.Icc (-(l : ℤ)) l, o.c (idx l m) * shCoeff F l m x azi else 0 := by
    rw [← Finset.sum_filter]
    congr 1
    ext l
    simp only [Finset.mem_range, Finset.mem_filter]
    omega
  rw [e, ← Finset.sum_add_distrib]
  apply Finset.sum_congr rfl
  intro l hl
  by_cases ho : l < o.bands
  · rw [if_pos ho, ← Finset.sum_add_distrib]
    apply Finset.sum_congr rfl
    intro m hm
    rw [h3 l m (Finset.mem_range.1 hl) (abs_le.2 (Finset.mem_Icc.1 hm)), if_pos ho]; ring
  · rw [if_neg ho, add_zero]
    apply Finset.sum_congr rfl
    intro m hm
    rw [h3 l m (Finset.mem_range.1 hl) (abs_le.2 (Finset.mem_Icc.1 hm)), if_neg ho]

/-- **C96, refuted** for a right operand with more bands: the bands the left one lacks are dropped.  The
function with the single coefficient `(s.bands, 0)` set adds nothing. -/
theorem C96_add_refuted (s : SH K) :
    let o : SH K := ⟨s.bands + 1, fun i => if i = idx s.bands 0 then 1 else 0⟩
    ∃ t, s.addAssign o = some t ∧ ∀ (F : Fns K) x azi, t.eval F x azi = s.eval F x azi := by
  intro o
  obtain ⟨t, h1, h2, h3⟩ := C24_add s o
  refine ⟨t, h1, fun F x azi => ?_⟩
  rw [C70_eval, C70_eval, h2]
  congr 1
  apply Finset.sum_congr rfl
  intro l hl
  apply Finset.sum_congr rfl
  intro m hm
  have hl' := Finset.mem_range.1 hl
  obtain ⟨a, b⟩ := Finset.mem_Icc.1 hm
  rw [h3 l m hl' (abs_le.2 ⟨a, b⟩), if_pos (show l < o.bands from by show l < s.bands + 1; omega)]
  have : o.c (idx l m) = 0 := by
    show (if idx l m = idx s.bands 0 then (1 : K) else 0) = 0
    rw [if_neg]
    intro hc
    have := (idx_inj l s.bands m 0 a b (by omega) (by omega) hc).1
    omega
  rw [this, add_zero]

/-- Two bands: negation, division, and the truncated addition of a three-band function. -/
example : ((⟨2, fun i => i + 1⟩ : SH ℚ).neg).bind (·.get 3) = some (-4) ∧
    ((⟨2, fun i => i + 1⟩ : SH ℚ).div 2).bind (·.get 2) = some (3 / 2) ∧
    ((⟨2, fun i => i + 1⟩ : SH ℚ).div 0).isNone = true ∧
    ((⟨2, fun i => i + 1⟩ : SH ℚ).addConst 5).bind (·.get 0) = some 6 ∧
    ((⟨2, fun i => i + 1⟩ : SH ℚ).addAssign ⟨3, fun _ => 1⟩).bind (·.get 3) = some 5 := by decide +kernel

end

/-- The constant basis function. -/
theorem basis_zero (x azi : ℝ) : shCoeff realFns 0 0 x azi = (Real.sqrt (4 * Real.pi))⁻¹ := by
  have h : shCoeff realFns 0 0 x azi = _ := shCoeff_zero realFns 0 x azi
  rw [h]
  simp [Basis.assocLegendre, Basis.pmm, knorm, zprod, realFns]

/-- **C96.** What `+= k` does: the value grows by `k / √(4π)` in every direction. -/
theorem C96_constant (s : SH ℝ) (hb : 0 < s.bands) (k : ℝ) :
    ∃ t, s.addConst k = some t ∧ ∀ x azi,
      t.eval realFns x azi = (s.eval realFns x azi).map (· + k * (Real.sqrt (4 * Real.pi))⁻¹) := by
  have h0 : 0 ≤ (0 : ℤ) ∧ (0 : ℤ) < s.size := ⟨le_refl _, by
    unfold SH.size; exact_mod_cast Nat.mul_pos hb hb⟩
  refine ⟨_, by rw [SH.addConst, get_of s 0 h0]; simp only [Option.bind_eq_bind, Option.bind_some]; rw [put_of s 0 _ h0], ?_⟩
  intro x azi
  rw [C70_eval, C70_eval, Option.map_some]
  congr 1
  obtain ⟨n, hn⟩ : ∃ n, s.bands = n + 1 := ⟨s.bands - 1, by omega⟩
  simp only [hn]
  rw [Finset.sum_range_succ', Finset.sum_range_succ']
  have h00 : idx ((0 : ℕ) : ℤ) 0 = 0 := by simp [idx]
  have hI : Finset.Icc (-((0 : ℕ) : ℤ)) ((0 : ℕ) : ℤ) = {0} := by simp
  rw [hI, Finset.sum_singleton, Finset.sum_singleton, h00, Function.update_self, basis_zero]
  have : ∀ l ∈ Finset.range n, ∀ m ∈ Finset.Icc (-((l + 1 : ℕ) : ℤ)) ((l + 1 : ℕ) : ℤ),
      Function.update s.c 0 (s.c 0 + k) (idx ((l + 1 : ℕ) : ℤ) m) = s.c (idx ((l + 1 : ℕ) : ℤ) m) := by
    intro l _ m hm
    rw [Function.update_of_ne]
    intro hc
    rw [← h00] at hc
    obtain ⟨a, b⟩ := Finset.mem_Icc.1 hm
    have := (idx_inj (l + 1) 0 m 0 a b (by omega) (by omega) hc).1
    omega
  rw [Finset.sum_congr rfl fun l hl => Finset.sum_congr rfl fun m hm => by rw [this l hl m hm]]
  ring

/-- **C96, refuted** for `+= k`: documented to add the constant `k` to the function, it never does. -/
theorem C96_constant_refuted (s : SH ℝ) (hb : 0 < s.bands) (k : ℝ) (hk : k ≠ 0) (x azi : ℝ) :
    ∃ t v w, s.addConst k = some t ∧ s.eval realFns x azi = some v ∧ t.eval realFns x azi = some w ∧
      w ≠ v + k := by
  obtain ⟨t, h1, h2⟩ := C96_constant s hb k
  refine ⟨t, _, _, h1, C70_eval _ _ _ _, by rw [h2, C70_eval, Option.map_some], ?_⟩
  intro hc
  have h3 : (Real.sqrt (4 * Real.pi))⁻¹ = 1 := by
    have := add_left_cancel hc
    exact mul_left_cancel₀ hk (by rw [this, mul_one])
  have h4 : (1 : ℝ) < Real.sqrt (4 * Real.pi) := by
    rw [Real.lt_sqrt (by norm_num)]; nlinarith [Real.pi_gt_three]
  rw [inv_eq_one] at h3
  linarith

end Geomc.SH
