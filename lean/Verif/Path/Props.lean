import Verif.Path.Model
import Mathlib.Analysis.Calculus.Deriv.Mul
import Mathlib.Analysis.Calculus.Deriv.Pow
import Mathlib.Analysis.Calculus.Deriv.Add
import Mathlib.Analysis.Calculus.Deriv.Pi
import Mathlib.Analysis.Calculus.Deriv.Comp
import Mathlib.Analysis.Calculus.Deriv.Shift

/-! # Property C66: paths -/

namespace Geomc.Path

variable {N : ℕ}

section
variable {K : Type} [Field K] [LinearOrder K] [IsStrictOrderedRing K] [FloorSemiring K]

/-- **C66.** At the parameter `k` the path passes through knot `k`. -/
theorem C66_knot (knots : List (Knot N K)) (k : ℕ) (hk : k < knots.length) (h64 : k < 2 ^ 64) :
    eval knots (k : K) = some (knots[k].origin) := by
  have h1 : (-1 : K) < k := lt_of_lt_of_le (by norm_num) (Nat.cast_nonneg k)
  have h2 : (k : K) < 2 ^ 64 := by exact_mod_cast h64
  simp only [eval, toSize, h1, h2, and_self, if_true, Nat.floor_natCast, Option.bind_eq_bind, Option.bind_some]
  rw [if_neg (by omega), if_neg (not_lt.2 (Nat.cast_nonneg k))]
  split_ifs with hl
  · have : k = knots.length - 1 := by omega
    rw [List.getElem?_eq_getElem (by omega)]
    simp only [Option.bind_some]
    congr 1
    funext i
    have hc : (k : K) - knots.length + 1 = 0 := by
      have : ((k + 1 : ℕ) : K) = knots.length := by congr 1; omega
      push_cast at this
      linear_combination this
    simp only [Knot.at, hc, mul_zero, add_zero]
    simp only [this]
  · rw [List.getElem?_eq_getElem hk, List.getElem?_eq_getElem (by omega)]
    simp only [Option.bind_some]
    congr 1
    funext i
    simp [mixV, Knot.at, ease]

/-- **C66.** Past the last knot the path continues along that knot's ray. -/
theorem C66_after (knots : List (Knot N K)) (h : knots ≠ []) (t : K) (ht : ((knots.length - 1 : ℕ) : K) ≤ t)
    (h64 : t < 2 ^ 64) :
    eval knots t = some fun i => (knots.getLast h).origin i +
      (knots.getLast h).direction i * (t - (knots.length - 1 : ℕ)) := by
  have hl : 0 < knots.length := List.length_pos_iff.2 h
  have h0 : 0 ≤ t := (Nat.cast_nonneg _).trans ht
  have h1 : (-1 : K) < t := lt_of_lt_of_le (by norm_num) h0
  simp only [eval, toSize, h1, h64, and_self, if_true, Option.bind_eq_bind, Option.bind_some]
  rw [if_neg (by omega), if_neg (not_lt.2 h0), if_pos (Nat.le_floor ht), List.getElem?_eq_getElem (by omega)]
  simp only [Option.bind_some]
  rw [List.getLast_eq_getElem]
  have : ((knots.length - 1 : ℕ) : K) = knots.length - 1 := by
    rw [Nat.cast_sub (by omega)]; simp
  congr 1
  funext i
  simp only [Knot.at, this]
  ring

/-- **C66.** Just before the first knot the path continues along that knot's ray. -/
theorem C66_before (k : Knot N K) (knots : List (Knot N K)) (t : K) (h1 : -1 < t) (h0 : t < 0) :
    eval (k :: knots) t = some fun i => k.origin i + k.direction i * t := by
  have h2 : t < 2 ^ 64 := h0.trans (by positivity)
  simp [eval, toSize, h1, h2, h0]
  rfl

/-- **C66 refuted below -1.** The parameter is converted to an unsigned integer before its sign is tested:
undefined for every parameter at or below `-1`, although the branch for negative parameters exists. -/
theorem C66_negative_refuted (knots : List (Knot N K)) (t : K) (h : t ≤ -1) : eval knots t = none := by
  simp [eval, toSize, not_lt.2 h]

/-- Every other parameter is defined. -/
theorem C66_defined (knots : List (Knot N K)) (t : K) (h : -1 < t) (h' : t < 2 ^ 64) :
    (eval knots t).isSome := by
  simp only [eval, toSize, h, h', and_self, if_true, Option.bind_eq_bind, Option.bind_some]
  split_ifs with c1 c2 c3
  · rfl
  · rw [List.getElem?_eq_getElem (by omega)]; rfl
  · rw [List.getElem?_eq_getElem (by omega)]; rfl
  · rw [List.getElem?_eq_getElem (by omega), List.getElem?_eq_getElem (by omega)]; rfl
end

/-! ## Smoothness -/

/-- The position at parameter `t`. -/
noncomputable def pos (knots : List (Knot N ℝ)) (t : ℝ) (i : Fin N) : ℝ := ((eval knots t).getD 0) i

/-- The polynomial arc between two knots. -/
noncomputable def arc (a b : Knot N ℝ) (i : Fin N) (u : ℝ) : ℝ := mixV (a.at u) (b.at (u - 1)) (ease u) i

/-- Its velocity. -/
noncomputable def arcVel (a b : Knot N ℝ) (i : Fin N) (u : ℝ) : ℝ :=
  30 * u ^ 2 * (1 - u) ^ 2 * ((b.at (u - 1)) i - (a.at u) i) + (1 - ease u) * a.direction i +
    ease u * b.direction i

theorem arc_deriv (a b : Knot N ℝ) (i : Fin N) (u : ℝ) : HasDerivAt (arc a b i) (arcVel a b i u) u := by
  have hid := hasDerivAt_id u
  have hx3 := (hid.mul hid).mul hid
  have hq := ((hid.mul ((hid.mul_const 6).sub_const 15)).add_const 10)
  have he : HasDerivAt (fun u : ℝ => ease u) (30 * u ^ 2 * (1 - u) ^ 2) u := by
    refine (hx3.mul hq).congr_deriv ?_
    simp [id_eq, Pi.mul_apply]
    ring
  have ha : HasDerivAt (fun u : ℝ => a.at u i) (a.direction i) u := by
    have := (hid.const_mul (a.direction i)).const_add (a.origin i)
    simpa [Knot.at] using this
  have hb : HasDerivAt (fun u : ℝ => b.at (u - 1) i) (b.direction i) u := by
    have := ((hid.sub_const 1).const_mul (b.direction i)).const_add (b.origin i)
    simpa [Knot.at] using this
  have := ((he.const_sub 1).mul ha).add (he.mul hb)
  refine this.congr_deriv ?_
  unfold arcVel
  ring

theorem pos_between (knots : List (Knot N ℝ)) (k : ℕ) (hk : k + 1 < knots.length) (h64 : k + 1 < 2 ^ 64)
    (i : Fin N) (t : ℝ) (h0 : (k : ℝ) ≤ t) (h1 : t ≤ k + 1) :
    pos knots t i = arc knots[k] knots[k + 1] i (t - k) := by
  rcases h1.eq_or_lt with rfl | h1
  · have := C66_knot knots (k + 1) hk h64 (K := ℝ)
    push_cast at this
    rw [pos, this]
    simp [arc, mixV, Knot.at, ease]
    norm_num
  · have hn : (0 : ℝ) ≤ t := (Nat.cast_nonneg k).trans h0
    have hf : ⌊t⌋₊ = k := (Nat.floor_eq_iff hn).2 ⟨h0, h1⟩
    have c1 : (-1 : ℝ) < t := by linarith
    have c2 : t < 2 ^ 64 := h1.trans (by exact_mod_cast h64)
    unfold pos eval
    simp only [toSize, c1, c2, and_self, if_true, hf, Option.bind_eq_bind, Option.bind_some]
    rw [if_neg (by omega), if_neg (not_lt.2 hn), if_neg (by omega), List.getElem?_eq_getElem (by omega),
      List.getElem?_eq_getElem (by omega)]
    rfl

/-- The velocity of the ray-extended, eased path. -/
theorem glue {f : ℝ → ℝ} {t l r v : ℝ} (hl : l < t) (hr : t < r) {g h : ℝ → ℝ} (hg : HasDerivAt g v t)
    (hh : HasDerivAt h v t) (eg : ∀ s, l < s → s ≤ t → f s = g s) (eh : ∀ s, t ≤ s → s < r → f s = h s) :
    HasDerivAt f v t := by
  have h1 : HasDerivWithinAt f v (Set.Iic t) t := by
    refine hg.hasDerivWithinAt.congr_of_eventuallyEq ?_ (eg t hl le_rfl)
    filter_upwards [self_mem_nhdsWithin, mem_nhdsWithin_of_mem_nhds (lt_mem_nhds hl)] with s hs hs'
    exact eg s hs' hs
  have h2 : HasDerivWithinAt f v (Set.Ici t) t := by
    refine hh.hasDerivWithinAt.congr_of_eventuallyEq ?_ (eh t le_rfl hr)
    filter_upwards [self_mem_nhdsWithin, mem_nhdsWithin_of_mem_nhds (gt_mem_nhds hr)] with s hs hs'
    exact eh s hs hs'
  have := h1.union h2
  rwa [Set.Iic_union_Ici, hasDerivWithinAt_univ] at this

theorem ray_deriv (o d c t : ℝ) : HasDerivAt (fun s : ℝ => o + d * (s - c)) d t := by
  have := (((hasDerivAt_id t).sub_const c).const_mul d).const_add o
  simpa using this

/-- **C66.** At every knot, including both ends, the path is differentiable and its velocity is the knot's
direction: position and velocity are continuous across knots. -/
theorem C66_velocity (knots : List (Knot N ℝ)) (k : ℕ) (hk : k < knots.length) (h64 : k + 1 < 2 ^ 64)
    (i : Fin N) : HasDerivAt (fun t => pos knots t i) (knots[k].direction i) k := by
  have hne : knots ≠ [] := by intro h; rw [h] at hk; simp at hk
  -- to the right of the knot
  have hR : ∃ h : ℝ → ℝ, HasDerivAt h (knots[k].direction i) k ∧
      ∀ s, (k : ℝ) ≤ s → s < k + 1 → pos knots s i = h s := by
    by_cases hl : k + 1 < knots.length
    · refine ⟨fun s => arc knots[k] knots[k + 1] i (s - k), ?_, fun s h1 h2 =>
        pos_between knots k hl h64 i s h1 h2.le⟩
      refine ((arc_deriv knots[k] knots[k + 1] i ((k : ℝ) - k)).comp_sub_const (k : ℝ) (k : ℝ)).congr_deriv ?_
      simp [arcVel, ease]
    · have hk' : k = knots.length - 1 := by omega
      refine ⟨fun s => knots[k].origin i + knots[k].direction i * (s - k), ray_deriv _ _ _ _, fun s h1 h2 => ?_⟩
      have hlast : knots.getLast hne = knots[k] := by
        rw [List.getLast_eq_getElem]; congr 1; exact hk'.symm
      have hc : (k : ℝ) + 1 < 2 ^ 64 := by exact_mod_cast h64
      rw [pos, C66_after knots hne s (by rw [← hk']; exact h1) (by linarith), hlast, ← hk']
      rfl
  have hL : ∃ g : ℝ → ℝ, HasDerivAt g (knots[k].direction i) k ∧
      ∀ s, (k : ℝ) - 1 < s → s ≤ k → pos knots s i = g s := by
    rcases Nat.eq_zero_or_pos k with rfl | hpos
    · refine ⟨fun s => knots[0].origin i + knots[0].direction i * (s - (0 : ℕ)), ray_deriv _ _ _ _, fun s h1 h2 => ?_⟩
      push_cast at h1 h2 ⊢
      rcases h2.eq_or_lt with rfl | h2
      · have := C66_knot knots 0 hk (by norm_num) (K := ℝ)
        rw [Nat.cast_zero] at this
        rw [pos, this]; simp
      · obtain ⟨a, l, rfl⟩ := List.exists_cons_of_ne_nil hne
        rw [pos, C66_before a l s (by linarith) h2]; simp
    · obtain ⟨j, rfl⟩ : ∃ j, k = j + 1 := ⟨k - 1, by omega⟩
      refine ⟨fun s => arc knots[j] knots[j + 1] i (s - j), ?_, fun s h1 h2 => ?_⟩
      · refine ((arc_deriv knots[j] knots[j + 1] i (((j + 1 : ℕ) : ℝ) - j)).comp_sub_const
          ((j + 1 : ℕ) : ℝ) (j : ℝ)).congr_deriv ?_
        push_cast
        simp [arcVel, ease]
        norm_num
      · push_cast at h1 h2
        exact pos_between knots j hk (by omega) i s (by linarith) h2
  obtain ⟨h, hd, he⟩ := hR
  obtain ⟨g, gd, ge⟩ := hL
  exact glue (by linarith) (by linarith) gd hd ge he

/-- **C66.** Between knots the path is the eased blend of the two rays, and differentiable. -/
theorem C66_between (knots : List (Knot N ℝ)) (k : ℕ) (hk : k + 1 < knots.length) (h64 : k + 1 < 2 ^ 64)
    (i : Fin N) (t : ℝ) (h0 : (k : ℝ) < t) (h1 : t < k + 1) :
    HasDerivAt (fun t => pos knots t i) (arcVel knots[k] knots[k + 1] i (t - k)) t := by
  have := (arc_deriv knots[k] knots[k + 1] i (t - k)).comp_sub_const t (k : ℝ)
  refine this.congr_of_eventuallyEq ?_
  filter_upwards [lt_mem_nhds h0, gt_mem_nhds h1] with s hs hs'
  exact pos_between knots k hk h64 i s hs.le hs'.le

/-- **C66.** Each arc's velocity starts at the first knot's direction and ends at the second's, so the velocity
is continuous along the whole path. -/
theorem C66_velocity_limits (a b : Knot N ℝ) (i : Fin N) :
    Continuous (arcVel a b i) ∧ arcVel a b i 0 = a.direction i ∧ arcVel a b i 1 = b.direction i := by
  refine ⟨?_, by simp [arcVel, ease], by simp [arcVel, ease]; norm_num⟩
  unfold arcVel ease Knot.at
  fun_prop

example : eval [⟨![0, 0], ![1, 0]⟩, ⟨![2, 2], ![0, 1]⟩] (1 / 2 : ℚ) = some ![5 / 4, 3 / 4] := by
  decide +kernel

end Geomc.Path
