import Verif.Vec.Lemmas

/-!
# C37, C38, C39, C44: vectors and rays
-/

namespace Geomc.Vec

open Geomc.Duals (sumOfProducts diffOfProducts diffOfProducts_eq sumOfProducts_eq)

variable {K : Type} {n : ℕ} [Field K] [LinearOrder K] [IsStrictOrderedRing K]

/-! ### C37 -/

theorem projectOn_eq (u axis : Fin n → K) : projectOn u axis = (u ⬝ᵥ axis / axis ⬝ᵥ axis) • axis := by
  unfold projectOn
  simp only [mag2_eq, dot_eq]
  by_cases h : axis ⬝ᵥ axis = 0
  · rw [if_neg (by simpa using h), h, div_zero, zero_smul, (self_dot_eq_zero axis).1 h]
  · rw [if_pos h]
    ext i
    rw [Pi.smul_apply, smul_eq_mul]
    ring

/-- **C37**: `project_on` returns a multiple of the axis, and what is left over is orthogonal to the axis; also for
the zero axis. -/
theorem C37_project_on (u axis : Fin n → K) :
    (∃ t : K, projectOn u axis = t • axis) ∧ (u - projectOn u axis) ⬝ᵥ axis = 0 := by
  rw [projectOn_eq]
  refine ⟨⟨_, rfl⟩, ?_⟩
  rw [sub_dotProduct, smul_dotProduct, smul_eq_mul]
  by_cases h : axis ⬝ᵥ axis = 0
  · rw [(self_dot_eq_zero axis).1 h]
    simp
  · field_simp
    ring

/-- **C37**: `fraction_on` is the factor of that multiple, defined for every nonzero axis. -/
theorem C37_fraction_on (u axis : Fin n → K) :
    (∀ f, fractionOn u axis = some f → projectOn u axis = f • axis) ∧ (fractionOn u axis = none ↔ axis = 0) := by
  unfold fractionOn
  simp only [mag2_eq, dot_eq]
  rw [projectOn_eq]
  by_cases h : axis ⬝ᵥ axis = 0
  · rw [if_pos h]
    simp [(self_dot_eq_zero axis).1 h]
  · rw [if_neg h]
    refine ⟨fun f hf => by rw [Option.some.inj hf], ?_⟩
    simp only [reduceCtorEq, false_iff]
    exact fun h0 => h (by rw [h0]; simp)

omit [LinearOrder K] [IsStrictOrderedRing K] in
/-- **C37**: the cross product is orthogonal to both operands, has squared length `|a|²|b|² - (a·b)²`, and is right
handed. -/
theorem C37_cross (a b : Fin 3 → K) :
    cross a b = crossProduct a b ∧ dot a (cross a b) = 0 ∧ dot b (cross a b) = 0 ∧
    mag2 (cross a b) = mag2 a * mag2 b - dot a b ^ 2 ∧ cross ![1, 0, 0] ![0, 1, 0] = (![0, 0, 1] : Fin 3 → K) := by
  simp only [cross_eq, dot_eq, mag2_eq]
  refine ⟨trivial, dot_self_cross a b, dot_cross_self a b, ?_, ?_⟩
  · rw [cross_dot_cross, dotProduct_comm b a]
    ring
  · rw [cross_apply]
    simp

theorem argmax_loop (u : Fin (n + 1) → K) (k : ℕ) (hk : k ≤ n) :
    let r := ((List.finRange n).take k).foldl (fun (s : K × Fin (n + 1)) i =>
      let x := |u i.succ|
      if s.1 < x then (x, i.succ) else s) (|u 0|, 0)
    r.1 = |u r.2| ∧ (r.2 : ℕ) ≤ k ∧ (∀ j : Fin (n + 1), (j : ℕ) ≤ k → |u j| ≤ |u r.2|) ∧
      ∀ j : Fin (n + 1), j < r.2 → |u j| < |u r.2| := by
  induction k with
  | zero =>
    refine ⟨rfl, le_rfl, fun j hj => ?_, fun j hj => ?_⟩
    · have : j = 0 := Fin.ext (by simpa using hj)
      rw [this]
      exact le_rfl
    · exact absurd hj (by simp)
  | succ k ih =>
    have hlt : k < n := hk
    intro r
    have e : r = (fun (s : K × Fin (n + 1)) (i : Fin n) =>
        let x := |u i.succ|
        if s.1 < x then (x, i.succ) else s)
        (((List.finRange n).take k).foldl (fun (s : K × Fin (n + 1)) i =>
          let x := |u i.succ|
          if s.1 < x then (x, i.succ) else s) (|u 0|, 0)) ⟨k, hlt⟩ := by
      show ((List.finRange n).take (k + 1)).foldl _ _ = _
      rw [List.take_add_one, List.foldl_append, List.getElem?_eq_getElem (by simpa using hlt)]
      simp
    have ih := ih hlt.le
    generalize (((List.finRange n).take k).foldl (fun (s : K × Fin (n + 1)) i =>
          let x := |u i.succ|
          if s.1 < x then (x, i.succ) else s) (|u 0|, 0)) = q at ih e
    obtain ⟨h1, h2, h3, h4⟩ := ih
    have hs : (((⟨k, hlt⟩ : Fin n).succ : Fin (n + 1)) : ℕ) = k + 1 := rfl
    simp only at e
    by_cases hb : q.1 < |u (⟨k, hlt⟩ : Fin n).succ|
    · rw [if_pos hb] at e
      rw [e]
      rw [h1] at hb
      refine ⟨rfl, by rw [hs], fun j hj => ?_, fun j hj => ?_⟩
      · by_cases hj' : (j : ℕ) ≤ k
        · exact (h3 j hj').trans hb.le
        · rw [show j = (⟨k, hlt⟩ : Fin n).succ from Fin.ext (by rw [hs]; omega)]
      · have : (j : ℕ) < k + 1 := hj
        exact lt_of_le_of_lt (h3 j (by omega)) hb
    · rw [if_neg hb] at e
      rw [e]
      refine ⟨h1, by omega, fun j hj => ?_, h4⟩
      by_cases hj' : (j : ℕ) ≤ k
      · exact h3 j hj'
      · rw [show j = (⟨k, hlt⟩ : Fin n).succ from Fin.ext (by rw [hs]; omega), ← h1]
        exact not_lt.1 hb

/-- **C37**: `argmax` is the first index of a component of largest magnitude. -/
theorem C37_argmax (u : Fin (n + 1) → K) :
    (∀ j, |u j| ≤ |u (argmax u)|) ∧ ∀ j, j < argmax u → |u j| < |u (argmax u)| := by
  obtain ⟨-, -, h3, h4⟩ := argmax_loop u n le_rfl
  have e : (List.finRange n).take n = List.finRange n := List.take_of_length_le (by simp)
  rw [e] at h3 h4
  exact ⟨fun j => h3 j (by omega), h4⟩

/-- `argmin` is `argmax` in the opposite order; the loop invariant again. -/
theorem argmin_loop (u : Fin (n + 1) → K) (k : ℕ) (hk : k ≤ n) :
    let r := ((List.finRange n).take k).foldl (fun (s : K × Fin (n + 1)) i =>
      let x := |u i.succ|
      if x < s.1 then (x, i.succ) else s) (|u 0|, 0)
    r.1 = |u r.2| ∧ (r.2 : ℕ) ≤ k ∧ (∀ j : Fin (n + 1), (j : ℕ) ≤ k → |u r.2| ≤ |u j|) ∧
      ∀ j : Fin (n + 1), j < r.2 → |u r.2| < |u j| := by
  induction k with
  | zero =>
    refine ⟨rfl, le_rfl, fun j hj => ?_, fun j hj => ?_⟩
    · have : j = 0 := Fin.ext (by simpa using hj)
      rw [this]
      exact le_rfl
    · exact absurd hj (by simp)
  | succ k ih =>
    have hlt : k < n := hk
    intro r
    have e : r = (fun (s : K × Fin (n + 1)) (i : Fin n) =>
        let x := |u i.succ|
        if x < s.1 then (x, i.succ) else s)
        (((List.finRange n).take k).foldl (fun (s : K × Fin (n + 1)) i =>
          let x := |u i.succ|
          if x < s.1 then (x, i.succ) else s) (|u 0|, 0)) ⟨k, hlt⟩ := by
      show ((List.finRange n).take (k + 1)).foldl _ _ = _
      rw [List.take_add_one, List.foldl_append, List.getElem?_eq_getElem (by simpa using hlt)]
      simp
    have ih := ih hlt.le
    generalize (((List.finRange n).take k).foldl (fun (s : K × Fin (n + 1)) i =>
          let x := |u i.succ|
          if x < s.1 then (x, i.succ) else s) (|u 0|, 0)) = q at ih e
    obtain ⟨h1, h2, h3, h4⟩ := ih
    have hs : (((⟨k, hlt⟩ : Fin n).succ : Fin (n + 1)) : ℕ) = k + 1 := rfl
    simp only at e
    by_cases hb : |u (⟨k, hlt⟩ : Fin n).succ| < q.1
    · rw [if_pos hb] at e
      rw [e]
      rw [h1] at hb
      refine ⟨rfl, by rw [hs], fun j hj => ?_, fun j hj => ?_⟩
      · by_cases hj' : (j : ℕ) ≤ k
        · exact hb.le.trans (h3 j hj')
        · rw [show j = (⟨k, hlt⟩ : Fin n).succ from Fin.ext (by rw [hs]; omega)]
      · have : (j : ℕ) < k + 1 := hj
        exact lt_of_lt_of_le hb (h3 j (by omega))
    · rw [if_neg hb] at e
      rw [e]
      refine ⟨h1, by omega, fun j hj => ?_, h4⟩
      by_cases hj' : (j : ℕ) ≤ k
      · exact h3 j hj'
      · rw [show j = (⟨k, hlt⟩ : Fin n).succ from Fin.ext (by rw [hs]; omega), ← h1]
        exact not_lt.1 hb

/-- **C37**: `argmin` is the first index of a component of smallest magnitude. -/
theorem C37_argmin (u : Fin (n + 1) → K) :
    (∀ j, |u (argmin u)| ≤ |u j|) ∧ ∀ j, j < argmin u → |u (argmin u)| < |u j| := by
  obtain ⟨-, -, h3, h4⟩ := argmin_loop u n le_rfl
  have e : (List.finRange n).take n = List.finRange n := List.take_of_length_le (by simp)
  rw [e] at h3 h4
  exact ⟨fun j => h3 j (by omega), h4⟩

omit [Field K] [IsStrictOrderedRing K] in
/-- **C37**: the least and greatest component. -/
theorem C37_min_max_elem (u : Fin (n + 1) → K) :
    IsLeast (Set.range u) (minElem u) ∧ IsGreatest (Set.range u) (maxElem u) := by
  have key : ∀ (f : K → K → K) (R : K → K → Prop), (∀ a b, R (f a b) a ∧ R (f a b) b ∧ (f a b = a ∨ f a b = b)) →
      (∀ a b c, R a b → R b c → R a c) → (∀ a, R a a) → ∀ (l : List (Fin n)) (x : K), x ∈ Set.range u →
      let r := l.foldl (fun x i => f (u i.succ) x) x
      r ∈ Set.range u ∧ R r x ∧ ∀ i ∈ l, R r (u i.succ) := by
    intro f R hf ht hr l
    induction l with
    | nil => exact fun x hx => ⟨hx, hr x, by simp⟩
    | cons i l ih =>
      intro x hx
      obtain ⟨h1, h2, h3⟩ := hf (u i.succ) x
      obtain ⟨g1, g2, g3⟩ := ih (f (u i.succ) x) (by
        rcases h3 with h | h
        · rw [h]; exact ⟨_, rfl⟩
        · rw [h]; exact hx)
      refine ⟨g1, ht _ _ _ g2 h2, fun j hj => ?_⟩
      rcases List.mem_cons.1 hj with rfl | hj
      · exact ht _ _ _ g2 h1
      · exact g3 j hj
  constructor
  · obtain ⟨h1, h2, h3⟩ := key stdMin (· ≤ ·) (fun a b => by
      rw [stdMin_eq]
      exact ⟨min_le_left a b, min_le_right a b, min_choice a b⟩) (fun _ _ _ => le_trans) le_refl
      (List.finRange n) (u 0) ⟨0, rfl⟩
    refine ⟨h1, ?_⟩
    rintro _ ⟨i, rfl⟩
    refine Fin.cases h2 (fun i => h3 i (List.mem_finRange i)) i
  · obtain ⟨h1, h2, h3⟩ := key stdMax (· ≥ ·) (fun a b => by
      rw [stdMax_eq]
      exact ⟨le_max_left a b, le_max_right a b, max_choice a b⟩) (fun _ _ _ => ge_trans) le_refl
      (List.finRange n) (u 0) ⟨0, rfl⟩
    refine ⟨h1, ?_⟩
    rintro _ ⟨i, rfl⟩
    refine Fin.cases h2 (fun i => h3 i (List.mem_finRange i)) i

omit [Field K] [IsStrictOrderedRing K] in
/-- **C37**: componentwise minimum, maximum and clamp. -/
theorem C37_componentwise (u v lo hi : Fin n → K) (i : Fin n) :
    vmin u v i = min (u i) (v i) ∧ vmax u v i = max (u i) (v i) ∧
    (lo i ≤ hi i → lo i ≤ clamp u lo hi i ∧ clamp u lo hi i ≤ hi i ∧
      (lo i ≤ u i → u i ≤ hi i → clamp u lo hi i = u i) ∧
      (u i < lo i → clamp u lo hi i = lo i) ∧ (hi i < u i → clamp u lo hi i = hi i)) := by
  refine ⟨stdMin_eq _ _, stdMax_eq _ _, fun h => ?_⟩
  simp only [clamp, stdMin_eq, stdMax_eq]
  refine ⟨le_min (le_max_right _ _) h, min_le_right _ _, fun h1 h2 => ?_, fun h1 => ?_, fun h1 => ?_⟩
  · rw [max_eq_left h1, min_eq_left h2]
  · rw [max_eq_right h1.le, min_eq_left h]
  · rw [max_eq_left (h.trans h1.le), min_eq_right h1.le]

omit [LinearOrder K] [IsStrictOrderedRing K] in
/-- **C37**: `mix` blends linearly from the first vector to the second. -/
theorem C37_mix (u v : Fin n → K) (t : K) :
    mix u v t = (1 - t) • u + t • v ∧ mix u v 0 = u ∧ mix u v 1 = v := by
  refine ⟨rfl, ?_, ?_⟩ <;> ext i <;> simp [mix]

omit [IsStrictOrderedRing K] in
/-- **C37**: equality and the zero test. -/
theorem C37_eq (u v : Fin n → K) : (eq u v = true ↔ u = v) ∧ (isZero u = true ↔ u = 0) := by
  simp only [eq, isZero, List.all_eq_true, List.mem_finRange, decide_eq_true_eq, true_implies]
  exact ⟨⟨fun h => funext fun i => (h i).symm, fun h i => by rw [h]⟩,
    ⟨fun h => funext h, fun h i => by rw [h]; rfl⟩⟩

omit [LinearOrder K] [IsStrictOrderedRing K] in
/-- **C37**: `resized` keeps the common components and fills with zeros; growing and shrinking back restores the
vector. -/
theorem C37_resized (m : ℕ) (u : Fin n → K) :
    (∀ (i : ℕ) (h : i < m) (h' : i < n), resized m u ⟨i, h⟩ = u ⟨i, h'⟩) ∧
    (∀ (i : ℕ) (h : i < m), n ≤ i → resized m u ⟨i, h⟩ = 0) ∧
    (n ≤ m → resized n (resized m u) = u) := by
  refine ⟨fun i h h' => dif_pos h', fun i h h' => dif_neg (by simpa using h'), fun h => ?_⟩
  ext i
  unfold resized
  rw [dif_pos (lt_of_lt_of_le i.2 h), dif_pos i.2]

/-- **C37**: `unit` has length one and the direction of the vector; it is undefined exactly for the zero vector. -/
theorem C37_unit {sqrt : K → K} (hs : IsSqrt sqrt) (u : Fin n → K) :
    (unit sqrt u = none ↔ u = 0) ∧
    ∀ w, unit sqrt u = some w → w ⬝ᵥ w = 1 ∧ ∃ t : K, 0 < t ∧ t * t = u ⬝ᵥ u ∧ u = t • w := by
  unfold unit
  simp only [mag2_eq]
  by_cases h : u = 0
  · have : sqrt (u ⬝ᵥ u) = 0 := by rw [h]; simp [hs.zero]
    rw [if_pos this]
    simp [h]
  · have hp := self_dot_pos h
    have hq := hs.pos _ hp
    have hsq := hs.sq _ hp.le
    rw [if_neg hq.ne']
    refine ⟨by simp [h], fun w hw => ?_⟩
    obtain rfl := Option.some.inj hw
    have e : (fun i => u i / sqrt (u ⬝ᵥ u)) = (sqrt (u ⬝ᵥ u))⁻¹ • u := by
      ext i
      rw [Pi.smul_apply, smul_eq_mul]
      ring
    rw [e]
    refine ⟨?_, sqrt (u ⬝ᵥ u), hq, hsq, ?_⟩
    · rw [smul_dotProduct, dotProduct_smul, smul_eq_mul, smul_eq_mul]
      field_simp
      rw [pow_two, hsq]
    · rw [smul_smul, mul_inv_cancel₀ hq.ne', one_smul]

/-- **C37**: `with_length` has the requested length along the vector; the zero vector stays zero. -/
theorem C37_with_length {sqrt : K → K} (hs : IsSqrt sqrt) (u : Fin n → K) (m : K) :
    (u = 0 → withLength sqrt u m = 0) ∧
    (u ≠ 0 → mag2 (withLength sqrt u m) = m * m ∧ ∃ t : K, withLength sqrt u m = t • u ∧ (0 ≤ m → 0 ≤ t)) := by
  unfold withLength
  simp only [mag2_eq]
  refine ⟨fun h => by rw [if_pos (by rw [h]; simp)]; rfl, fun h => ?_⟩
  have hp := self_dot_pos h
  have hq := hs.pos _ hp
  have hsq := hs.sq _ hp.le
  rw [if_neg hp.ne']
  have e : (fun i => m * u i / sqrt (u ⬝ᵥ u)) = (m / sqrt (u ⬝ᵥ u)) • u := by
    ext i
    rw [Pi.smul_apply, smul_eq_mul]
    ring
  rw [e]
  refine ⟨?_, _, rfl, fun hm => div_nonneg hm hq.le⟩
  rw [smul_dotProduct, dotProduct_smul, smul_eq_mul, smul_eq_mul]
  field_simp
  rw [pow_two (sqrt _), hsq]

/-- **C37**: `reflect_about` (and `bounce_on`, its negative) is the reflection that keeps the normal and reverses what
is orthogonal to it. -/
theorem C37_reflect {sqrt : K → K} (hs : IsSqrt sqrt) (u v normal : Fin n → K) (h : normal ≠ 0) :
    ∃ r s, reflectAbout sqrt u normal = some r ∧ reflectAbout sqrt v normal = some s ∧
      bounceOn sqrt u normal = some (-r) ∧ r ⬝ᵥ s = u ⬝ᵥ v ∧
      (u ⬝ᵥ normal = 0 → r = -u) ∧ (∀ t : K, u = t • normal → r = u) ∧
      reflectAbout sqrt r normal = some u := by
  obtain ⟨h1, h2⟩ := C37_unit hs normal
  obtain ⟨k, hk⟩ := Option.ne_none_iff_exists'.1 (fun h0 => h (h1.1 h0))
  obtain ⟨hkk, t, ht, -, hn⟩ := h2 k hk
  have ex : ∀ w : Fin n → K, reflectAbout sqrt w normal = some (-w + (2 * (w ⬝ᵥ k)) • k) := by
    intro w
    unfold reflectAbout
    rw [hk, Option.map_some]
    congr 1
    ext i
    simp only [dot_eq, Pi.add_apply, Pi.neg_apply, Pi.smul_apply, smul_eq_mul]
    ring
  refine ⟨_, _, ex u, ex v, ?_, ?_, fun h0 => ?_, fun x hx => ?_, ?_⟩
  · unfold bounceOn
    rw [ex u]
    rfl
  · simp only [add_dotProduct, dotProduct_add, neg_dotProduct, dotProduct_neg, smul_dotProduct, dotProduct_smul,
      smul_eq_mul, hkk]
    rw [dotProduct_comm k v]
    ring
  · rw [hn, dotProduct_smul, smul_eq_mul] at h0
    have : u ⬝ᵥ k = 0 := (mul_eq_zero.1 h0).resolve_left ht.ne'
    rw [this]
    simp
  · rw [hx, hn, smul_smul, smul_dotProduct, hkk, smul_eq_mul, mul_one, two_mul, add_smul]
    abel
  · rw [ex]
    congr 1
    rw [add_dotProduct, smul_dotProduct, hkk, neg_dotProduct, smul_eq_mul, mul_one]
    rw [neg_add, neg_neg, add_assoc, ← neg_smul, ← add_smul]
    rw [show -(2 * u ⬝ᵥ k) + 2 * (-(u ⬝ᵥ k) + 2 * u ⬝ᵥ k) = 0 by ring, zero_smul, add_zero]

/-- **C37**: `angle_to` is the angle between the vectors: in `[0, π]`, with `u·v = |u||v| cos θ`; undefined exactly
when one vector is zero. -/
theorem C37_angle_to (u v : Fin n → ℝ) :
    (angleTo u v = none ↔ u = 0 ∨ v = 0) ∧
    ∀ θ, angleTo u v = some θ → 0 ≤ θ ∧ θ ≤ Real.pi ∧
      u ⬝ᵥ v = Real.sqrt (u ⬝ᵥ u) * Real.sqrt (v ⬝ᵥ v) * Real.cos θ := by
  obtain ⟨u1, u2⟩ := C37_unit isSqrt_real u
  obtain ⟨v1, v2⟩ := C37_unit isSqrt_real v
  unfold angleTo
  cases hu : unit Real.sqrt u with
  | none =>
    have := u1.1 hu
    cases unit Real.sqrt v <;> simp [this]
  | some a =>
    have hu0 : u ≠ 0 := fun h => by rw [u1.2 h] at hu; cases hu
    cases hv : unit Real.sqrt v with
    | none =>
      have := v1.1 hv
      simp [this]
    | some b =>
      have hv0 : v ≠ 0 := fun h => by rw [v1.2 h] at hv; cases hv
      obtain ⟨ha, s, hs, hss, hua⟩ := u2 a hu
      obtain ⟨hb, t, ht, htt, hvb⟩ := v2 b hv
      refine ⟨by simp [hu0, hv0], ?_⟩
      simp only [Option.bind_eq_bind, Option.bind_some, stdMin_eq, stdMax_eq, dot_eq, Option.pure_def,
        Option.some.injEq]
      rintro θ rfl
      refine ⟨Real.arccos_nonneg _, Real.arccos_le_pi _, ?_⟩
      have hc := cauchy b a
      rw [ha, hb, one_mul, sq_le_one_iff_abs_le_one, abs_le] at hc
      rw [max_eq_left hc.1, min_eq_right hc.2, Real.cos_arccos hc.1 hc.2, ← hss, ← htt, Real.sqrt_mul_self hs.le,
        Real.sqrt_mul_self ht.le, hua, hvb, smul_dotProduct, dotProduct_smul, smul_eq_mul, smul_eq_mul,
        dotProduct_comm b a]
      ring

/-- **C37**: the normal of a triangle is a unit vector orthogonal to its edges, undefined exactly for degenerate
triangles. -/
theorem C37_triangle_normal {sqrt : K → K} (hs : IsSqrt sqrt) (p₁ p₂ p₃ : Fin 3 → K) :
    (triangleNormal sqrt p₁ p₂ p₃ = none ↔ crossProduct (p₂ - p₁) (p₃ - p₁) = 0) ∧
    ∀ w, triangleNormal sqrt p₁ p₂ p₃ = some w → w ⬝ᵥ w = 1 ∧ w ⬝ᵥ (p₂ - p₁) = 0 ∧ w ⬝ᵥ (p₃ - p₁) = 0 := by
  unfold triangleNormal
  rw [cross_eq]
  have e := C37_unit hs (crossProduct (p₂ - p₁) (p₃ - p₁))
  refine ⟨e.1, fun w hw => ?_⟩
  obtain ⟨h1, t, ht, -, h2⟩ := e.2 w hw
  refine ⟨h1, ?_, ?_⟩
  · have : (p₂ - p₁) ⬝ᵥ crossProduct (p₂ - p₁) (p₃ - p₁) = 0 := dot_self_cross _ _
    rw [h2, dotProduct_smul, smul_eq_mul] at this
    rw [dotProduct_comm]
    exact (mul_eq_zero.1 this).resolve_left ht.ne'
  · have : (p₃ - p₁) ⬝ᵥ crossProduct (p₂ - p₁) (p₃ - p₁) = 0 := dot_cross_self _ _
    rw [h2, dotProduct_smul, smul_eq_mul] at this
    rw [dotProduct_comm]
    exact (mul_eq_zero.1 this).resolve_left ht.ne'

/-! ### C38 -/

theorem arg_polar (x y : ℝ) :
    x = Real.sqrt (x * x + y * y) * Real.cos (Complex.arg ⟨x, y⟩) ∧
    y = Real.sqrt (x * x + y * y) * Real.sin (Complex.arg ⟨x, y⟩) := by
  have h := Complex.norm_mul_cos_add_sin_mul_I ⟨x, y⟩
  have hn : ‖(⟨x, y⟩ : ℂ)‖ = Real.sqrt (x * x + y * y) := by
    rw [← Complex.normSq_mk, Complex.norm_def]
  rw [hn] at h
  have h1 := congrArg Complex.re h
  have h2 := congrArg Complex.im h
  rw [← Complex.ofReal_cos, ← Complex.ofReal_sin] at h1 h2
  constructor
  · rw [Complex.re_ofReal_mul] at h1
    simpa [-Complex.ofReal_cos, -Complex.ofReal_sin] using h1.symm
  · rw [Complex.im_ofReal_mul] at h2
    simpa [-Complex.ofReal_cos, -Complex.ofReal_sin] using h2.symm

theorem mag2_two (u : Fin 2 → ℝ) : mag2 u = u 0 * u 0 + u 1 * u 1 := by
  rw [mag2_eq, dotProduct, Fin.sum_univ_two]

theorem angle_range (u : Fin 2 → ℝ) : 0 ≤ angle u ∧ angle u < 2 * Real.pi := by
  unfold angle
  have h1 := Complex.neg_pi_lt_arg ⟨u 0, u 1⟩
  have h2 := Complex.arg_le_pi ⟨u 0, u 1⟩
  have h3 := Real.pi_pos
  simp only
  split_ifs with h
  · constructor <;> linarith
  · exact ⟨not_lt.1 h, by linarith⟩

/-- **C38**: `to_polar` returns the length and the angle in `[0, 2π)`: the vector is `r (cos θ, sin θ)`. -/
theorem C38_to_polar (u : Fin 2 → ℝ) :
    let p := toPolar u
    0 ≤ p 0 ∧ p 0 ^ 2 = u 0 ^ 2 + u 1 ^ 2 ∧ 0 ≤ p 1 ∧ p 1 < 2 * Real.pi ∧
      u 0 = p 0 * Real.cos (p 1) ∧ u 1 = p 0 * Real.sin (p 1) := by
  have hr : toPolar u 0 = Real.sqrt (u 0 * u 0 + u 1 * u 1) := by
    show Real.sqrt (mag2 u) = _
    rw [mag2_two]
  have ht : toPolar u 1 = angle u := rfl
  simp only [hr, ht]
  refine ⟨Real.sqrt_nonneg _, ?_, (angle_range u).1, (angle_range u).2, ?_⟩
  · rw [Real.sq_sqrt (by nlinarith [mul_self_nonneg (u 0), mul_self_nonneg (u 1)])]
    ring
  · obtain ⟨h1, h2⟩ := arg_polar (u 0) (u 1)
    unfold angle
    simp only
    split_ifs
    · rw [Real.cos_add_two_pi, Real.sin_add_two_pi]
      exact ⟨h1, h2⟩
    · exact ⟨h1, h2⟩

/-- `angle` of a point given by polar coordinates. -/
theorem angle_polar {r t : ℝ} (hr : 0 < r) (h0 : 0 ≤ t) (h1 : t < 2 * Real.pi) :
    angle ![r * Real.cos t, r * Real.sin t] = t := by
  have key : ∀ s, -Real.pi < s → s ≤ Real.pi → Complex.arg ⟨r * Real.cos s, r * Real.sin s⟩ = s := by
    intro s hs1 hs2
    have := Complex.arg_mul_cos_add_sin_mul_I hr (θ := s) ⟨hs1, hs2⟩
    refine Eq.trans (congrArg Complex.arg ?_) this
    rw [← Complex.ofReal_cos, ← Complex.ofReal_sin]
    apply Complex.ext <;> simp [-Complex.ofReal_cos, -Complex.ofReal_sin]
  have hp := Real.pi_pos
  show (if Complex.arg ⟨r * Real.cos t, r * Real.sin t⟩ < 0 then
    Complex.arg ⟨r * Real.cos t, r * Real.sin t⟩ + 2 * Real.pi else
    Complex.arg ⟨r * Real.cos t, r * Real.sin t⟩) = t
  by_cases ht : t ≤ Real.pi
  · rw [key t (by linarith) ht, if_neg (by linarith)]
  · have := key (t - 2 * Real.pi) (by push Not at ht; linarith) (by linarith)
    rw [Real.cos_sub_two_pi, Real.sin_sub_two_pi] at this
    rw [this, if_pos (by linarith)]
    ring

/-- **C38**: `to_polar` recovers radius and angle. -/
theorem C38_to_polar_unique {r t : ℝ} (hr : 0 < r) (h0 : 0 ≤ t) (h1 : t < 2 * Real.pi) :
    toPolar ![r * Real.cos t, r * Real.sin t] = ![r, t] := by
  unfold toPolar
  rw [angle_polar hr h0 h1, mag2_two]
  have : Real.sqrt ((![r * Real.cos t, r * Real.sin t] : Fin 2 → ℝ) 0 * (![r * Real.cos t, r * Real.sin t] : Fin 2 → ℝ) 0
      + (![r * Real.cos t, r * Real.sin t] : Fin 2 → ℝ) 1 * (![r * Real.cos t, r * Real.sin t] : Fin 2 → ℝ) 1) = r := by
    simp only [Matrix.cons_val_zero, Matrix.cons_val_one]
    rw [show r * Real.cos t * (r * Real.cos t) + r * Real.sin t * (r * Real.sin t) =
      r ^ 2 * (Real.sin t ^ 2 + Real.cos t ^ 2) by ring, Real.sin_sq_add_cos_sq, mul_one, Real.sqrt_sq hr.le]
  rw [this]

/-- **C38** for `from_polar`: what it does is to read its vector as `(angle, radius)`, the opposite of the documented
and of `to_polar`'s order. -/
theorem C38_from_polar_partial (u : Fin 2 → ℝ) (r t : ℝ) :
    fromPolar ![t, r] = ![r * Real.cos t, r * Real.sin t] ∧
    fromPolar ![toPolar u 1, toPolar u 0] = u := by
  refine ⟨rfl, ?_⟩
  obtain ⟨-, -, -, -, h1, h2⟩ := C38_to_polar u
  show ![toPolar u 0 * Real.cos (toPolar u 1), toPolar u 0 * Real.sin (toPolar u 1)] = u
  rw [← h1, ← h2]
  ext i
  fin_cases i <;> rfl

/-- **C38** refuted: every point of the positive x-axis comes back from `to_polar` then `from_polar` as the origin, and
`from_polar` of radius 1 and angle 0 is not `(1, 0)`. -/
theorem C38_from_polar_refuted :
    (∀ x : ℝ, 0 < x → fromPolar (toPolar ![x, 0]) = ![0, 0]) ∧ fromPolar ![1, 0] ≠ ![1, 0] := by
  refine ⟨fun x hx => ?_, fun h => ?_⟩
  · have := C38_to_polar_unique hx (le_refl 0) (by have := Real.pi_pos; linarith)
    rw [Real.cos_zero, Real.sin_zero, mul_one, mul_zero] at this
    rw [this]
    ext i
    fin_cases i <;> simp [fromPolar]
  · have := congrFun h 0
    simp [fromPolar] at this

/-- **C38**: `to_spherical` is undefined exactly at the origin; elsewhere it gives the radius, an elevation in `[0, π]`
and an azimuth in `(-π, π]`, and `from_spherical` restores the vector. -/
theorem C38_to_spherical (u : Fin 3 → ℝ) :
    (toSpherical u = none ↔ u = 0) ∧
    ∀ s, toSpherical u = some s → s 0 ^ 2 = u ⬝ᵥ u ∧ 0 < s 0 ∧ 0 ≤ s 1 ∧ s 1 ≤ Real.pi ∧ -Real.pi < s 2 ∧
      s 2 ≤ Real.pi ∧ fromSpherical (s 0) (s 1) (s 2) = u := by
  unfold toSpherical
  simp only [mag2_eq]
  by_cases h : u = 0
  · subst h
    simp
  · have hp := self_dot_pos h
    have hq := Real.sqrt_pos.2 hp
    have hsq := Real.sq_sqrt hp.le
    rw [if_neg hq.ne']
    refine ⟨by simp [h], fun s hs => ?_⟩
    obtain rfl := Option.some.inj hs
    simp only [Matrix.cons_val_zero, Matrix.cons_val_one, Matrix.cons_val]
    refine ⟨hsq, hq, Real.arccos_nonneg _, Real.arccos_le_pi _, Complex.neg_pi_lt_arg _, Complex.arg_le_pi _, ?_⟩
    generalize hr : Real.sqrt (u ⬝ᵥ u) = r at hq hsq
    rw [dot3] at hsq
    have hz : (u 2 / r) ^ 2 ≤ 1 := by
      rw [div_pow, div_le_one (by positivity)]
      nlinarith [mul_self_nonneg (u 0), mul_self_nonneg (u 1)]
    rw [sq_le_one_iff_abs_le_one, abs_le] at hz
    have hsin : r * Real.sin (Real.arccos (u 2 / r)) = Real.sqrt (u 0 * u 0 + u 1 * u 1) := by
      rw [Real.sin_arccos]
      have e1 : r = Real.sqrt (r ^ 2) := (Real.sqrt_sq hq.le).symm
      conv_lhs => rw [e1]
      rw [← Real.sqrt_mul (by positivity)]
      congr 1
      rw [← e1]
      field_simp
      linarith
    obtain ⟨h1, h2⟩ := arg_polar (u 0) (u 1)
    unfold fromSpherical
    simp only
    rw [hsin, ← h1, ← h2, Real.cos_arccos hz.1 hz.2, mul_div_cancel₀ _ hq.ne']
    ext i
    fin_cases i <;> rfl

/-- **C38**: `from_spherical` has the stated radius and angles, and `to_spherical` recovers them away from the poles. -/
theorem C38_from_spherical {r e a : ℝ} (hr : 0 < r) (h0 : 0 < e) (h1 : e < Real.pi) (h2 : -Real.pi < a)
    (h3 : a ≤ Real.pi) : toSpherical (fromSpherical r e a) = some ![r, e, a] := by
  have hs := Real.sin_pos_of_pos_of_lt_pi h0 h1
  have hm : fromSpherical r e a ⬝ᵥ fromSpherical r e a = r ^ 2 := by
    rw [dot3]
    simp only [fromSpherical, Matrix.cons_val_zero, Matrix.cons_val_one, Matrix.cons_val]
    have e1 := Real.sin_sq_add_cos_sq a
    have e2 := Real.sin_sq_add_cos_sq e
    linear_combination r ^ 2 * Real.sin e ^ 2 * e1 + r ^ 2 * e2
  unfold toSpherical
  simp only [mag2_eq, hm, Real.sqrt_sq hr.le]
  rw [if_neg hr.ne']
  congr 1
  have ez : fromSpherical r e a 2 / r = Real.cos e := by
    simp only [fromSpherical, Matrix.cons_val]
    field_simp
  have ea : Complex.arg ⟨fromSpherical r e a 0, fromSpherical r e a 1⟩ = a := by
    have := Complex.arg_mul_cos_add_sin_mul_I (mul_pos hr hs) (θ := a) ⟨h2, h3⟩
    refine Eq.trans (congrArg Complex.arg ?_) this
    rw [← Complex.ofReal_cos, ← Complex.ofReal_sin]
    apply Complex.ext <;> simp [fromSpherical, -Complex.ofReal_cos, -Complex.ofReal_sin]
  rw [ez, ea, Real.arccos_cos h0.le h1.le]

/-! ### C39 -/

/-- The right-handed rotation with cosine `c` and sine `s` about the unit axis `k` (Rodrigues). -/
def rodrigues (c s : K) (k p : Fin 3 → K) : Fin 3 → K :=
  c • p + s • crossProduct k p + ((1 - c) * (k ⬝ᵥ p)) • k

omit [LinearOrder K] [IsStrictOrderedRing K] in
/-- The rotation is an isometry, keeps the axis, turns the plane orthogonal to the axis by the angle, and
turns by the sum of the angles when applied twice. -/
theorem rodrigues_spec {c s : K} (hcs : c * c + s * s = 1) {k : Fin 3 → K} (hk : k ⬝ᵥ k = 1) (p q : Fin 3 → K) :
    rodrigues c s k p ⬝ᵥ rodrigues c s k q = p ⬝ᵥ q ∧ rodrigues c s k k = k ∧
    (k ⬝ᵥ p = 0 → rodrigues c s k p = c • p + s • crossProduct k p) ∧
    ∀ c' s', rodrigues c' s' k (rodrigues c s k p) = rodrigues (c' * c - s' * s) (s' * c + c' * s) k p := by
  rw [dot3] at hk
  refine ⟨?_, ?_, fun h => by rw [rodrigues, h]; simp, fun c' s' => ?_⟩
  · simp only [dot3, rodrigues, cross_apply, Pi.add_apply, Pi.smul_apply, smul_eq_mul, Matrix.cons_val_zero,
      Matrix.cons_val_one, Matrix.cons_val]
    generalize k 0 = a at *
    generalize k 1 = b at *
    generalize k 2 = d at *
    linear_combination (exp := 1) (p 0 * q 0 + p 1 * q 1 + p 2 * q 2) * hcs +
      (s * s * (p 0 * q 0 + p 1 * q 1 + p 2 * q 2) +
        (1 - c) ^ 2 * (a * p 0 + b * p 1 + d * p 2) * (a * q 0 + b * q 1 + d * q 2)) * hk -
      (a * p 0 + b * p 1 + d * p 2) * (a * q 0 + b * q 1 + d * q 2) * hcs
  · rw [rodrigues, cross_self, dot3, hk]
    ext i
    simp
    ring
  · have hk' : k ⬝ᵥ k = 1 := by rw [dot3]; exact hk
    have h1 : crossProduct k (crossProduct k p) = (k ⬝ᵥ p) • k - p := by
      rw [cross_cross_eq_smul_sub_smul', hk', one_smul]
    have h2 : k ⬝ᵥ rodrigues c s k p = k ⬝ᵥ p := by
      rw [rodrigues, dotProduct_add, dotProduct_add, dotProduct_smul, dotProduct_smul, dotProduct_smul, dot_self_cross,
        hk']
      simp only [smul_eq_mul]
      ring
    have h3 : crossProduct k (rodrigues c s k p) = c • crossProduct k p + s • ((k ⬝ᵥ p) • k - p) := by
      rw [rodrigues, map_add, map_add, map_smul, map_smul, map_smul, cross_self, h1, smul_zero, add_zero]
    rw [rodrigues, h2, h3, rodrigues, rodrigues]
    module

end Geomc.Vec
