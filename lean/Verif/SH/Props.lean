import Verif.SH.Lemmas
import Mathlib.Analysis.SpecialFunctions.Pow.Real
import Mathlib.Analysis.Real.Sqrt

/-! # Properties C24, C70 and C71: spherical and zonal harmonics -/

namespace Geomc.SH

variable {K : Type} [Field K]

/-! ## C24 -/

/-- **C24.** For every band count the position map is a bijection from the pairs `0 ≤ l < n`, `|m| ≤ l`
onto `[0, n²)`. -/
theorem C24_index (n : ℕ) :
    Set.BijOn (fun p : ℤ × ℤ => idx p.1 p.2) {p | 0 ≤ p.1 ∧ p.1 < n ∧ |p.2| ≤ p.1}
      {i | 0 ≤ i ∧ i < (n : ℤ) * n} := by
  refine ⟨?_, ?_, ?_⟩
  · rintro ⟨l, m⟩ ⟨h1, h2, h3⟩
    simp only at h1 h2 h3
    obtain ⟨h4, h5⟩ := abs_le.1 h3
    obtain ⟨l, rfl⟩ := Int.eq_ofNat_of_zero_le h1
    have := idx_bound n l m (by exact_mod_cast h2) h4 h5
    push_cast at this
    exact this
  · rintro ⟨l, m⟩ ⟨h1, h2, h3⟩ ⟨l', m'⟩ ⟨h1', h2', h3'⟩ h
    simp only at h1 h2 h3 h1' h2' h3' h
    obtain ⟨h4, h5⟩ := abs_le.1 h3
    obtain ⟨h4', h5'⟩ := abs_le.1 h3'
    obtain ⟨l, rfl⟩ := Int.eq_ofNat_of_zero_le h1
    obtain ⟨l', rfl⟩ := Int.eq_ofNat_of_zero_le h1'
    obtain ⟨e1, e2⟩ := idx_inj l l' m m' h4 h5 h4' h5' h
    rw [e1, e2]
  · rintro i ⟨h0, h1⟩
    obtain ⟨i, rfl⟩ := Int.eq_ofNat_of_zero_le h0
    have hs := Nat.sqrt_le i
    have hs' := Nat.lt_succ_sqrt i
    have hn : i < n * n := by exact_mod_cast h1
    have hlt : Nat.sqrt i < n := Nat.sqrt_lt.2 hn
    refine ⟨((Nat.sqrt i : ℕ), (i : ℤ) - (Nat.sqrt i) * (Nat.sqrt i) - Nat.sqrt i), ⟨?_, ?_, ?_⟩, ?_⟩
    · simp
    · simpa using hlt
    · rw [abs_le]
      have a : ((Nat.sqrt i : ℕ) : ℤ) * (Nat.sqrt i : ℕ) ≤ i := by exact_mod_cast hs
      have b : (i : ℤ) < ((Nat.sqrt i : ℕ) + 1) * ((Nat.sqrt i : ℕ) + 1) := by exact_mod_cast hs'
      constructor
      · simp only; linarith
      · simp only; nlinarith
    · simp only [idx]; ring

/-- **C24.** Access with a valid `(l, m)` stays in the array. -/
theorem C24_access (s : SH K) (l : ℕ) (m : ℤ) (hl : l < s.bands) (hm : |m| ≤ l) :
    s.coeff l m = some (s.c (idx l m)) := by
  obtain ⟨h1, h2⟩ := abs_le.1 hm
  exact get_of s _ (idx_bound s.bands l m hl h1 h2)

/-- **C24.** `dot` is the sum of products of corresponding coefficients over the bands both have. -/
theorem C24_dot (s o : SH K) :
    s.dot o = some (∑ l ∈ Finset.range (min s.bands o.bands), ∑ m ∈ Finset.Icc (-(l : ℤ)) l,
      s.c (idx l m) * o.c (idx l m)) := by
  unfold SH.dot
  have hmin : min s.size o.size = min s.bands o.bands * min s.bands o.bands := by
    unfold SH.size
    rcases le_total s.bands o.bands with h | h
    · rw [min_eq_left h, min_eq_left (Nat.mul_le_mul h h)]
    · rw [min_eq_right h, min_eq_right (Nat.mul_le_mul h h)]
  rw [foldlM_get_sum (fun i => s.c i * o.c i), zero_add, hmin,
    sum_bands (fun i => s.c i * o.c i)]
  intro acc i hi
  rw [get_of s i ⟨by positivity, by exact_mod_cast (lt_of_lt_of_le hi (min_le_left _ _))⟩,
    get_of o i ⟨by positivity, by exact_mod_cast (lt_of_lt_of_le hi (min_le_right _ _))⟩]
  rfl

omit [Field K] in
theorem idx_surj (B i : ℕ) (h : i < B * B) : ∃ (l : ℕ) (m : ℤ), l < B ∧ |m| ≤ l ∧ idx l m = i := by
  obtain ⟨⟨l, m⟩, ⟨h1, h2, h3⟩, h4⟩ := (C24_index B).surjOn (show (i : ℤ) ∈ _ from
    ⟨by positivity, by exact_mod_cast h⟩)
  simp only at h1 h2 h3 h4
  obtain ⟨l, rfl⟩ := Int.eq_ofNat_of_zero_le h1
  exact ⟨l, m, by exact_mod_cast h2, h3, h4⟩

/-- **C24.** `*= k` multiplies every coefficient by `k`. -/
theorem C24_scale (s : SH K) (k : K) :
    ∃ t, s.scale k = some t ∧ t.bands = s.bands ∧
      ∀ (l : ℕ) (m : ℤ), l < s.bands → |m| ≤ l → t.c (idx l m) = s.c (idx l m) * k := by
  obtain ⟨t, h1, h2, h3, _⟩ := fold_put (fun i : ℕ => (i : ℤ)) (fun _ a => a * k) (fun (t : SH K) (i : ℕ) => do
    let a ← t.get i
    t.put i (a * k)) s.bands (List.range s.size) s rfl
    ((List.nodup_range).map Nat.cast_injective) (by
      intro t a ht ha
      have hb : 0 ≤ (a : ℤ) ∧ (a : ℤ) < t.size := by
        refine ⟨by positivity, ?_⟩
        have := List.mem_range.1 ha
        unfold SH.size at *; rw [ht]; exact_mod_cast this
      rw [get_of t a hb]
      simp only [Option.bind_eq_bind, Option.bind_some]
      rw [put_of t a _ hb])
  refine ⟨t, h1, h2, ?_⟩
  intro l m hl hm
  obtain ⟨h4, h5⟩ := abs_le.1 hm
  obtain ⟨b0, b1⟩ := idx_bound s.bands l m hl h4 h5
  obtain ⟨i, hi⟩ := Int.eq_ofNat_of_zero_le b0
  have := h3 i (by rw [List.mem_range, SH.size]; rw [hi] at b1; exact_mod_cast b1)
  rw [hi]; exact this

/-- **C24.** `a += b` adds the coefficients of the bands both have and leaves the others of `a`. -/
theorem C24_add (s o : SH K) :
    ∃ t, s.addAssign o = some t ∧ t.bands = s.bands ∧
      ∀ (l : ℕ) (m : ℤ), l < s.bands → |m| ≤ l →
        t.c (idx l m) = if l < o.bands then s.c (idx l m) + o.c (idx l m) else s.c (idx l m) := by
  obtain ⟨t, h1, h2, h3, h4⟩ := fold_put (fun i : ℕ => (i : ℤ)) (fun i a => a + o.c i)
    (fun (t : SH K) (i : ℕ) => do
      let a ← t.get i
      let b ← o.get i
      t.put i (a + b)) s.bands (List.range (min o.size s.size)) s rfl
    ((List.nodup_range).map Nat.cast_injective) (by
      intro t a ht ha
      have := List.mem_range.1 ha
      have hb : 0 ≤ (a : ℤ) ∧ (a : ℤ) < t.size := by
        refine ⟨by positivity, ?_⟩
        have := lt_of_lt_of_le this (min_le_right _ _)
        unfold SH.size at *; rw [ht]; exact_mod_cast this
      rw [get_of t a hb, get_of o a ⟨by positivity, by
        exact_mod_cast lt_of_lt_of_le this (min_le_left _ _)⟩]
      simp only [Option.bind_eq_bind, Option.bind_some]
      rw [put_of t a _ hb])
  refine ⟨t, h1, h2, ?_⟩
  intro l m hl hm
  obtain ⟨ha, hb⟩ := abs_le.1 hm
  obtain ⟨b0, b1⟩ := idx_bound s.bands l m hl ha hb
  split_ifs with ho
  · obtain ⟨_, c1⟩ := idx_bound o.bands l m ho ha hb
    obtain ⟨i, hi⟩ := Int.eq_ofNat_of_zero_le b0
    have := h3 i (by
      rw [List.mem_range, SH.size, SH.size, lt_min_iff]
      rw [hi] at b1 c1; exact ⟨by exact_mod_cast c1, by exact_mod_cast b1⟩)
    rw [hi]; exact this
  · apply h4
    intro a ha'
    have h5 := lt_of_lt_of_le (List.mem_range.1 ha') (min_le_left _ _)
    unfold SH.size at h5
    have h6 : (a : ℤ) < (o.bands : ℤ) * o.bands := by exact_mod_cast h5
    push Not at ho
    have h7 : (o.bands : ℤ) ≤ l := by exact_mod_cast ho
    unfold idx
    intro hc
    nlinarith

/-- A 2-band function. -/
def demo : SH ℚ := ⟨2, fun i => i + 1⟩
example : demo.coeff 1 (-1) = some 2 ∧ demo.coeff 1 1 = some 4 ∧ demo.coeff 2 0 = none := by decide +kernel
example : demo.dot demo = some 30 ∧ demo.dot ⟨1, fun _ => 5⟩ = some 5 := by decide +kernel

/-- **C24, refuted for `normalize`**, documented to make the integral over the sphere 1: it never changes
the constant band, which is the only one with a non-zero integral. -/
theorem C24_normalize_refuted [DecidableEq K] (s : SH K) (hb : 0 < s.bands) :
    ∃ t, s.normalize = some t ∧ t.c 0 = s.c 0 := by
  unfold SH.normalize
  rw [get_of s 0 ⟨le_refl _, by unfold SH.size; positivity⟩]
  simp only [Option.bind_eq_bind, Option.bind_some]
  split_ifs with h0
  · exact ⟨s, rfl, rfl⟩
  · obtain ⟨t, h1, _, _, h4⟩ := fold_put (fun i : ℕ => (i : ℤ)) (fun _ a => a / s.c 0)
      (fun (t : SH K) (i : ℕ) => do
        let a ← t.get i
        t.put i (a / s.c 0)) s.bands (List.range' 1 (s.size - 1)) s rfl
      ((List.nodup_range').map Nat.cast_injective) (by
        intro t a ht ha
        have hm := List.mem_range'_1.1 ha
        have hb : 0 ≤ (a : ℤ) ∧ (a : ℤ) < t.size := by
          refine ⟨by positivity, ?_⟩
          have : a < s.size := by omega
          unfold SH.size at *; rw [ht]; exact_mod_cast this
        rw [get_of t a hb]
        simp only [Option.bind_eq_bind, Option.bind_some]
        rw [put_of t a _ hb])
    refine ⟨t, h1, h4 0 ?_⟩
    intro a ha
    have hm := List.mem_range'_1.1 ha
    omega

example : (SH.normalize ⟨1, fun _ => (5 : ℚ)⟩).map (fun t => t.c 0) = some 5 := by decide +kernel

/-! ## C70 -/

/-- **C70.** `project(d, v)` adds `v` times the basis function values to the coefficients, and nothing
else: coefficient `(l, m)` grows by `v · spherical_harmonic_coeff(l, m, d)`.  The incremental Legendre
recurrence inside the loop agrees with the stand-alone `legendre(l, m, x)`. -/
theorem C70_project (F : Fns K) (s : SH K) (x azi val : K) :
    ∃ t, s.project F x azi val = some t ∧ t.bands = s.bands ∧
      ∀ (l : ℕ) (m : ℤ), l < s.bands → |m| ≤ l →
        t.c (idx l m) = s.c (idx l m) + shCoeff F l m x azi * val := by
  refine ⟨_, project_sum F s x azi val, rfl, ?_⟩
  intro l m hl hm
  simp only
  congr 1
  rw [sum_tri (fun m' l' => projTerm F x azi val m' l' (idx l m))]
  have hp : ∀ l' ∈ Finset.range s.bands,
      ∑ m' ∈ Finset.range (l' + 1), projTerm F x azi val m' l' (idx l m) =
      ∑ q ∈ Finset.Icc (-(l' : ℤ)) l', if idx l m = idx l' q then shCoeff F l' q x azi * val else 0 := by
    intro l' _
    rw [sum_Icc_pairs (fun q => if idx l m = idx l' q then shCoeff F l' q x azi * val else 0)]
    rfl
  rw [Finset.sum_congr rfl hp, Finset.sum_eq_single l]
  · rw [Finset.sum_eq_single m]
    · rw [if_pos rfl]
    · intro q _ hq
      rw [if_neg]
      intro hc
      unfold idx at hc
      exact hq (by linarith)
    · intro hc
      exact absurd (Finset.mem_Icc.2 (abs_le.1 hm)) hc
  · intro l' _ hl'
    apply Finset.sum_eq_zero
    intro q hq
    rw [if_neg]
    intro hc
    obtain ⟨h1, h2⟩ := abs_le.1 hm
    obtain ⟨h3, h4⟩ := Finset.mem_Icc.1 hq
    exact hl' (idx_inj l l' m q h1 h2 h3 h4 hc).1.symm
  · intro hc
    exact absurd (Finset.mem_range.2 hl) hc

/-- **C70.** `eval` is the sum of coefficient times basis function value over all stored `(l, m)`. -/
theorem C70_eval (F : Fns K) (s : SH K) (x azi : K) :
    s.eval F x azi = some (∑ l ∈ Finset.range s.bands, ∑ m ∈ Finset.Icc (-(l : ℤ)) l,
      s.c (idx l m) * shCoeff F l m x azi) := eval_sum F s x azi

/-- **C70.** Evaluating in a direction is the inner product with the basis for that direction (as the
documentation of `basis` promises), for every band count, function and direction. -/
theorem C70_eval_dot_basis (F : Fns K) (s : SH K) (x azi : K) :
    ∃ b, SH.basis F s.bands x azi = some b ∧ s.eval F x azi = s.dot b := by
  obtain ⟨b, h1, h2, h3⟩ := C70_project F (SH.new s.bands : SH K) x azi 1
  refine ⟨b, h1, ?_⟩
  have h2' : b.bands = s.bands := h2
  rw [C70_eval, C24_dot, h2', min_self]
  congr 1
  apply Finset.sum_congr rfl
  intro l hl
  apply Finset.sum_congr rfl
  intro m hm
  rw [h3 l m (Finset.mem_range.1 hl) (abs_le.2 (Finset.mem_Icc.1 hm))]
  simp [SH.new]

/-- **C70.** `convolve(zh)` multiplies every coefficient of band `l` by the zonal coefficient of band `l`
and clears the bands the kernel does not have. -/
theorem C70_convolve (s : SH K) (z : ZH K) :
    ∃ t, s.convolve z = some t ∧ t.bands = s.bands ∧
      ∀ (l : ℕ) (m : ℤ), l < s.bands → |m| ≤ l →
        t.c (idx l m) = if l < z.bands then s.c (idx l m) * z.c l else 0 := by
  unfold SH.convolve
  have key : ∀ n ≤ s.bands, ∃ t, (List.range n).foldlM (fun (t : SH K) (l : ℕ) =>
      (List.range (2 * l + 1)).foldlM (fun (t : SH K) (j : ℕ) => do
        let m : ℤ := (j : ℤ) - l
        if l < z.bands then
          let a ← t.coeff l m
          let b ← z.get l
          t.put (idx l m) (a * b)
        else t.put (idx l m) 0) t) s = some t ∧ t.bands = s.bands ∧
      ∀ (l : ℕ) (m : ℤ), l < s.bands → |m| ≤ l → t.c (idx l m) =
        if l < n then (if l < z.bands then s.c (idx l m) * z.c l else 0) else s.c (idx l m) := by
    intro n
    induction n with
    | zero => intro _; exact ⟨s, rfl, rfl, by simp⟩
    | succ n ih =>
      intro hn
      obtain ⟨t, ht, hb, hc⟩ := ih (by omega)
      obtain ⟨u, hu, hub, huc, huo⟩ := fold_put (fun j : ℕ => idx n ((j : ℤ) - n))
        (fun _ a => if n < z.bands then a * z.c n else 0)
        (fun (t : SH K) (j : ℕ) => do
          let m : ℤ := (j : ℤ) - n
          if n < z.bands then
            let a ← t.coeff n m
            let b ← z.get n
            t.put (idx n m) (a * b)
          else t.put (idx n m) 0) s.bands (List.range (2 * n + 1)) t hb
        ((List.nodup_range).map fun a b hab => by unfold idx at hab; omega)
        (by
          intro v j hv hj
          have hj' := List.mem_range.1 hj
          have hbd : 0 ≤ idx n ((j : ℤ) - n) ∧ idx n ((j : ℤ) - n) < v.size := by
            have := idx_bound s.bands n ((j : ℤ) - n) (by omega) (by omega) (by omega)
            unfold SH.size; rw [hv]; exact this
          by_cases hz : n < z.bands
          · simp only [hz, if_true]
            rw [SH.coeff, get_of v _ hbd, show z.get n = some (z.c n) from if_pos hz]
            simp only [Option.bind_eq_bind, Option.bind_some]
            rw [put_of v _ _ hbd]
          · simp only [hz, if_false]
            rw [put_of v _ _ hbd])
      refine ⟨u, ?_, hub, ?_⟩
      · rw [List.range_succ, List.foldlM_append, ht]
        simp only [Option.bind_eq_bind, Option.bind_some, List.foldlM_cons, List.foldlM_nil]
        simp only [Option.bind_eq_bind] at hu
        rw [hu]; rfl
      · intro l m hl hm
        obtain ⟨h1, h2⟩ := abs_le.1 hm
        by_cases e : l = n
        · subst e
          have := huc (m + l).toNat (List.mem_range.2 (by omega))
          rw [show (((m + l).toNat : ℕ) : ℤ) - l = m by omega] at this
          rw [this, hc l m hl hm, if_pos (Nat.lt_succ_self l), if_neg (lt_irrefl l)]
        · rw [huo _ (fun j hj hcn => e (idx_inj n l _ m (by omega)
            (by have := List.mem_range.1 hj; omega) h1 h2 hcn).1.symm), hc l m hl hm]
          by_cases h3 : l < n
          · rw [if_pos h3, if_pos (show l < n + 1 by omega)]
          · rw [if_neg h3, if_neg (by omega)]
  obtain ⟨t, h1, h2, h3⟩ := key s.bands le_rfl
  exact ⟨t, h1, h2, fun l m hl hm => by rw [h3 l m hl hm, if_pos hl]⟩

/-! ## C71 -/

section real

/-- The library functions over the reals. -/
noncomputable def realFns : Fns ℝ where
  sqrt := Real.sqrt
  cos := Real.cos
  sin := Real.sin
  halfPow := fun m y => y ^ ((m : ℝ) / 2)
  pi := Real.pi

end real

theorem zget {z : ZH K} {i : ℕ} (h : i < z.bands) : z.get i = some (z.c i) := if_pos h

/-- **C71.** Evaluating a zonal function of `n ≥ 1` bands gives `∑ c_l P_l(x)` with the Legendre
polynomials. -/
theorem C71_eval [CharZero K] (z : ZH K) (h : 1 ≤ z.bands) (x : K) :
    z.eval x = some (∑ l ∈ Finset.range z.bands, z.c l * Basis.legendre l x) := by
  have key : ∀ n, n + 2 ≤ z.bands → ∀ s0 : K,
      (List.range' 1 n).foldlM (fun (st : K × K × K) (i : ℕ) => do
      let p := ((2 * (i : K) + 1) * x * st.2.2 - (i : K) * st.2.1) / ((i : K) + 1)
      let a ← z.get (i + 1)
      some (st.1 + a * p, st.2.2, p)) (s0, 1, x) =
      some (s0 + ∑ l ∈ Finset.range n, z.c (l + 2) * (Basis.leg (l + 2)).eval x,
        (Basis.leg n).eval x, (Basis.leg (n + 1)).eval x) := by
    intro n
    induction n with
    | zero => intro _ s0; simp [Basis.leg_zero, Basis.leg_one]
    | succ n ih =>
      intro hn s0
      rw [List.range'_1_concat, List.foldlM_append, ih (by omega)]
      simp only [Option.bind_eq_bind, Option.bind_some, List.foldlM_cons, List.foldlM_nil]
      rw [zget (by omega : 1 + n + 1 < z.bands)]
      have hb := congrArg (Polynomial.eval x) (Basis.bonnet (K := K) n)
      simp only [Polynomial.eval_mul, Polynomial.eval_sub, Polynomial.eval_C, Polynomial.eval_X] at hb
      have h2 : ((n : K) + 2) ≠ 0 := by exact_mod_cast Nat.succ_ne_zero (n + 1)
      have e : ((2 * ((1 + n : ℕ) : K) + 1) * x * (Basis.leg (n + 1)).eval x -
          ((1 + n : ℕ) : K) * (Basis.leg n).eval x) / (((1 + n : ℕ) : K) + 1) =
          (Basis.leg (n + 2)).eval x := by
        push_cast
        rw [show (1 : K) + n + 1 = n + 2 by ring, div_eq_iff h2]
        linear_combination -hb
      simp only [Option.bind_some, e]
      rw [Finset.sum_range_succ, show 1 + n + 1 = n + 2 by omega]
      simp [add_assoc]
  have leq : ∀ l : ℕ, Basis.legendre (l : ℤ) x = (Basis.leg l).eval x := fun l => Basis.legendre_eq l x
  unfold ZH.eval
  rw [zget (by omega : 0 < z.bands)]
  simp only [Option.bind_eq_bind, Option.bind_some, leq]
  rcases Nat.lt_or_ge 1 z.bands with h1 | h1
  · rw [if_pos h1, zget h1]
    simp only [Option.bind_some]
    obtain ⟨n, hn⟩ : ∃ n, z.bands = n + 2 := ⟨z.bands - 2, by omega⟩
    have := key n (by omega) (z.c 0 + z.c 1 * x)
    simp only [Option.bind_eq_bind] at this
    rw [show z.bands - 2 = n by omega, this, hn, Finset.sum_range_succ', Finset.sum_range_succ']
    simp only [Option.bind_some, Basis.leg_zero, Basis.leg_one, Polynomial.eval_one, Polynomial.eval_X,
      Nat.zero_add]
    congr 1; ring
  · have hz : z.bands = 1 := by omega
    rw [if_neg (by omega), hz]
    simp [Basis.leg_zero]

theorem zput {z : ZH K} {i : ℕ} (v : K) (h : i < z.bands) :
    z.put i v = some { z with c := Function.update z.c i v } := if_pos h

/-- **C71.** `generate_spot` stores the Legendre series coefficients of a spot: band `l` is
`(2l+1)/2 ∫ P_l` over the cap from `cos_angle` to 1. -/
theorem C71_spot (z : ZH ℝ) (h : 1 ≤ z.bands) (x : ℝ) (h1 : -1 ≤ x) (h2 : x ≤ 1) :
    ∃ t, z.spot (fun y => min 1 (max (-1) y)) x = some t ∧ t.bands = z.bands ∧
      ∀ l < z.bands, t.c l = (2 * l + 1) / 2 * ∫ y in x..1, Basis.legendre l y := by
  have leq : ∀ (l : ℕ) (y : ℝ), Basis.legendre (l : ℤ) y = (Basis.leg l).eval y :=
    fun l y => Basis.legendre_eq l y
  have hcl : min 1 (max (-1) x) = x := by rw [max_eq_right h1, min_eq_right h2]
  have hint : ∀ n : ℕ, (2 * (n : ℝ) + 3) * ∫ y in x..1, (Basis.leg (n + 1)).eval y =
      (Basis.leg n).eval x - (Basis.leg (n + 2)).eval x := by
    intro n
    have hi := Basis.integral_derivative (Basis.leg (n + 2) - Basis.leg n) x 1
    rw [Polynomial.derivative_sub, ← Basis.leg_deriv_diff (K := ℝ) n] at hi
    simp only [Polynomial.eval_mul, Polynomial.eval_C, Polynomial.eval_sub] at hi
    rw [intervalIntegral.integral_const_mul, (Basis.leg_eval_one (K := ℝ) n).1,
      (Basis.leg_eval_one (K := ℝ) (n + 1)).2] at hi
    linarith
  have key : ∀ n, n + 1 ≤ z.bands → ∀ z0 : ZH ℝ, z0.bands = z.bands →
      ∃ t : ZH ℝ, (List.range' 1 n).foldlM (fun (st : ZH ℝ × ℝ × ℝ) (i : ℕ) => do
        let k := (2 * (i : ℝ) + 1) / 2
        let p := ((2 * (i : ℝ) + 1) * x * st.2.2 - (i : ℝ) * st.2.1) / ((i : ℝ) + 1)
        let t ← st.1.put i (-k * (p - st.2.1) / (2 * (i : ℝ) + 1))
        some (t, st.2.2, p)) (z0, 1, x) =
        some (t, (Basis.leg n).eval x, (Basis.leg (n + 1)).eval x) ∧ t.bands = z.bands ∧
        t.c 0 = z0.c 0 ∧ ∀ l, 1 ≤ l → l ≤ n →
          t.c l = (2 * l + 1) / 2 * ∫ y in x..1, (Basis.leg l).eval y := by
    intro n
    induction n with
    | zero =>
      intro _ z0 hz
      exact ⟨z0, by simp [Basis.leg_zero, Basis.leg_one], hz, rfl, by omega⟩
    | succ n ih =>
      intro hn z0 hz
      obtain ⟨t, ht, hb, hc0, hc⟩ := ih (by omega) z0 hz
      have hbn := congrArg (Polynomial.eval x) (Basis.bonnet (K := ℝ) n)
      simp only [Polynomial.eval_mul, Polynomial.eval_sub, Polynomial.eval_C, Polynomial.eval_X] at hbn
      have h2 : ((n : ℝ) + 2) ≠ 0 := by positivity
      have h3 : (2 * (n : ℝ) + 3) ≠ 0 := by positivity
      have e : ((2 * ((1 + n : ℕ) : ℝ) + 1) * x * (Basis.leg (n + 1)).eval x -
          ((1 + n : ℕ) : ℝ) * (Basis.leg n).eval x) / (((1 + n : ℕ) : ℝ) + 1) =
          (Basis.leg (n + 2)).eval x := by
        push_cast
        rw [show (1 : ℝ) + n + 1 = n + 2 by ring, div_eq_iff h2]
        linear_combination -hbn
      refine ⟨{ t with c := Function.update t.c (1 + n) ((2 * ((n + 1 : ℕ) : ℝ) + 1) / 2 *
        ∫ y in x..1, (Basis.leg (n + 1)).eval y) }, ?_, hb, ?_, ?_⟩
      · rw [List.range'_1_concat, List.foldlM_append, ht]
        simp only [Option.bind_eq_bind, Option.bind_some, List.foldlM_cons, List.foldlM_nil]
        rw [zput _ (by omega : 1 + n < t.bands)]
        simp only [Option.bind_some, e]
        have e2 : -((2 * ((1 + n : ℕ) : ℝ) + 1) / 2) * ((Basis.leg (n + 2)).eval x - (Basis.leg n).eval x) /
            (2 * ((1 + n : ℕ) : ℝ) + 1) = (2 * ((n + 1 : ℕ) : ℝ) + 1) / 2 *
            ∫ y in x..1, (Basis.leg (n + 1)).eval y := by
          have := hint n
          push_cast
          rw [show 2 * (1 + (n : ℝ)) + 1 = 2 * n + 3 by ring, show 2 * ((n : ℝ) + 1) + 1 = 2 * n + 3 by ring,
            div_eq_iff h3]
          linear_combination (-(2 * (n : ℝ) + 3) / 2) * this
        rw [e2]
        rfl
      · simp only
        rw [Function.update_of_ne (by omega)]
        exact hc0
      · intro l hl1 hl2
        simp only
        by_cases hl : l = 1 + n
        · subst hl
          rw [Function.update_self, show n + 1 = 1 + n by omega]
        · rw [Function.update_of_ne hl]
          exact hc l hl1 (by omega)
  unfold ZH.spot
  simp only [hcl]
  rw [zput _ (by omega : 0 < z.bands)]
  simp only [Option.bind_eq_bind, Option.bind_some, leq]
  obtain ⟨t, ht, hb, hc0, hc⟩ := key (z.bands - 1) (by omega)
    { z with c := Function.update z.c 0 ((2 - x - 1) / 2) } rfl
  simp only [Option.bind_eq_bind] at ht
  refine ⟨t, by rw [ht]; rfl, hb, ?_⟩
  intro l hl
  rcases Nat.eq_zero_or_pos l with rfl | hl0
  · rw [hc0]
    simp only [Function.update_self, Basis.leg_zero, Polynomial.eval_one]
    simp
    ring
  · exact hc l hl0 (by omega)

/-- **C71.** Converting a zonal function to spherical harmonics keeps its values in every direction. -/
theorem C71_ofZH_eval (z : ZH ℝ) (h : 1 ≤ z.bands) (x azi : ℝ) :
    ∃ s v, SH.ofZH realFns z = some s ∧ s.bands = z.bands ∧ s.eval realFns x azi = some v ∧
      z.eval x = some v := by
  obtain ⟨s, h1, h2, h3, h4⟩ := fold_put (K := ℝ) (fun l : ℕ => idx l 0)
    (fun l _ => z.c l * Real.sqrt (4 * Real.pi / (2 * (l : ℝ) + 1)))
    (fun (s : SH ℝ) (l : ℕ) => do
      let p ← z.get l
      s.put (idx l 0) (p * Real.sqrt (4 * Real.pi / (2 * (l : ℝ) + 1)))) z.bands (List.range z.bands)
    (SH.new z.bands) rfl
    ((List.nodup_range).map fun a b hab =>
      (idx_inj a b 0 0 (by omega) (by omega) (by omega) (by omega) hab).1)
    (by
      intro t l ht hl
      have hl' := List.mem_range.1 hl
      rw [zget hl']
      simp only [Option.bind_eq_bind, Option.bind_some]
      rw [put_of]
      have := idx_bound z.bands l 0 hl' (by omega) (by omega)
      unfold SH.size; rw [ht]; exact this)
  refine ⟨s, _, h1, h2, C70_eval realFns s x azi, ?_⟩
  rw [C71_eval z h x, h2]
  congr 1
  apply Finset.sum_congr rfl
  intro l hl
  have hl' := Finset.mem_range.1 hl
  rw [Finset.sum_eq_single 0]
  · rw [h3 l (List.mem_range.2 hl'), shCoeff_zero, Basis.C64_overloads]
    have hk : Real.sqrt (4 * Real.pi / (2 * (l : ℝ) + 1)) * knorm realFns l 0 = 1 := by
      unfold knorm zprod
      simp only [realFns, Nat.mul_zero, List.range_zero, List.foldl_nil, ite_self, div_one, one_mul]
      rw [← Real.sqrt_mul (by positivity)]
      have : 4 * Real.pi / (2 * (l : ℝ) + 1) * ((2 * (l : ℝ) + 1) / (4 * Real.pi)) = 1 := by
        have := Real.pi_pos.ne'
        have : (2 * (l : ℝ) + 1) ≠ 0 := by positivity
        field_simp
      rw [this, Real.sqrt_one]
    linear_combination (-(z.c l * Basis.legendre (l : ℤ) x)) * hk
  · intro m hm hm0
    rw [h4, SH.new]
    · simp
    · intro a _ hc
      obtain ⟨e1, e2⟩ := Finset.mem_Icc.1 hm
      exact hm0 (idx_inj a l 0 m (by omega) (by omega) e1 e2 hc).2.symm
  · intro hc
    exact absurd (Finset.mem_Icc.2 ⟨by omega, by omega⟩) hc

/-- **C71, refuted for the reverse conversion**: band `l` of the zonal function made from the spherical
function made from `z` is `z.c l` times `√(4π/(2l+1)) √((2l-1)/4π)`, which is never `z.c l` for a non-zero
coefficient (for `l = 0` the square root is of a negative number: NaN in floating point, 0 here). -/
theorem C71_roundtrip_refuted (z : ZH ℝ) (l : ℕ) (hl : l < z.bands) (hc : z.c l ≠ 0) :
    ∃ s t, SH.ofZH realFns z = some s ∧ ZH.ofSH realFns s = some t ∧ t.c l ≠ z.c l := by
  obtain ⟨s, h1, h2, h3, h4⟩ := fold_put (K := ℝ) (fun l : ℕ => idx l 0)
    (fun l _ => z.c l * Real.sqrt (4 * Real.pi / (2 * (l : ℝ) + 1)))
    (fun (s : SH ℝ) (l : ℕ) => do
      let p ← z.get l
      s.put (idx l 0) (p * Real.sqrt (4 * Real.pi / (2 * (l : ℝ) + 1)))) z.bands (List.range z.bands)
    (SH.new z.bands) rfl
    ((List.nodup_range).map fun a b hab =>
      (idx_inj a b 0 0 (by omega) (by omega) (by omega) (by omega) hab).1)
    (by
      intro t l ht hl
      have hl' := List.mem_range.1 hl
      rw [zget hl']
      simp only [Option.bind_eq_bind, Option.bind_some]
      rw [put_of]
      have := idx_bound z.bands l 0 hl' (by omega) (by omega)
      unfold SH.size; rw [ht]; exact this)
  have loop : ∀ n ≤ s.bands, ∃ t : ZH ℝ, (List.range n).foldlM (fun (z : ZH ℝ) (l : ℕ) => do
      let a ← s.coeff l 0
      z.put l (a * realFns.sqrt ((2 * (l : ℝ) - 1) / (4 * realFns.pi)))) ⟨s.bands, fun _ => 0⟩ = some t ∧
      t.bands = s.bands ∧ ∀ l < n, t.c l = s.c (idx l 0) * Real.sqrt ((2 * (l : ℝ) - 1) / (4 * Real.pi)) := by
    intro n
    induction n with
    | zero => intro _; exact ⟨_, rfl, rfl, by omega⟩
    | succ n ih =>
      intro hn
      obtain ⟨t, ht, hb, hc⟩ := ih (by omega)
      refine ⟨{ t with c := Function.update t.c n (s.c (idx n 0) * Real.sqrt ((2 * (n : ℝ) - 1) / (4 * Real.pi))) },
        ?_, hb, ?_⟩
      · rw [List.range_succ, List.foldlM_append, ht]
        simp only [Option.bind_eq_bind, Option.bind_some, List.foldlM_cons, List.foldlM_nil]
        rw [C24_access s n 0 (by omega) (by simp)]
        simp only [Option.bind_some]
        rw [zput _ (by omega : n < t.bands)]
        rfl
      · intro l hl
        simp only
        by_cases e : l = n
        · subst e; rw [Function.update_self]
        · rw [Function.update_of_ne e]; exact hc l (by omega)
  obtain ⟨t, ht, _, htc⟩ := loop s.bands le_rfl
  refine ⟨s, t, h1, ht, ?_⟩
  rw [htc l (by omega), h3 l (List.mem_range.2 hl)]
  intro he
  have hsq : Real.sqrt (4 * Real.pi / (2 * (l : ℝ) + 1)) * Real.sqrt ((2 * (l : ℝ) - 1) / (4 * Real.pi)) = 1 := by
    apply mul_left_cancel₀ hc
    rw [← mul_assoc]; simpa using he
  rw [← Real.sqrt_mul (by positivity)] at hsq
  have hpi := Real.pi_pos.ne'
  have hl1 : (2 * (l : ℝ) + 1) ≠ 0 := by positivity
  have e : 4 * Real.pi / (2 * (l : ℝ) + 1) * ((2 * (l : ℝ) - 1) / (4 * Real.pi)) =
      (2 * (l : ℝ) - 1) / (2 * l + 1) := by field_simp
  rw [e] at hsq
  have hlt : (2 * (l : ℝ) - 1) / (2 * l + 1) < 1 := by
    rw [div_lt_one (by positivity)]; linarith
  have : Real.sqrt ((2 * (l : ℝ) - 1) / (2 * l + 1)) < Real.sqrt 1 := Real.sqrt_lt_sqrt_iff_of_pos one_pos |>.2 hlt
  rw [Real.sqrt_one] at this
  linarith

/-- **C71, refuted for `dot` with a kernel of fewer bands**: the loop runs over the bands of the left
operand and reads past the end of the right one. -/
theorem C71_dot_refuted (z o : ZH K) (h : o.bands < z.bands) : z.dot o = none := by
  unfold ZH.dot
  have : ∀ n, o.bands < n → n ≤ z.bands → ∀ a : K, (List.range n).foldlM (fun (sum : K) (i : ℕ) => do
      let a ← z.get i
      let b ← o.get i
      some (sum + a * b)) a = none := by
    intro n
    induction n with
    | zero => intro h; omega
    | succ n ih =>
      intro h1 h2 a
      rw [List.range_succ, List.foldlM_append]
      rcases Nat.lt_or_ge o.bands n with hlt | hge
      · rw [ih hlt (by omega)]; rfl
      · have hn : n = o.bands := by omega
        cases hr : (List.range n).foldlM (fun (sum : K) (i : ℕ) => do
          let a ← z.get i
          let b ← o.get i
          some (sum + a * b)) a with
        | none => rfl
        | some v =>
          have hog : o.get n = none := if_neg (by omega)
          simp only [Option.bind_eq_bind, Option.bind_some, List.foldlM_cons, hog, Option.bind_none,
            Option.bind_fun_none]
  exact this _ h le_rfl 0

/-- **C71, refuted for `project`**: with two bands the linear coefficient comes out as
`val·(3x² - 1/2)`, not `val·x`: the loop overwrites coefficient `i` with the polynomial of the next
degree, computed with a misplaced division. -/
theorem C71_project_refuted (z : ZH K) (h : z.bands = 2) (x val : K) :
    ∃ t, z.project x val = some t ∧ t.c 1 = val * (3 * x * x - 1 / 2) := by
  unfold ZH.project
  rw [zput _ (by omega : 0 < z.bands)]
  simp only [Option.bind_eq_bind, Option.bind_some, h]
  rw [if_pos (by norm_num), zput _ (by norm_num)]
  simp only [Option.bind_some, h, List.range'_succ, List.range'_zero, List.foldlM_cons, List.foldlM_nil]
  rw [zput _ (by norm_num)]
  refine ⟨_, rfl, ?_⟩
  simp only [Function.update_self]
  push_cast
  ring

example : (ZH.project ⟨2, fun _ => (0 : ℚ)⟩ (1 / 2) 1).map (fun t => t.c 1) = some (1 / 4) := by decide +kernel
example : ZH.eval ⟨3, fun _ => (1 : ℚ)⟩ 2 = some (1 + 2 + 11 / 2) := by decide +kernel

end Geomc.SH
