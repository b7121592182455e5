import Verif.LU.Decomp

/-!
# C32, C33 (general size), C34 (general size)
-/

namespace Geomc.LU

open Geomc.Mtx (permutationApply C72_apply)

variable {K : Type} [Field K] [LinearOrder K] [IsStrictOrderedRing K]

/-! ### Forward substitution -/

omit [LinearOrder K] [IsStrictOrderedRing K] in
theorem fwdInner (X M : ℕ → ℕ → K) (r i r' i' : ℕ) :
    loop r (fun c X => put X r i (X r i - X c i * M r c)) X r' i' =
      if r' = r ∧ i' = i then X r i - ∑ c ∈ Finset.range r, X c i * M r c else X r' i' := by
  have key := loop_inv (n := r) (f := fun c X => put X r i (X r i - X c i * M r c)) (s := X)
    (fun k Y => ∀ r' i', Y r' i' =
      if r' = r ∧ i' = i then X r i - ∑ c ∈ Finset.range k, X c i * M r c else X r' i')
    (fun r' i' => by
      split_ifs with h
      · rw [h.1, h.2]
        simp
      · rfl) (by
      intro k hk Y hY r' i'
      by_cases h : r' = r ∧ i' = i
      · obtain ⟨rfl, rfl⟩ := h
        rw [put_self, if_pos ⟨rfl, rfl⟩, hY, if_pos ⟨rfl, rfl⟩, hY, if_neg (by omega), Finset.sum_range_succ]
        ring
      · rw [put_of_ne _ _ h, if_neg h, hY, if_neg h])
  exact key r' i'

omit [LinearOrder K] [IsStrictOrderedRing K] in
theorem fwdRow (X M : ℕ → ℕ → K) (m r r' i' : ℕ) :
    loop m (fun i X => loop r (fun c X => put X r i (X r i - X c i * M r c)) X) X r' i' =
      if r' = r ∧ i' < m then X r i' - ∑ c ∈ Finset.range r, X c i' * M r c else X r' i' := by
  have key := loop_inv (n := m)
    (f := fun i X => loop r (fun c X => put X r i (X r i - X c i * M r c)) X) (s := X)
    (fun k Y => ∀ r' i', Y r' i' =
      if r' = r ∧ i' < k then X r i' - ∑ c ∈ Finset.range r, X c i' * M r c else X r' i')
    (fun r' i' => by rw [if_neg (by omega)]) (by
      intro k hk Y hY r' i'
      rw [fwdInner]
      by_cases h : r' = r ∧ i' = k
      · obtain ⟨rfl, rfl⟩ := h
        rw [if_pos ⟨rfl, rfl⟩, if_pos ⟨rfl, by omega⟩, hY, if_neg (by omega)]
        congr 1
        refine Finset.sum_congr rfl (fun c hc => ?_)
        rw [Finset.mem_range] at hc
        rw [hY, if_neg (by omega)]
      · rw [if_neg h, hY]
        exact if_congr (by omega) rfl rfl)
  exact key r' i'

omit [LinearOrder K] [IsStrictOrderedRing K] in
theorem forwardLu_spec (M X : ℕ → ℕ → K) (n m r : ℕ) (hr : r < n) (i : ℕ) (hi : i < m) :
    forwardLu M n m X r i + ∑ c ∈ Finset.range r, forwardLu M n m X c i * M r c = X r i := by
  have key := loopFrom_inv (lo := 1) (hi := n) (f := fun r X => loop m (fun i X =>
      loop r (fun c X => put X r i (X r i - X c i * M r c)) X) X) (s := X)
    (fun k Y => ∀ i < m, (∀ r < k, Y r i + ∑ c ∈ Finset.range r, Y c i * M r c = X r i) ∧
      ∀ r, k ≤ r → Y r i = X r i) (by omega)
    (fun i hi => ⟨fun r hr => by
      obtain rfl : r = 0 := by omega
      simp, fun _ _ => rfl⟩) (by
      intro k hk1 hk Y hY i hi
      obtain ⟨h1, h2⟩ := hY i hi
      have step : ∀ r, r ≠ k → loop m (fun i X => loop k (fun c X => put X k i (X k i - X c i * M k c)) X) Y r i
          = Y r i := fun r hr => by rw [fwdRow, if_neg (fun h => hr h.1)]
      refine ⟨fun r hr => ?_, fun r hr => ?_⟩
      · have hsum : ∑ c ∈ Finset.range r, loop m (fun i X => loop k (fun c X =>
            put X k i (X k i - X c i * M k c)) X) Y c i * M r c = ∑ c ∈ Finset.range r, Y c i * M r c := by
          refine Finset.sum_congr rfl (fun c hc => ?_)
          rw [Finset.mem_range] at hc
          rw [step c (by omega)]
        rw [hsum]
        by_cases hrk : r = k
        · subst hrk
          rw [fwdRow, if_pos ⟨rfl, hi⟩, h2 r le_rfl]
          ring
        · rw [step r hrk]
          exact h1 r (by omega)
      · rw [step r (by omega)]
        exact h2 r (by omega))
  exact (key i hi).1 r hr

omit [LinearOrder K] [IsStrictOrderedRing K] in
theorem pluRow (X M B : ℕ → ℕ → K) (p : ℕ → ℕ) (m r r' i' : ℕ) :
    loop m (fun i X => loop r (fun c X => put X r i (X r i - X c i * M r c)) (put X r i (B (p r) i))) X r' i' =
      if r' = r ∧ i' < m then B (p r) i' - ∑ c ∈ Finset.range r, X c i' * M r c else X r' i' := by
  have key := loop_inv (n := m) (f := fun i X =>
      loop r (fun c X => put X r i (X r i - X c i * M r c)) (put X r i (B (p r) i))) (s := X)
    (fun k Y => ∀ r' i', Y r' i' =
      if r' = r ∧ i' < k then B (p r) i' - ∑ c ∈ Finset.range r, X c i' * M r c else X r' i')
    (fun r' i' => by rw [if_neg (by omega)]) (by
      intro k hk Y hY r' i'
      rw [fwdInner]
      by_cases h : r' = r ∧ i' = k
      · obtain ⟨rfl, rfl⟩ := h
        rw [if_pos ⟨rfl, rfl⟩, if_pos ⟨rfl, by omega⟩, put_self]
        congr 1
        refine Finset.sum_congr rfl (fun c hc => ?_)
        rw [Finset.mem_range] at hc
        rw [put_of_ne _ _ (by omega), hY, if_neg (by omega)]
      · rw [if_neg h, put_of_ne _ _ h, hY]
        exact if_congr (by omega) rfl rfl)
  exact key r' i'

omit [LinearOrder K] [IsStrictOrderedRing K] in
theorem forwardPlu_spec (M B X : ℕ → ℕ → K) (p : ℕ → ℕ) (n m r : ℕ) (hr : r < n) (i : ℕ) (hi : i < m) :
    forwardPlu M p n m B X r i + ∑ c ∈ Finset.range r, forwardPlu M p n m B X c i * M r c = B (p r) i := by
  have key := loop_inv (n := n) (f := fun r X => loop m (fun i X =>
      loop r (fun c X => put X r i (X r i - X c i * M r c)) (put X r i (B (p r) i))) X) (s := X)
    (fun k Y => ∀ i < m, ∀ r < k, Y r i + ∑ c ∈ Finset.range r, Y c i * M r c = B (p r) i)
    (fun i hi r hr => by omega) (by
      intro k hk Y hY i hi r hr
      have step : ∀ r, r ≠ k → loop m (fun i X => loop k (fun c X => put X k i (X k i - X c i * M k c))
          (put X k i (B (p k) i))) Y r i = Y r i := fun r hr => by rw [pluRow, if_neg (fun h => hr h.1)]
      have hsum : ∑ c ∈ Finset.range r, loop m (fun i X => loop k (fun c X =>
          put X k i (X k i - X c i * M k c)) (put X k i (B (p k) i))) Y c i * M r c
          = ∑ c ∈ Finset.range r, Y c i * M r c := by
        refine Finset.sum_congr rfl (fun c hc => ?_)
        rw [Finset.mem_range] at hc
        rw [step c (by omega)]
      rw [hsum]
      by_cases hrk : r = k
      · subst hrk
        rw [pluRow, if_pos ⟨rfl, hi⟩]
        ring
      · rw [step r hrk]
        exact hY i hi r (by omega))
  exact key i hi r hr

/-! ### Backward substitution -/

omit [LinearOrder K] [IsStrictOrderedRing K] in
theorem bwdInner (X M : ℕ → ℕ → K) (n r i : ℕ) (r' i' : ℕ) :
    loop (n - 1 - r) (fun u X => put X r i (X r i - X (n - 1 - u) i * M r (n - 1 - u))) X r' i' =
      if r' = r ∧ i' = i then X r i - ∑ c ∈ Finset.Ico (r + 1) n, X c i * M r c else X r' i' := by
  have key := loop_inv (n := n - 1 - r)
    (f := fun u X => put X r i (X r i - X (n - 1 - u) i * M r (n - 1 - u))) (s := X)
    (fun k Y => ∀ r' i', Y r' i' = if r' = r ∧ i' = i then
        X r i - ∑ u ∈ Finset.range k, X (n - 1 - u) i * M r (n - 1 - u) else X r' i')
    (fun r' i' => by
      split_ifs with h
      · rw [h.1, h.2]
        simp
      · rfl) (by
      intro k hk Y hY r' i'
      by_cases h : r' = r ∧ i' = i
      · obtain ⟨rfl, rfl⟩ := h
        rw [put_self, if_pos ⟨rfl, rfl⟩, hY, if_pos ⟨rfl, rfl⟩, hY, if_neg (by omega), Finset.sum_range_succ]
        ring
      · rw [put_of_ne _ _ h, if_neg h, hY, if_neg h])
  rw [key r' i']
  refine if_congr Iff.rfl ?_ rfl
  congr 1
  rw [Finset.sum_Ico_eq_sum_range, show n - (r + 1) = n - 1 - r by omega,
    ← Finset.sum_range_reflect (fun k => X (r + 1 + k) i * M r (r + 1 + k))]
  refine Finset.sum_congr rfl (fun u hu => ?_)
  rw [Finset.mem_range] at hu
  rw [show r + 1 + (n - 1 - r - 1 - u) = n - 1 - u by omega]

/-- One row of the backward substitution. -/
theorem bwdRow (X M : ℕ → ℕ → K) (n m r : ℕ) (hM : M r r ≠ 0 ∨ m = 0) :
    ∃ Z, loopM m (fun i X =>
      let X := loop (n - 1 - r) (fun u X =>
        let c := n - 1 - u
        put X r i (X r i - X c i * M r c)) X
      if M r r = 0 then none else some (put X r i (X r i / M r r))) X = some Z ∧
      ∀ r' i', Z r' i' = if r' = r ∧ i' < m then
        (X r i' - ∑ c ∈ Finset.Ico (r + 1) n, X c i' * M r c) / M r r else X r' i' := by
  refine loopM_inv (n := m) (fun k (Y : ℕ → ℕ → K) => ∀ r' i', Y r' i' = if r' = r ∧ i' < k then
        (X r i' - ∑ c ∈ Finset.Ico (r + 1) n, X c i' * M r c) / M r r else X r' i')
    (fun r' i' => by rw [if_neg (by omega)]) ?_
  intro k hk Y hY
  refine ⟨_, if_neg (hM.resolve_right (by omega)), fun r' i' => ?_⟩
  by_cases h : r' = r ∧ i' = k
  · obtain ⟨rfl, rfl⟩ := h
    rw [put_self, if_pos ⟨rfl, by omega⟩]
    simp only
    rw [bwdInner Y M n r' i', if_pos ⟨rfl, rfl⟩, hY, if_neg (by omega)]
    congr 2
    refine Finset.sum_congr rfl (fun c hc => ?_)
    rw [Finset.mem_Ico] at hc
    rw [hY, if_neg (by omega)]
  · rw [put_of_ne _ _ h]
    simp only
    rw [bwdInner Y M n r k, if_neg h, hY]
    exact if_congr (by omega) rfl rfl

theorem backward_spec (M Y : ℕ → ℕ → K) (n m skip : ℕ) (hs : skip ≤ n)
    (hM : ∀ r, skip ≤ r → r < n → M r r ≠ 0 ∨ m = 0) :
    ∃ Z, backward M n m skip Y = some Z ∧
      ∀ i < m, (∀ r, skip ≤ r → r < n → ∑ c ∈ Finset.Ico r n, M r c * Z c i = Y r i) ∧
        ∀ r < skip, Z r i = Y r i := by
  obtain ⟨Z, e, hZ⟩ := loopM_inv (n := n - skip) (f := fun t X =>
    let r := n - 1 - t
    loopM m (fun i X =>
      let X := loop (n - 1 - r) (fun u X =>
        let c := n - 1 - u
        put X r i (X r i - X c i * M r c)) X
      if M r r = 0 then none else some (put X r i (X r i / M r r))) X) (s := Y)
    (fun t X => ∀ i < m, (∀ r, n - t ≤ r → r < n → ∑ c ∈ Finset.Ico r n, M r c * X c i = Y r i) ∧
        ∀ r < n - t, X r i = Y r i)
    (fun i hi => ⟨fun r h h' => by omega, fun _ _ => rfl⟩) (by
      intro t ht X hX
      obtain ⟨W, e, hW⟩ := bwdRow X M n m (n - 1 - t) (hM _ (by omega) (by omega))
      refine ⟨W, e, fun i hi => ⟨fun r hr hrn => ?_, fun r hr => ?_⟩⟩
      · obtain ⟨h1, h2⟩ := hX i hi
        have hne : M (n - 1 - t) (n - 1 - t) ≠ 0 := (hM _ (by omega) (by omega)).resolve_right (by omega)
        have tail : ∀ r', n - 1 - t < r' → ∀ s, ∑ c ∈ Finset.Ico r' n, M s c * W c i =
            ∑ c ∈ Finset.Ico r' n, M s c * X c i := by
          intro r' hr' s
          refine Finset.sum_congr rfl (fun c hc => ?_)
          rw [Finset.mem_Ico] at hc
          rw [hW, if_neg (by omega)]
        by_cases hrt : r = n - 1 - t
        · rw [Finset.sum_eq_sum_Ico_succ_bot hrn, tail (r + 1) (by omega), hrt, hW, if_pos ⟨rfl, hi⟩,
            mul_div_cancel₀ _ hne, h2 _ (by omega)]
          have : ∑ c ∈ Finset.Ico (n - 1 - t + 1) n, X c i * M (n - 1 - t) c =
              ∑ c ∈ Finset.Ico (n - 1 - t + 1) n, M (n - 1 - t) c * X c i :=
            Finset.sum_congr rfl (fun c _ => mul_comm _ _)
          rw [this]
          ring
        · rw [tail r (by omega)]
          exact h1 r (by omega) hrn
      · obtain ⟨-, h2⟩ := hX i hi
        rw [hW, if_neg (by omega)]
        exact h2 r (by omega))
  refine ⟨Z, e, fun i hi => ?_⟩
  have := hZ i hi
  rwa [show n - (n - skip) = skip by omega] at this

theorem backward_none (M Y : ℕ → ℕ → K) {n m skip r : ℕ} (hr : skip ≤ r) (hrn : r < n) (hm : 0 < m)
    (h : M r r = 0) : backward M n m skip Y = none := by
  unfold backward
  refine loopM_none (k := n - 1 - r) (by omega) (fun X => ?_)
  refine loopM_none (k := 0) hm (fun X => ?_)
  simp only
  rw [show n - 1 - (n - 1 - r) = r by omega, if_pos h]

/-! ### Matrices -/

omit [LinearOrder K] [IsStrictOrderedRing K] in
theorem lower_mul_view (M Y : ℕ → ℕ → K) (n m : ℕ) (r : Fin n) (i : Fin m) :
    (lower M n n * view Y n m) r i = Y r i + ∑ c ∈ Finset.range r, Y c i * M r c := by
  rw [Matrix.mul_apply]
  have h1 : ∀ k : Fin n, lower M n n r k * view Y n m k i =
      (fun k : ℕ => (if k = r then Y r i else 0) + if k < r then Y k i * M r k else 0) k := by
    intro k
    simp only [lower, view, Matrix.of_apply]
    by_cases h1 : (k : ℕ) < r
    · rw [if_pos h1, if_neg (show ¬ (k : ℕ) = r by omega), if_pos h1, zero_add, mul_comm]
    · rw [if_neg h1, if_neg h1]
      by_cases h2 : (k : ℕ) = r
      · rw [if_pos h2, if_pos h2, one_mul, h2, add_zero]
      · rw [if_neg h2, if_neg h2, zero_mul, add_zero]
  rw [Finset.sum_congr rfl (fun k _ => h1 k), Fin.sum_univ_eq_sum_range (fun k : ℕ =>
    (if k = (r : ℕ) then Y r i else 0) + if k < r then Y k i * M r k else 0) n, Finset.sum_add_distrib,
    Finset.sum_ite_eq' (Finset.range n), if_pos (Finset.mem_range.2 r.2), ← Finset.sum_filter]
  congr 1
  refine Finset.sum_congr ?_ (fun _ _ => rfl)
  ext k
  simp only [Finset.mem_filter, Finset.mem_range]
  omega

omit [LinearOrder K] [IsStrictOrderedRing K] in
theorem upper_mul_view (M Y : ℕ → ℕ → K) (n m : ℕ) (r : Fin n) (i : Fin m) :
    (upper M n n * view Y n m) r i = ∑ c ∈ Finset.Ico (r : ℕ) n, M r c * Y c i := by
  rw [Matrix.mul_apply]
  have h1 : ∀ k : Fin n, upper M n n r k * view Y n m k i =
      (fun k : ℕ => if (r : ℕ) ≤ k then M r k * Y k i else 0) k := by
    intro k
    simp only [upper, view, Matrix.of_apply, ite_mul, zero_mul]
  rw [Finset.sum_congr rfl (fun k _ => h1 k), Fin.sum_univ_eq_sum_range (fun k : ℕ =>
    if (r : ℕ) ≤ k then M r k * Y k i else 0) n, ← Finset.sum_filter]
  refine Finset.sum_congr ?_ (fun _ _ => rfl)
  ext k
  simp only [Finset.mem_filter, Finset.mem_range, Finset.mem_Ico]
  omega

/-- The substitutions together: `L U Z = T` when nothing is skipped, and otherwise the solved rows are those of the
solution. -/
theorem substitute {M Y Z : ℕ → ℕ → K} {n m skip : ℕ} {T : Matrix (Fin n) (Fin m) K}
    (hY : ∀ (r : Fin n) (i : Fin m), Y r i + ∑ c ∈ Finset.range r, Y c i * M r c = T r i)
    (hZ : ∀ i < m, (∀ r, skip ≤ r → r < n → ∑ c ∈ Finset.Ico r n, M r c * Z c i = Y r i) ∧
        ∀ r < skip, Z r i = Y r i) :
    (skip = 0 → lower M n n * upper M n n * view Z n m = T) ∧
    ∀ S : Matrix (Fin n) (Fin m) K, lower M n n * upper M n n * S = T →
      (∀ r, skip ≤ r → r < n → M r r ≠ 0) → ∀ (r : Fin n) (i : Fin m), skip ≤ (r : ℕ) → Z r i = S r i := by
  have hLY : lower M n n * view Y n m = T := by
    ext r i
    rw [lower_mul_view, hY]
  have hUZ : ∀ (r : Fin n) (i : Fin m), skip ≤ (r : ℕ) → (upper M n n * view Z n m) r i = view Y n m r i := by
    intro r i hr
    rw [upper_mul_view, (hZ i i.2).1 r hr r.2]
    rfl
  refine ⟨fun h0 => ?_, fun S hS hne => ?_⟩
  · have : upper M n n * view Z n m = view Y n m := by
      ext r i
      exact hUZ r i (by omega)
    rw [Matrix.mul_assoc, this, hLY]
  · have hUS : upper M n n * S = view Y n m := by
      have h1 : lower M n n * (upper M n n * S) = lower M n n * view Y n m := by
        rw [← Matrix.mul_assoc, hS, hLY]
      have hu : IsUnit (lower M n n).det := by
        rw [lower_det]
        exact isUnit_one
      have := congrArg ((lower M n n)⁻¹ * ·) h1
      simpa only [Matrix.nonsing_inv_mul_cancel_left _ _ hu] using this
    -- the two agree from the last row upwards
    have down : ∀ d (r : Fin n), n - 1 - (r : ℕ) = d → ∀ i : Fin m, skip ≤ (r : ℕ) → Z r i = S r i := by
      intro d
      induction d using Nat.strong_induction_on with
      | _ d ih =>
        intro r hd i hr
        have e1 := hUZ r i hr
        rw [← hUS, Matrix.mul_apply, Matrix.mul_apply,
          Finset.sum_eq_add_sum_sdiff_singleton_of_mem (Finset.mem_univ r),
          Finset.sum_eq_add_sum_sdiff_singleton_of_mem (Finset.mem_univ r) (fun k => upper M n n r k * S k i)] at e1
        have e2 : ∑ k ∈ Finset.univ \ {r}, upper M n n r k * view Z n m k i =
            ∑ k ∈ Finset.univ \ {r}, upper M n n r k * S k i := by
          refine Finset.sum_congr rfl (fun k hk => ?_)
          simp only [Finset.mem_sdiff, Finset.mem_univ, Finset.mem_singleton, true_and] at hk
          have hk' : (k : ℕ) ≠ r := fun h => hk (Fin.ext h)
          by_cases hkr : (r : ℕ) ≤ k
          · congr 1
            exact ih (n - 1 - k) (by omega) k rfl i (by omega)
          · simp only [upper, Matrix.of_apply, if_neg hkr, zero_mul]
        rw [e2] at e1
        have e3 := add_right_cancel e1
        have hrr : upper M n n r r = M r r := by simp [upper]
        rw [hrr] at e3
        exact mul_left_cancel₀ (hne r hr r.2) e3
    exact fun r i hr => down _ r rfl i hr

/-! ### C32 -/

/-- Every outcome of `linear_solve`. -/
theorem linearSolve_cases (A X : ℕ → ℕ → K) (n m skip : ℕ) (hs : skip ≤ n) :
    ((decompPlu A n n).bad ≠ 0 ∧ linearSolve A n m X skip = some (false, X)) ∨
    ((decompPlu A n n).bad = 0 ∧ (∃ r, skip ≤ r ∧ r < n ∧ (decompPlu A n n).A r r = 0) ∧ 0 < m ∧
      linearSolve A n m X skip = none) ∨
    ((decompPlu A n n).bad = 0 ∧ (∀ r, skip ≤ r → r < n → (decompPlu A n n).A r r ≠ 0 ∨ m = 0) ∧
      ∃ Z, linearSolve A n m X skip = some (true, Z) ∧ (skip = 0 → view A n n * view Z n m = view X n m) ∧
        ((view A n n).det ≠ 0 → ∀ (r : Fin n) (i : Fin m), skip ≤ (r : ℕ) →
          Z r i = ((view A n n)⁻¹ * view X n m) r i)) := by
  by_cases hb : (decompPlu A n n).bad = 0
  · refine Or.inr ?_
    obtain ⟨σ, hσ, -, he⟩ := C31_plu A (le_refl n)
    obtain ⟨p', X', ea, hX', -⟩ := C72_apply σ _ hσ X
    have hred : linearSolve A n m X skip = (backsolveLu (decompPlu A n n).A n m X' skip).bind
        (fun X => some (true, X)) := by
      unfold linearSolve
      simp only [hb, lt_irrefl, if_false, ea]
      rfl
    by_cases hall : ∀ r, skip ≤ r → r < n → (decompPlu A n n).A r r ≠ 0 ∨ m = 0
    · refine Or.inr ⟨hb, hall, ?_⟩
      obtain ⟨Z, eZ, hZ⟩ := backward_spec (decompPlu A n n).A (forwardLu (decompPlu A n n).A n m X') n m skip hs hall
      have hsub := substitute (T := (view X n m).submatrix σ id)
        (fun r i => by
          rw [forwardLu_spec _ _ n m r r.2 i i.2, hX' r r.2, hσ]
          rfl) hZ
      rw [he] at hsub
      refine ⟨Z, ?_, fun h0 => ?_, fun hdet r i hr => ?_⟩
      · rw [hred]
        unfold backsolveLu
        rw [eZ]
        rfl
      · have h1 := hsub.1 h0
        ext r i
        have h2 := congrFun (congrFun h1 (σ⁻¹ r)) i
        rw [Matrix.mul_apply] at h2 ⊢
        simpa using h2
      · refine hsub.2 ((view A n n)⁻¹ * view X n m) ?_ ?_ r i hr
        · ext r i
          rw [Matrix.mul_apply]
          have : view A n n * ((view A n n)⁻¹ * view X n m) = view X n m :=
            Matrix.mul_nonsing_inv_cancel_left _ _ (isUnit_iff_ne_zero.2 hdet)
          have h2 := congrFun (congrFun this (σ r)) i
          rw [Matrix.mul_apply] at h2
          simpa using h2
        · intro r _ hrn
          exact (plu_det_ne_zero A n).1 hdet r hrn
    · refine Or.inl ?_
      push Not at hall
      obtain ⟨r, h1, h2, h3, h4⟩ := hall
      refine ⟨hb, ⟨r, h1, h2, h3⟩, by omega, ?_⟩
      rw [hred]
      unfold backsolveLu
      rw [backward_none _ _ h1 h2 (by omega) h3]
      rfl
  · refine Or.inl ⟨hb, ?_⟩
    unfold linearSolve
    simp only
    rw [if_pos (Nat.pos_of_ne_zero hb)]

/-- **C32**: when `linear_solve` reports success with finite numbers, the result solves the system. -/
theorem C32_sound {A X Z : ℕ → ℕ → K} {n m : ℕ} (h : linearSolve A n m X 0 = some (true, Z)) :
    view A n n * view Z n m = view X n m := by
  rcases linearSolve_cases A X n m 0 (Nat.zero_le n) with ⟨-, e⟩ | ⟨-, -, -, e⟩ | ⟨-, -, Z', e, h1, -⟩
  · rw [e] at h
    exact absurd h (by simp)
  · rw [e] at h
    exact absurd h (by simp)
  · rw [e] at h
    obtain rfl : Z' = Z := by simpa using h
    exact h1 rfl

/-- **C32**: a nonsingular system is always solved: every row which is not skipped holds the solution. -/
theorem C32_complete (A X : ℕ → ℕ → K) {n m skip : ℕ} (hs : skip ≤ n) (h : (view A n n).det ≠ 0) :
    ∃ Z, linearSolve A n m X skip = some (true, Z) ∧
      ∀ (r : Fin n) (i : Fin m), skip ≤ (r : ℕ) → Z r i = ((view A n n)⁻¹ * view X n m) r i := by
  rcases linearSolve_cases A X n m skip hs with ⟨hb, -⟩ | ⟨-, ⟨r, -, hr, h0⟩, -, -⟩ | ⟨-, -, Z', e, -, h2⟩
  · exact absurd (C31_degenerate A n hb) h
  · exact absurd h0 ((plu_det_ne_zero A n).1 h r hr)
  · exact ⟨Z', e, h2 h⟩

/-- **C32**: failure means that the matrix is singular, and leaves the right-hand side as it was. -/
theorem C32_failure {A X Z : ℕ → ℕ → K} {n m skip : ℕ} (hs : skip ≤ n)
    (h : linearSolve A n m X skip = some (false, Z)) : (view A n n).det = 0 ∧ Z = X := by
  rcases linearSolve_cases A X n m skip hs with ⟨hb, e⟩ | ⟨-, -, -, e⟩ | ⟨-, -, Z', e, -, -⟩
  · rw [e] at h
    exact ⟨C31_degenerate A n hb, by simpa using h.symm⟩
  · rw [e] at h
    exact absurd h (by simp)
  · rw [e] at h
    exact absurd h (by simp)

/-- **C32** refuted for singular matrices: they are reported exactly when a pivot before the last vanishes;
otherwise the last pivot is zero and is divided by. -/
theorem C32_singular_iff (A X : ℕ → ℕ → K) {n m : ℕ} (hm : 0 < m) (h : (view A n n).det = 0) :
    (linearSolve A n m X 0 = some (false, X) ↔ ∃ i, i + 1 < n ∧ (decompPlu A n n).A i i = 0) ∧
    (linearSolve A n m X 0 = none ↔ ∀ i, i + 1 < n → (decompPlu A n n).A i i ≠ 0) := by
  have hbad : (decompPlu A n n).bad ≠ 0 ↔ ∃ i, i + 1 < n ∧ (decompPlu A n n).A i i = 0 := by
    rw [C31_plu_count, min_self, Finset.card_ne_zero]
    constructor
    · rintro ⟨i, hi⟩
      rw [Finset.mem_filter, Finset.mem_range] at hi
      exact ⟨i, by omega, hi.2⟩
    · rintro ⟨i, hi, h0⟩
      exact ⟨i, Finset.mem_filter.2 ⟨Finset.mem_range.2 (by omega), h0⟩⟩
  have hno : (∀ i, i + 1 < n → (decompPlu A n n).A i i ≠ 0) ↔ ¬ ∃ i, i + 1 < n ∧ (decompPlu A n n).A i i = 0 := by
    push Not
    rfl
  rw [hno, ← hbad]
  rcases linearSolve_cases A X n m 0 (Nat.zero_le n) with ⟨hb, e⟩ | ⟨hb, -, -, e⟩ | ⟨hb, hall, -⟩
  · simp [e, hb]
  · simp [e, hb]
  · exfalso
    have := (plu_det_ne_zero A n).2 (fun i hi => (hall i (Nat.zero_le i) hi).resolve_right (by omega))
    exact this h

/-- **C32** refuted: the `1 × 1` zero matrix and a `2 × 2` matrix of rank one are not reported. -/
theorem C32_singular_refuted :
    (view (fun _ _ => (0 : ℚ)) 1 1).det = 0 ∧ linearSolve (fun _ _ => (0 : ℚ)) 1 1 (fun _ _ => 1) 0 = none ∧
    (view (fun r c => ((r + 1) * (c + 1) : ℚ)) 2 2).det = 0 ∧
      linearSolve (fun r c => ((r + 1) * (c + 1) : ℚ)) 2 1 (fun _ _ => 1) 0 = none := by
  have h1 : (view (fun _ _ => (0 : ℚ)) 1 1).det = 0 := by simp [view]
  have h2 : (view (fun r c => ((r + 1) * (c + 1) : ℚ)) 2 2).det = 0 := by
    rw [Matrix.det_fin_two]
    simp [view]
  refine ⟨h1, ?_, h2, ?_⟩
  · rw [(C32_singular_iff _ _ Nat.one_pos h1).2]
    intro i hi
    omega
  · rw [(C32_singular_iff _ _ Nat.one_pos h2).2]
    intro i hi
    obtain rfl : i = 0 := by omega
    decide +kernel

/-- **C32** for `backsolve_plu`: with the factors and the index array of `decomp_plu`, it solves the system when no
pivot is zero. -/
theorem C32_backsolve_plu (A B X : ℕ → ℕ → K) {n m skip : ℕ} (hs : skip ≤ n) (h : (view A n n).det ≠ 0) :
    ∃ Z, backsolvePlu (decompPlu A n n).A (decompPlu A n n).p n m X B skip = some Z ∧
      ∀ (r : Fin n) (i : Fin m), skip ≤ (r : ℕ) → Z r i = ((view A n n)⁻¹ * view B n m) r i := by
  obtain ⟨σ, hσ, -, he⟩ := C31_plu A (le_refl n)
  have hall := (plu_det_ne_zero A n).1 h
  obtain ⟨Z, eZ, hZ⟩ := backward_spec (decompPlu A n n).A
    (forwardPlu (decompPlu A n n).A (decompPlu A n n).p n m B X) n m skip hs (fun r _ hr => Or.inl (hall r hr))
  have hsub := substitute (T := (view B n m).submatrix σ id)
    (fun r i => by
      rw [forwardPlu_spec _ _ _ _ n m r r.2 i i.2, hσ]
      rfl) hZ
  rw [he] at hsub
  refine ⟨Z, eZ, fun r i hr => hsub.2 ((view A n n)⁻¹ * view B n m) ?_ (fun r _ hr => hall r hr) r i hr⟩
  ext r i
  rw [Matrix.mul_apply]
  have : view A n n * ((view A n n)⁻¹ * view B n m) = view B n m :=
    Matrix.mul_nonsing_inv_cancel_left _ _ (isUnit_iff_ne_zero.2 h)
  have h2 := congrFun (congrFun this (σ r)) i
  rw [Matrix.mul_apply] at h2
  simpa using h2

/-! ### C33, general size -/

omit [LinearOrder K] [IsStrictOrderedRing K] in
theorem fillPerm (p : ℕ → ℕ) (n r c : ℕ) :
    loop n (fun i (o : ℕ → ℕ → K) => put o i (p i) 1) (fun _ _ => 0) r c =
      if r < n ∧ c = p r then 1 else 0 := by
  have key := loop_inv (n := n) (f := fun i (o : ℕ → ℕ → K) => put o i (p i) 1) (s := fun _ _ => 0)
    (fun k o => ∀ r c, o r c = if r < k ∧ c = p r then 1 else 0) (fun r c => by simp) (by
      intro k hk o ho r c
      by_cases h : r = k ∧ c = p k
      · obtain ⟨rfl, rfl⟩ := h
        rw [put_self, if_pos ⟨Nat.lt_succ_self _, rfl⟩]
      · rw [put_of_ne _ _ h, ho]
        refine if_congr ?_ rfl rfl
        constructor
        · exact fun ⟨h1, h2⟩ => ⟨by omega, h2⟩
        · rintro ⟨h1, h2⟩
          refine ⟨?_, h2⟩
          rcases Nat.lt_or_eq_of_le (Nat.lt_succ_iff.1 h1) with h3 | rfl
          · exact h3
          · exact absurd ⟨rfl, h2⟩ h)
  exact key r c

/-- Every outcome of `invNxN`. -/
theorem invNxN_cases (out A : ℕ → ℕ → K) (n : ℕ) :
    ((decompPlu A n n).bad ≠ 0 ∧ invNxN out A n = some (false, out)) ∨
    ((decompPlu A n n).bad = 0 ∧ (view A n n).det = 0 ∧ invNxN out A n = none) ∨
    ((decompPlu A n n).bad = 0 ∧ ∃ Z, invNxN out A n = some (true, Z) ∧ view A n n * view Z n n = 1) := by
  by_cases hb : (decompPlu A n n).bad = 0
  · refine Or.inr ?_
    have hred : invNxN out A n = (backsolveLu (decompPlu A n n).A n n
        (loop n (fun i (o : ℕ → ℕ → K) => put o i ((decompPlu A n n).p i) 1) (fun _ _ => 0)) 0).bind
          (fun X => some (true, X)) := by
      unfold invNxN
      simp only [hb, lt_irrefl, if_false]
      rfl
    by_cases hall : ∀ r < n, (decompPlu A n n).A r r ≠ 0
    · refine Or.inr ⟨hb, ?_⟩
      obtain ⟨σ, hσ, -, he⟩ := C31_plu A (le_refl n)
      obtain ⟨Z, eZ, hZ⟩ := backward_spec (decompPlu A n n).A (forwardLu (decompPlu A n n).A n n
        (loop n (fun i (o : ℕ → ℕ → K) => put o i ((decompPlu A n n).p i) 1) (fun _ _ => 0))) n n 0
        (Nat.zero_le n) (fun r _ hr => Or.inl (hall r hr))
      have hsub := (substitute (T := (1 : Matrix (Fin n) (Fin n) K).submatrix σ id)
        (fun r i => by
          rw [forwardLu_spec _ _ n n r r.2 i i.2, fillPerm, hσ]
          simp only [Matrix.submatrix_apply, Matrix.one_apply, id, Fin.ext_iff]
          refine if_congr ⟨fun h => h.2.symm, fun h => ⟨r.2, h.symm⟩⟩ rfl rfl) hZ).1 rfl
      rw [he] at hsub
      refine ⟨Z, ?_, ?_⟩
      · rw [hred]
        unfold backsolveLu
        rw [eZ]
        rfl
      · ext r i
        obtain ⟨r, rfl⟩ := σ.surjective r
        have h2 := congrFun (congrFun hsub r) i
        rw [Matrix.mul_apply] at h2 ⊢
        exact h2
    · push Not at hall
      obtain ⟨r, hr, h0⟩ := hall
      refine Or.inl ⟨hb, ?_, ?_⟩
      · by_contra hne
        exact (plu_det_ne_zero A n).1 hne r hr h0
      · rw [hred]
        unfold backsolveLu
        rw [backward_none _ _ (Nat.zero_le r) hr (by omega) h0]
        rfl
  · refine Or.inl ⟨hb, ?_⟩
    unfold invNxN
    simp only
    rw [if_pos (Nat.pos_of_ne_zero hb)]

/-- **C33**, general size: when success is reported with finite numbers, the result is the inverse on both sides. -/
theorem C33_invNxN_sound {out A Z : ℕ → ℕ → K} {n : ℕ} (h : invNxN out A n = some (true, Z)) :
    view A n n * view Z n n = 1 ∧ view Z n n * view A n n = 1 := by
  rcases invNxN_cases out A n with ⟨-, e⟩ | ⟨-, -, e⟩ | ⟨-, Z', e, h1⟩
  · rw [e] at h
    exact absurd h (by simp)
  · rw [e] at h
    exact absurd h (by simp)
  · rw [e] at h
    obtain rfl : Z' = Z := by simpa using h
    exact ⟨h1, mul_eq_one_comm.1 h1⟩

/-- **C33**, general size: nonsingular matrices are inverted; a reported failure means singular and leaves the
destination alone. -/
theorem C33_invNxN_complete (out A : ℕ → ℕ → K) (n : ℕ) :
    ((view A n n).det ≠ 0 → ∃ Z, invNxN out A n = some (true, Z)) ∧
    (∀ Z, invNxN out A n = some (false, Z) → (view A n n).det = 0 ∧ Z = out) := by
  rcases invNxN_cases out A n with ⟨hb, e⟩ | ⟨-, h0, e⟩ | ⟨-, Z', e, h1⟩
  · refine ⟨fun h => absurd (C31_degenerate A n hb) h, fun Z h => ⟨C31_degenerate A n hb, ?_⟩⟩
    rw [e] at h
    simpa using h.symm
  · refine ⟨fun h => absurd h0 h, fun Z h => ?_⟩
    rw [e] at h
    exact absurd h (by simp)
  · refine ⟨fun _ => ⟨Z', e⟩, fun Z h => ?_⟩
    rw [e] at h
    exact absurd h (by simp)

/-- **C33** refuted for singular matrices: exactly those whose last pivot alone is zero are not reported; the code
divides by that pivot and returns `true`. -/
theorem C33_singular_iff (out A : ℕ → ℕ → K) {n : ℕ} (h : (view A n n).det = 0) :
    (invNxN out A n = none ↔ ∀ i, i + 1 < n → (decompPlu A n n).A i i ≠ 0) ∧
    (invNxN out A n = some (false, out) ↔ ∃ i, i + 1 < n ∧ (decompPlu A n n).A i i = 0) := by
  have hbad : (decompPlu A n n).bad = 0 ↔ ∀ i, i + 1 < n → (decompPlu A n n).A i i ≠ 0 := by
    rw [C31_plu_count, min_self, Finset.card_eq_zero, Finset.filter_eq_empty_iff]
    constructor
    · intro h i hi
      exact h (Finset.mem_range.2 (by omega))
    · intro h i hi
      rw [Finset.mem_range] at hi
      exact h i (by omega)
  have hex : (∃ i, i + 1 < n ∧ (decompPlu A n n).A i i = 0) ↔ ¬ (decompPlu A n n).bad = 0 := by
    rw [hbad]
    push Not
    rfl
  rw [← hbad, hex]
  rcases invNxN_cases out A n with ⟨hb, e⟩ | ⟨hb, -, e⟩ | ⟨hb, Z, e, h1⟩
  · simp [e, hb]
  · simp [e, hb]
  · exfalso
    have := congrArg Matrix.det h1
    rw [Matrix.det_mul, h, zero_mul, Matrix.det_one] at this
    exact zero_ne_one this

/-- The smallest unreported singular matrices. -/
theorem C33_singular_refuted :
    invNxN (fun _ _ => 0) (fun _ _ => (0 : ℚ)) 1 = none ∧
    invNxN (fun _ _ => 0) (fun r c => if r = c ∧ r < 4 then (1 : ℚ) else 0) 5 = none := by
  constructor
  · rw [(C33_singular_iff _ _ (by simp [view])).1]
    intro i hi
    omega
  · rw [(C33_singular_iff _ _ ?_).1]
    · intro i hi
      have : i < 4 := by omega
      interval_cases i <;> decide +kernel
    · refine Matrix.det_eq_zero_of_row_eq_zero 4 (fun j => ?_)
      simp [view]

/-! ### C34, general size -/

/-- The general determinant of an array that holds a diagonal matrix. -/
theorem detNxN_diag {n : ℕ} (hn : 2 ≤ n) (A : ℕ → ℕ → K) (hA : ∀ r < n, ∀ c < n, r ≠ c → A r c = 0) :
    detNxN A n = 0 ∧ detDestructive A n = 0 := by
  have zero : ∀ s : State K, s.A 0 1 = 0 → diagProduct s n = 0 := by
    intro s hs
    have := loop_inv (n := n) (f := fun i d => d * s.A (i * i / n) (i * i % n)) (s := if s.parity then (-1 : K) else 1)
      (fun k d => 2 ≤ k → d = 0) (by omega) (by
        intro i hi d hd h2
        rcases Nat.lt_or_ge i 2 with h | h
        · obtain rfl : i = 1 := by omega
          rw [Nat.div_eq_of_lt (show 1 * 1 < n by omega), Nat.mod_eq_of_lt (show 1 * 1 < n by omega),
            show (1 * 1 : ℕ) = 1 from rfl, hs, mul_zero]
        · rw [hd h, zero_mul])
    exact this hn
  have hstay : ∀ r < n, ∀ c < n, r ≠ c → (decompPlu A n n).A r c = 0 := by
    refine loop_inv (n := min n n - 1) (f := pluStep n n) (s := ⟨A, fun i => i, false, 0⟩)
      (fun k s => ∀ r < n, ∀ c < n, r ≠ c → s.A r c = 0) hA ?_
    intro i hi s hs
    obtain ⟨h1, h2, h3, h4⟩ := findRowPivot_spec s.A (show i < n by omega)
    unfold pluStep
    generalize findRowPivot s.A n i = q at h1 h2 h3 h4
    obtain ⟨pvt, big⟩ := q
    simp only at h1 h2 h3 h4 ⊢
    by_cases hb : big = 0
    · rw [if_pos hb]
      exact hs
    have hp : pvt = i := by
      by_contra hne
      exact hb (by rw [h3, hs pvt (by omega) i (by omega) hne, abs_zero])
    rw [if_neg hb, if_neg (not_not.2 hp)]
    intro r hr c hc hrc
    show eliminate s.A n n i r c = _
    rw [eliminate_apply s.A (by omega) (by omega), hs r hr c hc hrc]
    split_ifs with g1 g2 g2
    · rw [hs r hr i (by omega) (by omega), zero_div]
    · rw [hs r hr i (by omega) (by omega)]
      simp
    · rfl
    · rfl
  have h1 : detNxN A n = 0 := by
    unfold detNxN
    simp only
    split_ifs
    · rfl
    · exact zero _ (hstay 0 (by omega) 1 (by omega) (by omega))
  refine ⟨h1, ?_⟩
  unfold detDestructive
  rw [if_neg (by omega)]
  exact h1

/-- The general determinant of an array that holds the identity. -/
theorem detNxN_eye {n : ℕ} (hn : 2 ≤ n) (A : ℕ → ℕ → K) (hA : ∀ r < n, ∀ c < n, A r c = if r = c then 1 else 0) :
    detNxN A n = 0 ∧ detDestructive A n = 0 :=
  detNxN_diag hn A fun r hr c hc h => by rw [hA r hr c hc, if_neg h]

/-- **C34** refuted: what the general determinant multiplies are the flat elements `0, 1, 4, 9, …` of the upper
triangular buffer instead of its diagonal. In particular the determinant of every identity matrix beyond `1 × 1`
comes out as zero. -/
theorem C34_detNxN_refuted {n : ℕ} (hn : 2 ≤ n) :
    detNxN (fun r c => if r = c then (1 : K) else 0) n = 0 ∧
    detDestructive (fun r c => if r = c then (1 : K) else 0) n = 0 ∧
    (view (fun r c => if r = c then (1 : K) else 0) n n).det = 1 := by
  have hview : view (fun r c => if r = c then (1 : K) else 0) n n = 1 := by
    ext r c
    simp [view, Matrix.one_apply, Fin.ext_iff]
  obtain ⟨h1, h2⟩ := detNxN_eye (K := K) hn (fun r c => if r = c then 1 else 0) fun _ _ _ _ => rfl
  exact ⟨h1, h2, by rw [hview, Matrix.det_one]⟩

/-- **C34**: the general determinant is right for `1 × 1` arrays, and whenever a pivot before the last is zero. -/
theorem C34_detNxN_partial (A : ℕ → ℕ → K) (n : ℕ) (h : n ≤ 1 ∨ (decompPlu A n n).bad ≠ 0) :
    detNxN A n = (view A n n).det ∧ detDestructive A n = (view A n n).det := by
  have h1 : (decompPlu A n n).bad ≠ 0 → detNxN A n = (view A n n).det := by
    intro hb
    rw [C31_degenerate A n hb]
    unfold detNxN
    simp only
    rw [if_pos hb]
  rcases h with h | hb
  · have h01 : n = 0 ∨ n = 1 := by omega
    rcases h01 with rfl | rfl
    · constructor <;> simp [detNxN, detDestructive, decompPlu, loop, diagProduct]
    · constructor <;> simp [detNxN, detDestructive, decompPlu, loop, diagProduct, view]
  · refine ⟨h1 hb, ?_⟩
    unfold detDestructive
    split_ifs with hn
    · subst hn
      simp [view]
    · exact h1 hb

/-- **C34**: with the diagonal `m[i * n + i]` in place of `m[i * i]` the same code would compute the determinant. -/
theorem C34_factors (A : ℕ → ℕ → K) (n : ℕ) :
    (view A n n).det = (if (decompPlu A n n).parity then -1 else 1) *
      ∏ i : Fin n, (decompPlu A n n).A i i := plu_det A n

/-! ### Concrete instances -/

example : (linearSolve (fun r c => if r = 0 then (if c = 0 then (1 : ℚ) else 2) else 3 + (c : ℚ)) 2 1
    (fun r _ => if r = 0 then 5 else 11) 0).map (fun s => (s.1, s.2 0 0, s.2 1 0)) = some (true, 1, 2) := by
  decide +kernel

example : (invNxN (fun _ _ => 0) (fun r c => if r = 0 then (if c = 0 then (1 : ℚ) else 2) else 3 + (c : ℚ)) 2).map
    (fun s => (s.1, s.2 0 0, s.2 0 1, s.2 1 0, s.2 1 1)) = some (true, -2, 1, 3 / 2, -1 / 2) := by
  decide +kernel

example : detNxN (fun r c => if r = 0 then (if c = 0 then (1 : ℚ) else 2) else 3 + (c : ℚ)) 2 = -12 := by
  decide +kernel

end Geomc.LU
