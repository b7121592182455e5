import Verif.LU.FloatLemmas

/-!
# The whole decomposition and both substitutions with rounding
-/

namespace Geomc.LU

open Geomc.Flt (IsRound IsFloat eps)

variable {K : Type} [Field K] [LinearOrder K] [IsStrictOrderedRing K]

theorem near_of_round [FloorRing K] {p : ℕ} (hp : 1 ≤ p) {rnd : K → K} (h : IsRound p rnd) : Near rnd (eps K p) := by
  have one : IsFloat p (1 : K) := by simpa using Flt.float_pow (K := K) hp 0
  have mone : IsFloat p (-1 : K) := Flt.float_neg one
  refine ⟨(Flt.eps_pos p).le, h.rel hp, fun x => ?_, fun x hx => ?_⟩
  · by_cases hx : x = 0
    · subst hx
      rw [h.fix (Flt.float_zero p)]
      simp
    · have h0 := abs_pos.2 hx
      obtain ⟨a, b⟩ := Flt.log_spec h0
      have := Flt.round_err hp (h.near x) b.le
      refine this.trans ?_
      rw [sub_eq_add_neg, Flt.zadd, mul_comm]
      refine mul_le_mul_of_nonneg_left ?_ (Flt.eps_pos p).le
      have hf := Flt.float_pow (K := K) hp (Int.log 2 |x|)
      rcases le_total 0 x with hx0 | hx0
      · rw [abs_of_nonneg hx0] at a hf ⊢
        exact (h.ge_of_ge hf a).trans (le_abs_self _)
      · rw [abs_of_nonpos hx0] at a hf ⊢
        have := h.le_of_le (Flt.float_neg hf) (show x ≤ -(2 ^ Int.log 2 (-x)) by linarith)
        exact (by linarith : _ ≤ -rnd x).trans (neg_le_abs _)
  · obtain ⟨h1, h2⟩ := abs_le.1 hx
    exact abs_le.2 ⟨h.ge_of_ge mone h1, h.le_of_le one h2⟩

/-! ### The loop of `decomp_plu` -/

structure PluInvE (u m : K) (A₀ : ℕ → ℕ → K) (rows cols i : ℕ) (s : State K) : Prop where
  perm : ∃ σ : Equiv.Perm (Fin rows), IsPerm s.p σ ∧ Equiv.Perm.sign σ = if s.parity then -1 else 1
  fac : FactorsE u (fun r c => A₀ (s.p r) c) s.A rows cols i
  bad : s.bad = ((Finset.range i).filter (fun k => s.A k k = 0)).card
  mult : ∀ k < i, ∀ r, k < r → r < rows → |s.A r k| ≤ 1
  growth : ∀ r < rows, ∀ c < cols, min r i ≤ c → |s.A r c| ≤ (2 * (1 + u)) ^ min r i * m

theorem upd_growth {rnd : K → K} {u : K} (hn : Near rnd u) {b s t B : K} (hb : |b| ≤ 1) (hs : |s| ≤ B) (ht : |t| ≤ B) :
    |upd rnd b s t| ≤ 2 * (1 + u) * B := by
  have hB : 0 ≤ B := (abs_nonneg s).trans hs
  have hu := hn.nonneg
  have hbt : |b * t| ≤ B := by
    rw [abs_mul]
    calc |b| * |t| ≤ 1 * B := mul_le_mul hb ht (abs_nonneg _) zero_le_one
      _ = B := one_mul B
  have h1 : |s - b * t| ≤ 2 * B := by
    have := abs_sub s (b * t)
    linarith
  unfold upd
  split_ifs
  · nlinarith
  · have h2 := hn.rel (s - b * t)
    have h3 := abs_sub_abs_le_abs_sub (rnd (s - b * t)) (s - b * t)
    nlinarith

theorem PluInvE.step {rnd : K → K} {u m : K} (hn : Near rnd u) (hm : 0 ≤ m) {A₀ : ℕ → ℕ → K} {rows cols i : ℕ} {s : State K}
    (h : PluInvE u m A₀ rows cols i s) (hr : i < rows) (hc : i < cols) :
    PluInvE u m A₀ rows cols (i + 1) (pluStepF rnd rows cols i s) := by
  have hu := hn.nonneg
  have hg : (1 : K) ≤ 2 * (1 + u) := by linarith
  obtain ⟨h1, h2, h3, h4⟩ := findRowPivot_spec s.A hr
  unfold pluStepF
  generalize findRowPivot s.A rows i = q at h1 h2 h3 h4
  obtain ⟨pvt, big⟩ := q
  simp only at h1 h2 h3 h4 ⊢
  by_cases hbig : big = 0
  · rw [if_pos hbig]
    have hz : ∀ r, i ≤ r → r < rows → s.A r i = 0 := fun r hr hr' =>
      abs_eq_zero.1 (le_antisymm ((h4 r hr hr').trans hbig.le) (abs_nonneg _))
    refine ⟨h.perm, h.fac.degenerate hu hz, ?_, ?_, ?_⟩
    · show s.bad + 1 = _
      rw [Finset.range_add_one, Finset.filter_insert, if_pos (hz i le_rfl hr), Finset.card_insert_of_notMem (by simp),
        ← h.bad]
    · intro k hk r hkr hr'
      rcases Nat.lt_or_eq_of_le (Nat.lt_succ_iff.1 hk) with h' | rfl
      · exact h.mult k h' r hkr hr'
      · show |s.A r k| ≤ 1
        rw [hz r hkr.le hr', abs_zero]
        exact zero_le_one
    · intro r hr' c hc' hmin
      refine (h.growth r hr' c hc' (by omega)).trans ?_
      exact mul_le_mul_of_nonneg_right (pow_le_pow_right₀ hg (by omega)) hm
  · rw [if_neg hbig]
    have hx : ∃ s₁ : State K, (if pvt ≠ i then
        { s with A := swapRows s.A cols i pvt, p := swapIdx s.p i pvt, parity := !s.parity } else s) = s₁ ∧
        PluInvE u m A₀ rows cols i s₁ ∧ |s₁.A i i| = big ∧ ∀ r, i ≤ r → r < rows → |s₁.A r i| ≤ big := by
      by_cases hp : pvt = i
      · refine ⟨s, if_neg (not_not.2 hp), h, ?_, h4⟩
        rw [h3, hp]
      · have hlt : i < pvt := lt_of_le_of_ne h1 (Ne.symm hp)
        refine ⟨_, if_pos hp, ⟨?_, ?_, ?_, ?_, ?_⟩, ?_, ?_⟩
        · obtain ⟨σ, hσ, hs⟩ := h.perm
          refine ⟨_, hσ.swap hr h2, ?_⟩
          rw [map_mul, hs, Equiv.Perm.sign_swap (by simpa [Fin.ext_iff] using hlt.ne)]
          cases s.parity <;> rfl
        · have := h.fac.swapRows hlt h2
          intro r hr c hc
          have := this r hr c hc
          simp only [swapIdx_apply]
          exact this
        · rw [h.bad]
          congr 1
          refine Finset.filter_congr (fun k hk => ?_)
          rw [Finset.mem_range] at hk
          show _ ↔ swapRows s.A cols i pvt k k = 0
          rw [swapRows_apply, if_pos (by omega), Equiv.swap_apply_of_ne_of_ne (by omega) (by omega)]
        · intro k hk r hkr hr'
          show |swapRows s.A cols i pvt r k| ≤ 1
          rw [swapRows_apply, if_pos (by omega)]
          refine h.mult k hk _ ?_ ?_ <;> rw [Equiv.swap_apply_def] <;> split_ifs <;> omega
        · intro r hr' c hc' hmin
          show |swapRows s.A cols i pvt r c| ≤ _
          rw [swapRows_apply, if_pos hc']
          have hlt' : Equiv.swap i pvt r < rows := by
            rw [Equiv.swap_apply_def]
            split_ifs <;> omega
          have hmin' : min (Equiv.swap i pvt r) i = min r i := by
            rw [Equiv.swap_apply_def]
            split_ifs <;> omega
          have := h.growth _ hlt' c hc' (by omega)
          rwa [hmin'] at this
        · show |swapRows s.A cols i pvt i i| = big
          rw [swapRows_apply, if_pos hc, Equiv.swap_apply_left, h3]
        · intro r hir hr'
          show |swapRows s.A cols i pvt r i| ≤ big
          rw [swapRows_apply, if_pos hc]
          refine h4 _ ?_ ?_ <;> rw [Equiv.swap_apply_def] <;> split_ifs <;> omega
    obtain ⟨s₁, e, hs₁, hii, hmax⟩ := hx
    rw [e]
    have hne : s₁.A i i ≠ 0 := fun h0 => hbig (by rw [← hii, h0, abs_zero])
    have hb : ∀ r, i ≤ r → r < rows → |rnd (s₁.A r i / s₁.A i i)| ≤ 1 := fun r hkr hr' => by
      refine hn.one _ ?_
      rw [abs_div, hii]
      exact div_le_one_of_le₀ (hmax r hkr hr') (hii ▸ abs_nonneg _)
    have low : ∀ k, k ≤ i → ∀ c, eliminateF rnd s₁.A rows cols i k c = s₁.A k c := fun k hk c => by
      rw [eliminateF_apply rnd s₁.A hr hc, if_neg (by omega)]
    refine ⟨hs₁.perm, hs₁.fac.eliminate hn hr hc hne, ?_, ?_, ?_⟩
    · show s₁.bad = _
      rw [Finset.range_add_one, Finset.filter_insert]
      simp only
      rw [if_neg (by rw [low i le_rfl]; exact hne), hs₁.bad]
      congr 1
      refine Finset.filter_congr (fun k hk => ?_)
      rw [Finset.mem_range] at hk
      rw [low k hk.le]
    · intro k hk r hkr hr'
      show |eliminateF rnd s₁.A rows cols i r k| ≤ 1
      rw [eliminateF_apply rnd s₁.A hr hc]
      rcases Nat.lt_or_eq_of_le (Nat.lt_succ_iff.1 hk) with h' | rfl
      · have := hs₁.mult k h' r hkr hr'
        rw [if_neg (show ¬ k = i by omega), if_neg (show ¬ (i < k ∧ k < cols) by omega), ite_self]
        exact this
      · rw [if_pos ⟨hkr, hr'⟩, if_pos rfl]
        exact hb r hkr.le hr'
    · intro r hr' c hc' hmin
      show |eliminateF rnd s₁.A rows cols i r c| ≤ _
      rw [eliminateF_apply rnd s₁.A hr hc]
      by_cases hir : i < r
      · rw [if_pos ⟨hir, hr'⟩, if_neg (by omega), if_pos ⟨by omega, hc'⟩, show min r (i + 1) = i + 1 by omega, pow_succ,
          mul_comm ((2 * (1 + u)) ^ i), mul_assoc]
        have g1 := hs₁.growth r hr' c hc' (by omega)
        have g2 := hs₁.growth i hr c hc' (by omega)
        rw [show min r i = i by omega] at g1
        rw [show min i i = i by omega] at g2
        exact upd_growth hn (hb r hir.le hr') g1 g2
      · rw [if_neg (by omega), show min r (i + 1) = min r i by omega]
        exact hs₁.growth r hr' c hc' (by omega)

theorem plu_invE {rnd : K → K} {u m : K} (hn : Near rnd u) (hm : 0 ≤ m) (A : ℕ → ℕ → K) (rows cols : ℕ)
    (hA : ∀ r < rows, ∀ c < cols, |A r c| ≤ m) :
    PluInvE u m A rows cols (min rows cols - 1) (decompPluF rnd A rows cols) := by
  refine loop_inv (n := min rows cols - 1) (PluInvE u m A rows cols) ⟨⟨1, fun i => rfl, by simp⟩, ?_, by simp, ?_, ?_⟩ ?_
  · exact FactorsE.zero u A rows cols
  · intro k hk
    omega
  · intro r hr c hc _
    simpa using hA r hr c hc
  · intro i hi s h
    exact h.step hn hm (by omega) (by omega)

/-! ### Forward substitution -/

omit [LinearOrder K] [IsStrictOrderedRing K] in
theorem fwdInnerF (rnd : K → K) (f : Bool) (X M : ℕ → ℕ → K) (r i r' i' : ℕ) :
    loop r (fun c X => put X r i (subProd rnd f (X r i) (X c i) (M r c))) X r' i' =
      if r' = r ∧ i' = i then loop r (fun c s => subProd rnd f s (X c i) (M r c)) (X r i) else X r' i' := by
  have key : ∀ k ≤ r, ∀ r' i', loop k (fun c X => put X r i (subProd rnd f (X r i) (X c i) (M r c))) X r' i' =
      if r' = r ∧ i' = i then loop k (fun c s => subProd rnd f s (X c i) (M r c)) (X r i) else X r' i' := by
    intro k
    induction k with
    | zero =>
      intro _ r' i'
      rw [loop, loop]
      split_ifs with h
      · rw [h.1, h.2]
      · rfl
    | succ k ih =>
      intro hk r' i'
      have ih := ih (by omega)
      rw [loop, loop]
      by_cases h : r' = r ∧ i' = i
      · obtain ⟨rfl, rfl⟩ := h
        rw [put_self, if_pos ⟨rfl, rfl⟩, ih, if_pos ⟨rfl, rfl⟩, ih, if_neg (by omega)]
      · rw [put_of_ne _ _ h, if_neg h, ih, if_neg h]
  exact key r le_rfl r' i'

theorem loop_congr {S : Type} {n : ℕ} {f g : ℕ → S → S} {s : S} (h : ∀ k < n, ∀ s, f k s = g k s) : loop n f s = loop n g s := by
  induction n with
  | zero => rfl
  | succ n ih => rw [loop, loop, ih (fun k hk => h k (by omega)), h n n.lt_succ_self]

omit [LinearOrder K] [IsStrictOrderedRing K] in
theorem fwdRowF (rnd : K → K) (f : Bool) (X M : ℕ → ℕ → K) (m r r' i' : ℕ) :
    loop m (fun i X => loop r (fun c X => put X r i (subProd rnd f (X r i) (X c i) (M r c))) X) X r' i' =
      if r' = r ∧ i' < m then loop r (fun c s => subProd rnd f s (X c i') (M r c)) (X r i') else X r' i' := by
  have key := loop_inv (n := m)
    (f := fun i X => loop r (fun c X => put X r i (subProd rnd f (X r i) (X c i) (M r c))) X) (s := X)
    (fun k Y => ∀ r' i', Y r' i' =
      if r' = r ∧ i' < k then loop r (fun c s => subProd rnd f s (X c i') (M r c)) (X r i') else X r' i')
    (fun r' i' => by rw [if_neg (by omega)]) (by
      intro k hk Y hY r' i'
      rw [fwdInnerF]
      by_cases h : r' = r ∧ i' = k
      · obtain ⟨rfl, rfl⟩ := h
        rw [if_pos ⟨rfl, rfl⟩, if_pos ⟨rfl, by omega⟩, hY, if_neg (by omega)]
        refine loop_congr (fun c hc s => ?_)
        rw [hY, if_neg (by omega)]
      · rw [if_neg h, hY]
        exact if_congr (by omega) rfl rfl)
  exact key r' i'

theorem forwardLuF_spec {rnd : K → K} {u : K} (hn : Near rnd u) (f : Bool) (M X : ℕ → ℕ → K) (n m r : ℕ) (hr : r < n) (i : ℕ)
    (hi : i < m) :
    |X r i - ∑ c ∈ Finset.range r, forwardLuF rnd f M n m X c i * M r c - forwardLuF rnd f M n m X r i| ≤
      gam u r * (∑ c ∈ Finset.range r, |forwardLuF rnd f M n m X c i * M r c| + |forwardLuF rnd f M n m X r i|) := by
  have key := loopFrom_inv (lo := 1) (hi := n) (f := fun r X => loop m (fun i X =>
      loop r (fun c X => put X r i (subProd rnd f (X r i) (X c i) (M r c))) X) X) (s := X)
    (fun k Y => ∀ i < m, (∀ r < k, |X r i - ∑ c ∈ Finset.range r, Y c i * M r c - Y r i| ≤
        gam u r * (∑ c ∈ Finset.range r, |Y c i * M r c| + |Y r i|)) ∧
      ∀ r, k ≤ r → Y r i = X r i) (by omega)
    (fun i hi => ⟨fun r hr => by
      obtain rfl : r = 0 := by omega
      simp [gam], fun _ _ => rfl⟩) (by
      intro k hk1 hk Y hY i hi
      obtain ⟨h1, h2⟩ := hY i hi
      have step : ∀ r, r ≠ k → loop m (fun i X => loop k (fun c X => put X k i (subProd rnd f (X k i) (X c i) (M k c))) X) Y r i
          = Y r i := fun r hr => by rw [fwdRowF, if_neg (fun h => hr h.1)]
      refine ⟨fun r hr => ?_, fun r hr => ?_⟩
      · have hc : ∀ c ∈ Finset.range r, loop m (fun i X => loop k (fun c X =>
            put X k i (subProd rnd f (X k i) (X c i) (M k c))) X) Y c i * M r c = Y c i * M r c := by
          intro c hc
          rw [Finset.mem_range] at hc
          rw [step c (by omega)]
        rw [Finset.sum_congr rfl hc, Finset.sum_congr rfl (fun c h => congrArg abs (hc c h))]
        by_cases hrk : r = k
        · subst hrk
          rw [fwdRowF, if_pos ⟨rfl, hi⟩, ← h2 r le_rfl]
          exact chain_err hn f (fun c => Y c i) (fun c => M r c) (Y r i) r
        · rw [step r hrk]
          exact h1 r (by omega)
      · rw [step r (by omega)]
        exact h2 r (by omega))
  exact (key i hi).1 r hr

/-! ### Backward substitution -/

omit [LinearOrder K] [IsStrictOrderedRing K] in
theorem bwdInnerF (rnd : K → K) (f : Bool) (X M : ℕ → ℕ → K) (n r i : ℕ) (r' i' : ℕ) :
    loop (n - 1 - r) (fun u X => put X r i (subProd rnd f (X r i) (X (n - 1 - u) i) (M r (n - 1 - u)))) X r' i' =
      if r' = r ∧ i' = i then
        loop (n - 1 - r) (fun u s => subProd rnd f s (X (n - 1 - u) i) (M r (n - 1 - u))) (X r i) else X r' i' := by
  have key : ∀ k ≤ n - 1 - r, ∀ r' i',
      loop k (fun u X => put X r i (subProd rnd f (X r i) (X (n - 1 - u) i) (M r (n - 1 - u)))) X r' i' =
      if r' = r ∧ i' = i then loop k (fun u s => subProd rnd f s (X (n - 1 - u) i) (M r (n - 1 - u))) (X r i) else X r' i' := by
    intro k
    induction k with
    | zero =>
      intro _ r' i'
      rw [loop, loop]
      split_ifs with h
      · rw [h.1, h.2]
      · rfl
    | succ k ih =>
      intro hk r' i'
      have ih := ih (by omega)
      rw [loop, loop]
      by_cases h : r' = r ∧ i' = i
      · obtain ⟨rfl, rfl⟩ := h
        rw [put_self, if_pos ⟨rfl, rfl⟩, ih, if_pos ⟨rfl, rfl⟩, ih, if_neg (by omega)]
      · rw [put_of_ne _ _ h, if_neg h, ih, if_neg h]
  exact key _ le_rfl r' i'

/-- The sum over a row from right to left. -/
theorem sum_reflect (n r : ℕ) (g : ℕ → K) :
    ∑ u ∈ Finset.range (n - 1 - r), g (n - 1 - u) = ∑ c ∈ Finset.Ico (r + 1) n, g c := by
  rw [Finset.sum_Ico_eq_sum_range, show n - (r + 1) = n - 1 - r by omega,
    ← Finset.sum_range_reflect (fun k => g (r + 1 + k))]
  refine Finset.sum_congr rfl (fun u hu => ?_)
  rw [Finset.mem_range] at hu
  rw [show r + 1 + (n - 1 - r - 1 - u) = n - 1 - u by omega]

theorem bwdRowF (rnd : K → K) (f : Bool) (X M : ℕ → ℕ → K) (n m r : ℕ) (hM : M r r ≠ 0 ∨ m = 0) :
    ∃ Z, loopM m (fun i X =>
      let X := loop (n - 1 - r) (fun u X =>
        let c := n - 1 - u
        put X r i (subProd rnd f (X r i) (X c i) (M r c))) X
      if M r r = 0 then none else some (put X r i (rnd (X r i / M r r)))) X = some Z ∧
      ∀ r' i', Z r' i' = if r' = r ∧ i' < m then
        rnd (loop (n - 1 - r) (fun u s => subProd rnd f s (X (n - 1 - u) i') (M r (n - 1 - u))) (X r i') / M r r) else X r' i' := by
  refine loopM_inv (n := m) (fun k (Y : ℕ → ℕ → K) => ∀ r' i', Y r' i' = if r' = r ∧ i' < k then
        rnd (loop (n - 1 - r) (fun u s => subProd rnd f s (X (n - 1 - u) i') (M r (n - 1 - u))) (X r i') / M r r) else X r' i')
    (fun r' i' => by rw [if_neg (by omega)]) ?_
  intro k hk Y hY
  refine ⟨_, if_neg (hM.resolve_right (by omega)), fun r' i' => ?_⟩
  by_cases h : r' = r ∧ i' = k
  · obtain ⟨rfl, rfl⟩ := h
    rw [put_self, if_pos ⟨rfl, by omega⟩]
    simp only
    rw [bwdInnerF rnd f Y M n r' i', if_pos ⟨rfl, rfl⟩, hY, if_neg (by omega)]
    congr 2
    refine loop_congr (fun u hu s => ?_)
    rw [hY, if_neg (by omega)]
  · rw [put_of_ne _ _ h]
    simp only
    rw [bwdInnerF rnd f Y M n r k, if_neg h, hY]
    exact if_congr (by omega) rfl rfl

theorem backwardF_spec {rnd : K → K} {u : K} (hn : Near rnd u) (f : Bool) (M Y : ℕ → ℕ → K) (n m skip : ℕ) (hs : skip ≤ n)
    (hM : ∀ r, skip ≤ r → r < n → M r r ≠ 0 ∨ m = 0) :
    ∃ Z, backwardF rnd f M n m skip Y = some Z ∧
      ∀ i < m, (∀ r, skip ≤ r → r < n → |Y r i - ∑ c ∈ Finset.Ico r n, Z c i * M r c| ≤
          gam u (n - r) * ∑ c ∈ Finset.Ico r n, |Z c i * M r c|) ∧
        ∀ r < skip, Z r i = Y r i := by
  obtain ⟨Z, e, hZ⟩ := loopM_inv (n := n - skip) (f := fun t X =>
    let r := n - 1 - t
    loopM m (fun i X =>
      let X := loop (n - 1 - r) (fun u X =>
        let c := n - 1 - u
        put X r i (subProd rnd f (X r i) (X c i) (M r c))) X
      if M r r = 0 then none else some (put X r i (rnd (X r i / M r r)))) X) (s := Y)
    (fun t X => ∀ i < m, (∀ r, n - t ≤ r → r < n → |Y r i - ∑ c ∈ Finset.Ico r n, X c i * M r c| ≤
          gam u (n - r) * ∑ c ∈ Finset.Ico r n, |X c i * M r c|) ∧
        ∀ r < n - t, X r i = Y r i)
    (fun i hi => ⟨fun r h h' => by omega, fun _ _ => rfl⟩) (by
      intro t ht X hX
      obtain ⟨W, e, hW⟩ := bwdRowF rnd f X M n m (n - 1 - t) (hM _ (by omega) (by omega))
      refine ⟨W, e, fun i hi => ⟨fun r hr hrn => ?_, fun r hr => ?_⟩⟩
      · obtain ⟨h1, h2⟩ := hX i hi
        have hne : M (n - 1 - t) (n - 1 - t) ≠ 0 := (hM _ (by omega) (by omega)).resolve_right (by omega)
        have tail : ∀ r', n - 1 - t < r' → ∀ s, ∀ c ∈ Finset.Ico r' n, W c i * M s c = X c i * M s c := by
          intro r' hr' s c hc
          rw [Finset.mem_Ico] at hc
          rw [hW, if_neg (by omega)]
        by_cases hrt : r = n - 1 - t
        · rw [Finset.sum_eq_sum_Ico_succ_bot hrn, Finset.sum_eq_sum_Ico_succ_bot hrn,
            Finset.sum_congr rfl (tail (r + 1) (by omega) r),
            Finset.sum_congr rfl (fun c h => congrArg abs (tail (r + 1) (by omega) r c h)), show n - r = n - 1 - r + 1 by omega]
          rw [← hrt] at hW hne
          rw [hW, if_pos ⟨rfl, hi⟩, ← h2 r (by omega), ← gam_succ]
          have hch := chain_err hn f (fun u => X (n - 1 - u) i) (fun u => M r (n - 1 - u)) (X r i) (n - 1 - r)
          rw [sum_reflect n r (fun c => X c i * M r c), sum_reflect n r (fun c => |X c i * M r c|)] at hch
          have := acc_step (gam_nonneg hn.nonneg _) hn.nonneg (Finset.sum_nonneg fun _ _ => abs_nonneg _) hch (div_err hn hne)
          rw [sub_zero, abs_zero, add_zero] at this
          rw [add_comm, add_comm (|_|)]
          exact this
        · rw [Finset.sum_congr rfl (tail r (by omega) r),
            Finset.sum_congr rfl (fun c h => congrArg abs (tail r (by omega) r c h))]
          exact h1 r (by omega) hrn
      · obtain ⟨-, h2⟩ := hX i hi
        rw [hW, if_neg (by omega)]
        exact h2 r (by omega))
  refine ⟨Z, e, fun i hi => ?_⟩
  have := hZ i hi
  rwa [show n - (n - skip) = skip by omega] at this

theorem backwardF_none (rnd : K → K) (f : Bool) (M Y : ℕ → ℕ → K) {n m skip r : ℕ} (hr : skip ≤ r) (hrn : r < n) (hm : 0 < m)
    (h : M r r = 0) : backwardF rnd f M n m skip Y = none := by
  unfold backwardF
  refine loopM_none (k := n - 1 - r) (by omega) (fun X => ?_)
  refine loopM_none (k := 0) hm (fun X => ?_)
  simp only
  rw [show n - 1 - (n - 1 - r) = r by omega, if_pos h]

end Geomc.LU
