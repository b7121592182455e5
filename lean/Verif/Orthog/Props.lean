import Mathlib.LinearAlgebra.Dimension.Constructions
import Mathlib.LinearAlgebra.Dimension.OrzechProperty
import Mathlib.LinearAlgebra.FiniteDimensional.Lemmas
import Mathlib.LinearAlgebra.FiniteDimensional.Basic
import Mathlib.LinearAlgebra.LinearIndependent.Lemmas
import Verif.Orthog.Model
import Verif.LU.Solve
import Verif.Vec.Props

/-!
# C36: orthogonal vectors, null spaces, Gram–Schmidt
-/

namespace Geomc.LU

open Finset Geomc.Vec

variable {K : Type} [Field K] [LinearOrder K] [IsStrictOrderedRing K]

/-! ### Null vectors of the decomposition -/

theorem upper_mulVec (A : ℕ → ℕ → K) (n N : ℕ) (x : ℕ → K) (r : Fin n) :
    (upper A n N).mulVec (fun c : Fin N => x c) r = ∑ c ∈ Ico (r : ℕ) N, A r c * x c := by
  have hco : ∑ c : Fin N, (fun c : ℕ => if (r : ℕ) ≤ c then A r c * x c else 0) c =
      ∑ c ∈ range N, (if (r : ℕ) ≤ c then A r c * x c else 0) :=
    (sum_range (fun c : ℕ => if (r : ℕ) ≤ c then A r c * x c else 0)).symm
  rw [Matrix.mulVec, dotProduct]
  rw [show ∑ i : Fin N, upper A n N r i * x i = ∑ c : Fin N, (fun c : ℕ => if (r : ℕ) ≤ c then A r c * x c else 0) c
    from sum_congr rfl (fun c _ => by
      simp only [upper, Matrix.of_apply]
      split_ifs
      · rfl
      · rw [zero_mul]), hco, ← sum_filter]
  refine sum_congr ?_ (fun _ _ => rfl)
  ext c
  simp only [mem_filter, mem_range, mem_Ico]
  tauto

/-- A vector annihilated by the upper factor is orthogonal to every row of the input. -/
theorem null_of_upper (v : ℕ → ℕ → K) {n N : ℕ} (h : n ≤ N) (x : ℕ → K)
    (hx : ∀ r < n, ∑ c ∈ Ico r N, (decompPlu v n N).A r c * x c = 0) (i : ℕ) (hi : i < n) :
    ∑ c ∈ range N, v i c * x c = 0 := by
  obtain ⟨σ, -, -, he⟩ := C31_plu v h
  have h0 : (upper (decompPlu v n N).A n N).mulVec (fun c : Fin N => x c) = 0 := by
    ext r
    rw [upper_mulVec]
    exact hx r r.2
  have h1 := congrArg (fun M => Matrix.mulVec M (fun c : Fin N => x c)) he
  simp only [← Matrix.mulVec_mulVec, h0, Matrix.mulVec_zero] at h1
  obtain ⟨r, hr⟩ := σ.surjective ⟨i, hi⟩
  have := (congrFun h1 r).symm
  rw [Matrix.mulVec, dotProduct] at this
  rw [sum_range]
  simpa [hr, view] using this

/-- The leading square block is nonsingular exactly when no pivot vanishes. -/
theorem leading_det (v : ℕ → ℕ → K) {n N : ℕ} (h : n ≤ N) :
    (view v n n).det ≠ 0 ↔ ∀ r < n, (decompPlu v n N).A r r ≠ 0 := by
  obtain ⟨σ, -, -, he⟩ := C31_plu v h
  have h1 : lower (decompPlu v n N).A n n * upper (decompPlu v n N).A n n = (view v n n).submatrix σ id := by
    ext r c
    have := congrFun (congrFun he r) (Fin.castLE h c)
    rw [Matrix.mul_apply] at this ⊢
    exact this
  have h2 := congrArg Matrix.det h1
  rw [Matrix.det_mul, lower_det, upper_det, one_mul, Matrix.det_permute] at h2
  constructor
  · intro hd r hr h0
    have : ((Equiv.Perm.sign σ : ℤ) : K) * (view v n n).det = 0 := by
      rw [← h2]
      exact prod_eq_zero (mem_univ (⟨r, hr⟩ : Fin n)) h0
    rcases mul_eq_zero.1 this with h' | h'
    · rcases Int.units_eq_one_or (Equiv.Perm.sign σ) with hs | hs <;> simp [hs] at h'
    · exact hd h'
  · intro hp hd
    rw [hd, mul_zero] at h2
    exact (prod_ne_zero_iff.2 (fun (i : Fin n) _ => hp i i.2)) h2

theorem leading_bad (v : ℕ → ℕ → K) {n N : ℕ} (h : n ≤ N) (hb : (decompPlu v n N).bad > 0) : (view v n n).det = 0 := by
  by_contra hne
  rw [← ne_eq, leading_det v h] at hne
  rw [C31_plu_count, gt_iff_lt, card_pos] at hb
  obtain ⟨k, hk⟩ := hb
  rw [mem_filter, mem_range] at hk
  exact hne k (by omega) hk.2

/-! ### `orthogonal` -/

omit [LinearOrder K] [IsStrictOrderedRing K] in
/-- The inner loop of the substitution. -/
theorem orthRow (M : ℕ → ℕ → K) {N r : ℕ} (o : ℕ → K) (j : ℕ) (hj : r + j < N) (k : ℕ) :
    loop j (fun u o => let c := N - 1 - u; Function.update o r (o r - o c * M r c)) o k =
      if k = r then o r - ∑ c ∈ Ico (N - j) N, M r c * o c else o k := by
  have key := loop_inv (n := j) (f := fun u o => let c := N - 1 - u; Function.update o r (o r - o c * M r c)) (s := o)
    (fun j o' => j ≤ N - 1 - r → ∀ k, o' k = if k = r then o r - ∑ c ∈ Ico (N - j) N, M r c * o c else o k)
    (fun _ k => by split_ifs with h <;> simp [h]) (by
      intro i hi o' ih hi' k
      have ih := ih (by omega)
      show Function.update o' r (o' r - o' (N - 1 - i) * M r (N - 1 - i)) k = _
      by_cases hk : k = r
      · subst hk
        rw [Function.update_self, if_pos rfl, ih k, if_pos rfl, ih (N - 1 - i), if_neg (by omega),
          show N - i = N - 1 - i + 1 by omega, show N - (i + 1) = N - 1 - i by omega,
          sum_eq_sum_Ico_succ_bot (show N - 1 - i < N by omega)]
        ring
      · rw [Function.update_of_ne hk, ih k, if_neg hk, if_neg hk])
  exact key (by omega) k

omit [IsStrictOrderedRing K] in
theorem orthBack_spec (M : ℕ → ℕ → K) {N : ℕ} (hN : 1 ≤ N) (hM : ∀ r < N - 1, M r r ≠ 0) :
    ∃ o, orthBack M N = some o ∧ o (N - 1) = 1 ∧ (∀ k, N ≤ k → o k = 0) ∧
      ∀ r < N - 1, ∑ c ∈ Ico r N, M r c * o c = 0 := by
  obtain ⟨o, e, ho⟩ := loopM_inv (n := N - 1) (f := fun t o =>
    let r := N - 2 - t
    let o := loop (N - 1 - r) (fun u o =>
      let c := N - 1 - u
      Function.update o r (o r - o c * M r c)) o
    if M r r = 0 then none else some (Function.update o r (o r / M r r)))
    (s := Function.update (fun _ => 0) (N - 1) 1)
    (fun t o => o (N - 1) = 1 ∧ (∀ k, k < N - 1 - t ∨ N ≤ k → o k = 0) ∧
      ∀ r, N - 1 - t ≤ r → r < N - 1 → ∑ c ∈ Ico r N, M r c * o c = 0)
    ⟨by simp, fun k hk => Function.update_of_ne (by omega) _ _, fun r h1 h2 => by omega⟩ (by
      rintro t ht o ⟨h1, h2, h3⟩
      have hr : N - 2 - t < N - 1 := by omega
      simp only
      rw [if_neg (hM _ hr)]
      refine ⟨_, rfl, ?_, ?_, ?_⟩
      · rw [Function.update_of_ne (by omega), orthRow M o _ (by omega), if_neg (by omega)]
        exact h1
      · intro k hk
        rw [Function.update_of_ne (by omega), orthRow M o _ (by omega), if_neg (by omega)]
        exact h2 k (by omega)
      · intro r hr1 hr2
        have same : ∀ c, N - 2 - t < c → Function.update (loop (N - 1 - (N - 2 - t)) (fun u o =>
            let c := N - 1 - u
            Function.update o (N - 2 - t) (o (N - 2 - t) - o c * M (N - 2 - t) c)) o) (N - 2 - t)
            (loop (N - 1 - (N - 2 - t)) (fun u o =>
            let c := N - 1 - u
            Function.update o (N - 2 - t) (o (N - 2 - t) - o c * M (N - 2 - t) c)) o (N - 2 - t) /
              M (N - 2 - t) (N - 2 - t)) c = o c := fun c hc => by
          rw [Function.update_of_ne (by omega), orthRow M o _ (by omega), if_neg (by omega)]
        rcases Nat.lt_or_eq_of_le (show N - 2 - t ≤ r by omega) with hlt | heq
        · rw [← h3 r (by omega) hr2]
          refine sum_congr rfl (fun c hc => ?_)
          rw [same c (by have := mem_Ico.1 hc; omega)]
        · subst heq
          rw [sum_eq_sum_Ico_succ_bot (by omega), Function.update_self, sum_congr rfl (fun c hc => by
            rw [same c (by have := mem_Ico.1 hc; omega)])]
          rw [orthRow M o _ (by omega), if_pos rfl, h2 _ (by omega),
            show N - (N - 1 - (N - 2 - t)) = N - 2 - t + 1 by omega, mul_div_cancel₀ _ (hM _ hr)]
          ring)
  exact ⟨o, e, ho.1, fun k hk => ho.2.1 k (Or.inr hk), fun r hr => ho.2.2 r (by omega) hr⟩

omit [IsStrictOrderedRing K] in
theorem orthBack_none (M : ℕ → ℕ → K) {N r : ℕ} (hr : r < N - 1) (h : M r r = 0) : orthBack M N = none := by
  refine loopM_none (k := N - 2 - r) (by omega) (fun o => ?_)
  simp only
  rw [show N - 2 - (N - 2 - r) = r by omega, if_pos h]

theorem orthogonal_cases (v : ℕ → ℕ → K) {N : ℕ} (hN : 1 ≤ N) :
    ((view v (N - 1) (N - 1)).det ≠ 0 → ∃ o, orthogonal v N = some o ∧ o (N - 1) = 1 ∧
      ∀ i < N - 1, ∑ c ∈ range N, v i c * o c = 0) ∧
    ((view v (N - 1) (N - 1)).det = 0 → orthogonal v N = some (fun _ => 0) ∨ orthogonal v N = none) := by
  have hle : N - 1 ≤ N := by omega
  unfold orthogonal
  simp only
  constructor
  · intro hd
    rw [if_neg (fun hb => hd (leading_bad v hle hb))]
    obtain ⟨o, e, h1, -, h2⟩ := orthBack_spec _ hN ((leading_det v hle).1 hd)
    exact ⟨o, e, h1, null_of_upper v hle o h2⟩
  · intro hd
    by_cases hb : (decompPlu v (N - 1) N).bad > 0
    · rw [if_pos hb]
      exact Or.inl rfl
    · rw [if_neg hb]
      right
      have : ¬ ∀ r < N - 1, (decompPlu v (N - 1) N).A r r ≠ 0 := fun h => (leading_det v hle).2 h hd
      push Not at this
      obtain ⟨r, hr, h0⟩ := this
      exact orthBack_none _ hr h0

/-- **C36**, `orthogonal` in four and more dimensions: whenever it returns, the result is orthogonal to all the inputs. -/
theorem C36_orthogonal_sound (v : ℕ → ℕ → K) {N : ℕ} (hN : 1 ≤ N) (o : ℕ → K) (h : orthogonal v N = some o) (i : ℕ)
    (hi : i < N - 1) : ∑ c ∈ range N, v i c * o c = 0 := by
  obtain ⟨h1, h2⟩ := orthogonal_cases v hN
  by_cases hd : (view v (N - 1) (N - 1)).det = 0
  · rcases h2 hd with e | e
    · rw [e] at h
      obtain rfl := Option.some.inj h
      simp
    · rw [e] at h
      cases h
  · obtain ⟨o', e, -, h3⟩ := h1 hd
    rw [e] at h
    obtain rfl := Option.some.inj h
    exact h3 i hi

/-- **C36**, `orthogonal` in four and more dimensions: it finds a nonzero vector exactly when the inputs without their
last coordinate are independent; otherwise it returns zero or divides by zero. -/
theorem C36_orthogonal_iff (v : ℕ → ℕ → K) {N : ℕ} (hN : 1 ≤ N) :
    (∃ o, orthogonal v N = some o ∧ ∃ k < N, o k ≠ 0) ↔ (view v (N - 1) (N - 1)).det ≠ 0 := by
  obtain ⟨h1, h2⟩ := orthogonal_cases v hN
  constructor
  · rintro ⟨o, e, k, -, hk⟩ hd
    rcases h2 hd with e' | e'
    · rw [e] at e'
      obtain rfl := Option.some.inj e'
      exact hk rfl
    · rw [e] at e'
      cases e'
  · intro hd
    obtain ⟨o, e, h3, -⟩ := h1 hd
    exact ⟨o, e, N - 1, by omega, by rw [h3]; exact one_ne_zero⟩

/-- Three axes of four-dimensional space, leaving out axis `k`. -/
def axesWithout (k : ℕ) : ℕ → ℕ → ℚ := fun i c => if c = (if i < k then i else i + 1) then 1 else 0

/-- **C36** refuted: inputs that are independent (three different coordinate axes) but for which `orthogonal` returns the
zero vector, or divides by zero. -/
theorem C36_orthogonal_refuted :
    (∀ k ≤ 3, ∀ x : ℕ → ℚ, (∀ c < 4, ∑ i ∈ range 3, x i * axesWithout k i c = 0) → ∀ i < 3, x i = 0) ∧
    (∃ o, orthogonal (axesWithout 0) 4 = some o ∧ ∀ k < 4, o k = 0) ∧ (orthogonal (axesWithout 2) 4).isNone := by
  refine ⟨?_, ?_, by decide +kernel⟩
  · intro k hk x h i hi
    have h0 := h 0 (by omega)
    have h1 := h 1 (by omega)
    have h2 := h 2 (by omega)
    have h3 := h 3 (by omega)
    simp only [axesWithout, sum_range_succ, range_zero, sum_empty] at h0 h1 h2 h3
    interval_cases k <;> interval_cases i <;> simp at h0 h1 h2 h3 ⊢ <;> assumption
  · have hs : (decompPlu (axesWithout 0) 3 4).bad > 0 := by decide +kernel
    refine ⟨fun _ => 0, ?_, fun _ _ => rfl⟩
    unfold orthogonal
    simp only
    rw [if_pos hs]

omit [LinearOrder K] [IsStrictOrderedRing K] in
theorem cross_eq_zero_iff' (a b : Fin 3 → K) :
    crossProduct a b = 0 ↔ a 1 * b 2 = a 2 * b 1 ∧ a 2 * b 0 = a 0 * b 2 ∧ a 0 * b 1 = a 1 * b 0 := by
  rw [cross_apply]
  constructor
  · intro h
    have h0 := congrFun h 0
    have h1 := congrFun h 1
    have h2 := congrFun h 2
    simp at h0 h1 h2
    exact ⟨sub_eq_zero.1 h0, sub_eq_zero.1 h1, sub_eq_zero.1 h2⟩
  · rintro ⟨h0, h1, h2⟩
    ext i
    fin_cases i <;> simp [h0, h1, h2]

/-- **C36** in three dimensions: orthogonal to both inputs, and zero exactly for dependent inputs. -/
theorem C36_orthogonal3 (a b : Fin 3 → K) :
    a ⬝ᵥ orthogonal3 a b = 0 ∧ b ⬝ᵥ orthogonal3 a b = 0 ∧
    (orthogonal3 a b = 0 ↔ ∃ s t : K, (s ≠ 0 ∨ t ≠ 0) ∧ s • a + t • b = 0) := by
  unfold orthogonal3
  rw [cross_eq]
  refine ⟨dot_self_cross a b, dot_cross_self a b, ?_, ?_⟩
  · intro h
    rw [cross_eq_zero_iff'] at h
    obtain ⟨h0, h1, h2⟩ := h
    by_cases hb : b = 0
    · exact ⟨0, 1, Or.inr one_ne_zero, by simp [hb]⟩
    · obtain ⟨k, hk⟩ := Function.ne_iff.1 hb
      refine ⟨b k, -a k, Or.inl hk, ?_⟩
      ext i
      simp only [Pi.add_apply, Pi.smul_apply, smul_eq_mul, Pi.zero_apply]
      fin_cases k <;> fin_cases i <;>
        simp only [Fin.zero_eta, Fin.mk_one, Fin.reduceFinMk] <;>
        first
          | ring1
          | linear_combination (exp := 1) h0
          | linear_combination (exp := 1) -h0
          | linear_combination (exp := 1) h1
          | linear_combination (exp := 1) -h1
          | linear_combination (exp := 1) h2
          | linear_combination (exp := 1) -h2
  · rintro ⟨s, t, hst, h⟩
    have e0 := congrFun h 0
    have e1 := congrFun h 1
    have e2 := congrFun h 2
    simp only [Pi.add_apply, Pi.smul_apply, smul_eq_mul, Pi.zero_apply] at e0 e1 e2
    rw [cross_eq_zero_iff']
    rcases hst with hs | ht
    · refine ⟨?_, ?_, ?_⟩ <;> apply mul_left_cancel₀ hs
      · linear_combination b 2 * e1 - b 1 * e2
      · linear_combination b 0 * e2 - b 2 * e0
      · linear_combination b 1 * e0 - b 0 * e1
    · refine ⟨?_, ?_, ?_⟩ <;> apply mul_left_cancel₀ ht
      · linear_combination a 1 * e2 - a 2 * e1
      · linear_combination a 2 * e0 - a 0 * e2
      · linear_combination a 0 * e1 - a 1 * e0

/-- **C36** in two dimensions. -/
theorem C36_orthogonal2 (a : Fin 2 → K) : a ⬝ᵥ orthogonal2 a = 0 ∧ (orthogonal2 a = 0 ↔ a = 0) := by
  unfold orthogonal2 leftPerp
  refine ⟨by rw [dotProduct, Fin.sum_univ_two]; simp; ring, ?_⟩
  constructor
  · intro h
    have h0 := congrFun h 0
    have h1 := congrFun h 1
    simp at h0 h1
    ext i
    fin_cases i <;> simp [h0, h1]
  · rintro rfl
    ext i
    fin_cases i <;> simp

/-! ### `nullspace` -/

omit [LinearOrder K] [IsStrictOrderedRing K] in
theorem nullRow (V : ℕ → ℕ → K) {n r : ℕ} (hr : r < n) (x : ℕ → K) (k : ℕ) :
    loopFrom (r + 1) n (fun c x => Function.update x r (x r - V r c * x c)) x k =
      if k = r then x r - ∑ c ∈ Ico (r + 1) n, V r c * x c else x k := by
  have key := loopFrom_inv (lo := r + 1) (hi := n) (f := fun c x => Function.update x r (x r - V r c * x c)) (s := x)
    (fun j y => ∀ k, y k = if k = r then x r - ∑ c ∈ Ico (r + 1) j, V r c * x c else x k) (by omega)
    (fun k => by split_ifs with h <;> simp [h]) (by
      intro i hi1 hi2 y ih k
      show Function.update y r (y r - V r i * y i) k = _
      by_cases hk : k = r
      · subst hk
        rw [Function.update_self, if_pos rfl, ih k, if_pos rfl, ih i, if_neg (by omega), sum_Ico_succ_top (by omega)]
        ring
      · rw [Function.update_of_ne hk, ih k, if_neg hk, if_neg hk])
  exact key k

omit [IsStrictOrderedRing K] in
theorem nullBack_spec (V : ℕ → ℕ → K) (n b : ℕ) (x : ℕ → K) (hV : ∀ r < n, V r r ≠ 0) :
    ∃ y, nullBack V n b x = some y ∧ y (b + n) = 1 ∧ (∀ k, n ≤ k → k ≠ b + n → y k = x k) ∧
      ∀ r < n, (∑ c ∈ Ico r n, V r c * y c) + V r (n + b) = 0 := by
  obtain ⟨y, e, hy⟩ := loopM_inv (n := n) (f := fun t x =>
    let r := n - 1 - t
    let x := Function.update x r (-V r (n + b))
    let x := loopFrom (r + 1) n (fun c x => Function.update x r (x r - V r c * x c)) x
    if V r r = 0 then none else some (Function.update x r (x r / V r r)))
    (s := Function.update x (b + n) 1)
    (fun t y => (∀ k, n ≤ k → y k = Function.update x (b + n) 1 k) ∧
      ∀ r, n - t ≤ r → r < n → (∑ c ∈ Ico r n, V r c * y c) + V r (n + b) = 0)
    ⟨fun k _ => rfl, fun r h1 h2 => by omega⟩ (by
      rintro t ht y ⟨h1, h2⟩
      have hr : n - 1 - t < n := by omega
      simp only
      rw [if_neg (hV _ hr)]
      refine ⟨_, rfl, ?_, ?_⟩
      · intro k hk
        rw [Function.update_of_ne (by omega), nullRow V hr, if_neg (by omega), Function.update_of_ne (by omega)]
        exact h1 k hk
      · intro r hr1 hr2
        have same : ∀ c, n - 1 - t < c → Function.update (loopFrom (n - 1 - t + 1) n (fun c x =>
            Function.update x (n - 1 - t) (x (n - 1 - t) - V (n - 1 - t) c * x c))
            (Function.update y (n - 1 - t) (-V (n - 1 - t) (n + b)))) (n - 1 - t)
            (loopFrom (n - 1 - t + 1) n (fun c x =>
            Function.update x (n - 1 - t) (x (n - 1 - t) - V (n - 1 - t) c * x c))
            (Function.update y (n - 1 - t) (-V (n - 1 - t) (n + b))) (n - 1 - t) / V (n - 1 - t) (n - 1 - t)) c = y c := by
          intro c hc
          rw [Function.update_of_ne (by omega), nullRow V hr, if_neg (by omega), Function.update_of_ne (by omega)]
        rcases Nat.lt_or_eq_of_le (show n - 1 - t ≤ r by omega) with hlt | heq
        · rw [← h2 r (by omega) hr2]
          congr 1
          refine sum_congr rfl (fun c hc => ?_)
          rw [same c (by have := mem_Ico.1 hc; omega)]
        · subst heq
          rw [sum_eq_sum_Ico_succ_bot hr, Function.update_self, sum_congr rfl (fun c hc => by
            rw [same c (by have := mem_Ico.1 hc; omega)])]
          rw [nullRow V hr, if_pos rfl, Function.update_self, mul_div_cancel₀ _ (hV _ hr)]
          have : ∑ c ∈ Ico (n - 1 - t + 1) n, V (n - 1 - t) c *
              Function.update y (n - 1 - t) (-V (n - 1 - t) (n + b)) c =
              ∑ c ∈ Ico (n - 1 - t + 1) n, V (n - 1 - t) c * y c := by
            refine sum_congr rfl (fun c hc => ?_)
            rw [Function.update_of_ne (by have := mem_Ico.1 hc; omega)]
          rw [this]
          ring)
  refine ⟨y, e, ?_, fun k hk hk' => ?_, fun r hr => hy.2 r (by omega) hr⟩
  · rw [hy.1 _ (by omega), Function.update_self]
  · rw [hy.1 k hk, Function.update_of_ne hk']

omit [IsStrictOrderedRing K] in
theorem nullBack_none (V : ℕ → ℕ → K) {n r : ℕ} (b : ℕ) (x : ℕ → K) (hr : r < n) (h : V r r = 0) :
    nullBack V n b x = none := by
  refine loopM_none (k := n - 1 - r) (by omega) (fun o => ?_)
  simp only
  rw [show n - 1 - (n - 1 - r) = r by omega, if_pos h]

theorem nullspace_cases (v : ℕ → ℕ → K) {n N : ℕ} (hn : n < N) :
    ((view v n n).det ≠ 0 → ∃ X, nullspace v n N = some (true, X) ∧
      (∀ b < N - n, ∀ i < n, ∑ c ∈ range N, v i c * X b c = 0) ∧
      ∀ b < N - n, ∀ b' < N - n, X b (n + b') = if b' = b then 1 else 0) ∧
    ((view v n n).det = 0 → nullspace v n N = some (false, fun _ _ => 0) ∨ nullspace v n N = none) := by
  have hle : n ≤ N := hn.le
  unfold nullspace
  simp only
  constructor
  · intro hd
    rw [if_neg (fun hb => hd (leading_bad v hle hb))]
    have hp := (leading_det v hle).1 hd
    obtain ⟨X, e, h1, h2⟩ := loopM_inv (n := N - n) (f := fun b X =>
        (nullBack (decompPlu v n N).A n b (X b)).map (Function.update X b)) (s := fun _ _ => (0 : K))
      (fun t X => (∀ b, t ≤ b → X b = fun _ => 0) ∧ ∀ b < t,
        (∀ r < n, (∑ c ∈ Ico r n, (decompPlu v n N).A r c * X b c) + (decompPlu v n N).A r (n + b) = 0) ∧
        ∀ b' < N - n, X b (n + b') = if b' = b then 1 else 0)
      ⟨fun _ _ => rfl, fun b hb => by omega⟩ (by
        rintro t ht X ⟨h1, h2⟩
        obtain ⟨y, e, y1, y2, y3⟩ := nullBack_spec (decompPlu v n N).A n t (X t) hp
        refine ⟨_, by rw [e]; rfl, fun b hb => ?_, fun b hb => ?_⟩
        · rw [Function.update_of_ne (by omega)]
          exact h1 b (by omega)
        · rcases Nat.lt_or_eq_of_le (Nat.lt_succ_iff.1 hb) with hlt | heq
          · rw [Function.update_of_ne (by omega)]
            exact h2 b hlt
          · subst heq
            rw [Function.update_self]
            refine ⟨y3, fun b' hb' => ?_⟩
            by_cases hbb : b' = b
            · rw [if_pos hbb, hbb, add_comm, y1]
            · rw [if_neg hbb, y2 _ (by omega) (by omega), h1 b le_rfl])
    rw [e]
    refine ⟨X, rfl, fun b hb i hi => ?_, fun b hb => (h2 b hb).2⟩
    obtain ⟨g1, g2⟩ := h2 b hb
    refine null_of_upper v hle (X b) (fun r hr => ?_) i hi
    rw [← g1 r hr, ← sum_Ico_consecutive _ hr.le hle]
    congr 1
    rw [sum_eq_single (n + b)]
    · rw [g2 b hb, if_pos rfl, mul_one]
    · intro c hc hne
      have hc := mem_Ico.1 hc
      have := g2 (c - n) (by omega)
      rw [show n + (c - n) = c by omega, if_neg (by omega)] at this
      rw [this, mul_zero]
    · intro hc
      exact absurd (mem_Ico.2 ⟨by omega, by omega⟩) hc
  · intro hd
    by_cases hb : (decompPlu v n N).bad > 0
    · rw [if_pos hb]
      exact Or.inl rfl
    · rw [if_neg hb]
      right
      have : ¬ ∀ r < n, (decompPlu v n N).A r r ≠ 0 := fun h => (leading_det v hle).2 h hd
      push Not at this
      obtain ⟨r, hr, h0⟩ := this
      rw [loopM_none (k := 0) (by omega) (fun X => by rw [nullBack_none _ _ _ hr h0]; rfl)]
      rfl

/-- **C36**, `nullspace`: when it reports success, the `N - n` vectors are orthogonal to all the inputs and independent
(their last `N - n` coordinates form the identity); when it reports failure they are zero. -/
theorem C36_nullspace_sound (v : ℕ → ℕ → K) {n N : ℕ} (hn : n < N) (ok : Bool) (X : ℕ → ℕ → K)
    (h : nullspace v n N = some (ok, X)) :
    (ok = true → (∀ b < N - n, ∀ i < n, ∑ c ∈ range N, v i c * X b c = 0) ∧
      ∀ b < N - n, ∀ b' < N - n, X b (n + b') = if b' = b then 1 else 0) ∧
    (ok = false → (∀ b c, X b c = 0) ∧ (view v n n).det = 0) := by
  obtain ⟨h1, h2⟩ := nullspace_cases v hn
  by_cases hd : (view v n n).det = 0
  · rcases h2 hd with e | e
    · rw [e] at h
      obtain ⟨rfl, rfl⟩ := Prod.mk.inj (Option.some.inj h)
      exact ⟨fun h => (by cases h), fun _ => ⟨fun _ _ => rfl, hd⟩⟩
    · rw [e] at h
      cases h
  · obtain ⟨X', e, h3⟩ := h1 hd
    rw [e] at h
    obtain ⟨rfl, rfl⟩ := Prod.mk.inj (Option.some.inj h)
    exact ⟨fun _ => h3, fun h => by cases h⟩

/-- **C36**, `nullspace`: it succeeds exactly when the first `n` coordinates of the inputs are independent. -/
theorem C36_nullspace_iff (v : ℕ → ℕ → K) {n N : ℕ} (hn : n < N) :
    (∃ X, nullspace v n N = some (true, X)) ↔ (view v n n).det ≠ 0 := by
  obtain ⟨h1, h2⟩ := nullspace_cases v hn
  constructor
  · rintro ⟨X, e⟩ hd
    rcases h2 hd with e' | e' <;> rw [e] at e' <;> cases e'
  · intro hd
    obtain ⟨X, e, -⟩ := h1 hd
    exact ⟨X, e⟩

/-- **C36** refuted for `nullspace`: a single nonzero vector of three-dimensional space whose first coordinate is zero
divides by zero, and two different axes of four-dimensional space are reported dependent. -/
theorem C36_nullspace_refuted :
    (nullspace (fun _ c => if c = 1 then (1 : ℚ) else 0) 1 3).isNone ∧
    ((nullspace (axesWithout 0) 2 4).map Prod.fst) = some false := by
  decide +kernel

/-! ### Gram–Schmidt -/

variable {N : ℕ}

/-- The span of the first `k` vectors. -/
def spanTo (b : ℕ → Fin N → K) (k : ℕ) : Submodule K (Fin N → K) := Submodule.span K (b '' Set.Iio k)

omit [LinearOrder K] [IsStrictOrderedRing K] in
theorem mem_spanTo (b : ℕ → Fin N → K) {k i : ℕ} (h : i < k) : b i ∈ spanTo b k :=
  Submodule.subset_span ⟨i, h, rfl⟩

omit [LinearOrder K] [IsStrictOrderedRing K] in
theorem spanTo_congr {b b' : ℕ → Fin N → K} {k : ℕ} (h : ∀ i < k, b i = b' i) : spanTo b k = spanTo b' k := by
  unfold spanTo
  congr 1
  ext x
  constructor <;> rintro ⟨i, hi, rfl⟩
  · exact ⟨i, hi, (h i hi).symm⟩
  · exact ⟨i, hi, h i hi⟩

omit [LinearOrder K] [IsStrictOrderedRing K] in
theorem spanTo_succ (b : ℕ → Fin N → K) (k : ℕ) : spanTo b (k + 1) = Submodule.span K {b k} ⊔ spanTo b k := by
  unfold spanTo
  rw [← Submodule.span_union]
  congr 1
  ext x
  constructor
  · rintro ⟨i, hi, rfl⟩
    rcases Nat.lt_or_eq_of_le (Nat.lt_succ_iff.1 hi) with h | h
    · exact Or.inr ⟨i, h, rfl⟩
    · exact Or.inl (by rw [h]; rfl)
  · rintro (h | ⟨i, hi, rfl⟩)
    · exact ⟨k, Nat.lt_succ_self k, h.symm⟩
    · exact ⟨i, Nat.lt_succ_of_lt hi, rfl⟩

omit [LinearOrder K] [IsStrictOrderedRing K] in
theorem span_sup_congr {S : Submodule K (Fin N → K)} {u w : Fin N → K} (h : w - u ∈ S) :
    Submodule.span K {w} ⊔ S = Submodule.span K {u} ⊔ S := by
  apply le_antisymm
  · refine sup_le ?_ le_sup_right
    rw [Submodule.span_singleton_le_iff_mem]
    have : w = u + (w - u) := by abel
    rw [this]
    exact Submodule.add_mem_sup (Submodule.mem_span_singleton_self u) h
  · refine sup_le ?_ le_sup_right
    rw [Submodule.span_singleton_le_iff_mem]
    have : u = w + -(w - u) := by abel
    rw [this]
    exact Submodule.add_mem_sup (Submodule.mem_span_singleton_self w) (S.neg_mem h)

/-- One vector against the previous ones. -/
theorem gsInner (b : ℕ → Fin N → K) (i : ℕ) (ho : ∀ k l, k < i → l < i → k ≠ l → b k ⬝ᵥ b l = 0) :
    let b' := loop i (fun j b => Function.update b i (b i - projectOn (b i) (b j))) b
    (∀ k, k ≠ i → b' k = b k) ∧ (∀ l < i, b' i ⬝ᵥ b l = 0) ∧ b' i - b i ∈ spanTo b i := by
  have key := loop_inv (n := i) (f := fun j b => Function.update b i (b i - projectOn (b i) (b j))) (s := b)
    (fun j b' => j ≤ i → (∀ k, k ≠ i → b' k = b k) ∧ (∀ l < j, b' i ⬝ᵥ b l = 0) ∧ b' i - b i ∈ spanTo b i)
    (fun _ => ⟨fun _ _ => rfl, fun l hl => by omega, by rw [sub_self]; exact Submodule.zero_mem _⟩) (by
      intro j hj b' ih _
      obtain ⟨h1, h2, h3⟩ := ih hj.le
      have hj' : b' j = b j := h1 j (by omega)
      simp only [hj']
      refine ⟨fun k hk => by rw [Function.update_of_ne hk]; exact h1 k hk, fun l hl => ?_, ?_⟩
      · rw [Function.update_self]
        rcases Nat.lt_or_eq_of_le (Nat.lt_succ_iff.1 hl) with hlt | heq
        · rw [sub_dotProduct, h2 l hlt, projectOn_eq, smul_dotProduct, ho j l hj (by omega) (by omega)]
          simp
        · rw [heq]
          exact (C37_project_on (b' i) (b j)).2
      · rw [Function.update_self, show b' i - projectOn (b' i) (b j) - b i = (b' i - b i) - projectOn (b' i) (b j) by
          abel, projectOn_eq]
        exact Submodule.sub_mem _ h3 (Submodule.smul_mem _ _ (mem_spanTo b hj)))
  exact key le_rfl

/-- **C36**, `orthogonalize`: for every input (dependent or not) the result is pairwise orthogonal, the span of every
prefix is kept, and the first vector is unchanged. -/
theorem C36_orthogonalize (b : ℕ → Fin N → K) (n : ℕ) :
    let b' := orthogonalize b n
    (∀ i j, i < n → j < n → i ≠ j → b' i ⬝ᵥ b' j = 0) ∧ (∀ k ≤ n, spanTo b' k = spanTo b k) ∧ b' 0 = b 0 ∧
      ∀ k, n ≤ k → b' k = b k := by
  rcases Nat.eq_zero_or_pos n with rfl | hn
  · exact ⟨fun i j hi => by omega, fun k hk => by
      obtain rfl : k = 0 := by omega
      simp [spanTo], rfl, fun _ _ => rfl⟩
  have key := loopFrom_inv (lo := 1) (hi := n)
    (f := fun i b => loop i (fun j b => Function.update b i (b i - projectOn (b i) (b j))) b) (s := b)
    (fun i b' => (∀ k l, k < i → l < i → k ≠ l → b' k ⬝ᵥ b' l = 0) ∧ (∀ k ≤ i, spanTo b' k = spanTo b k) ∧
      b' 0 = b 0 ∧ ∀ k, i ≤ k → b' k = b k) hn
    ⟨fun k l hk hl h => by omega, fun k _ => rfl, rfl, fun _ _ => rfl⟩ (by
      rintro i hi1 hi2 b' ⟨h1, h2, h3, h4⟩
      obtain ⟨g1, g2, g3⟩ := gsInner b' i h1
      generalize loop i (fun j b => Function.update b i (b i - projectOn (b i) (b j))) b' = b'' at g1 g2 g3 ⊢
      refine ⟨?_, ?_, ?_, ?_⟩
      · intro k l hk hl hkl
        by_cases hki : k = i
        · subst hki
          rw [g1 l (by omega)]
          exact g2 l (by omega)
        · by_cases hli : l = i
          · subst hli
            rw [g1 k hki, dotProduct_comm]
            exact g2 k (by omega)
          · rw [g1 k hki, g1 l hli]
            exact h1 k l (by omega) (by omega) hkl
      · intro k hk
        rcases Nat.lt_or_eq_of_le hk with hlt | heq
        · rw [← h2 k (by omega)]
          exact spanTo_congr (fun l hl => g1 l (by omega))
        · subst heq
          rw [spanTo_succ, spanTo_succ, ← h2 i le_rfl, ← h4 i le_rfl,
            spanTo_congr (b := b'') (b' := b') (fun l hl => g1 l (by omega))]
          exact span_sup_congr g3
      · rw [g1 0 (by omega), h3]
      · intro k hk
        rw [g1 k (by omega), h4 k (by omega)])
  exact key

/-- Independence of the first `n` vectors. -/
def Indep (b : ℕ → Fin N → K) (n : ℕ) : Prop := LinearIndependent K (fun i : Fin n => b i)

omit [LinearOrder K] [IsStrictOrderedRing K] in
theorem indep_of_span {b b' : ℕ → Fin N → K} {n : ℕ} (h : spanTo b n = spanTo b' n) : Indep b n ↔ Indep b' n := by
  have hr : ∀ c : ℕ → Fin N → K, Set.range (fun i : Fin n => c i) = c '' Set.Iio n := by
    intro c
    ext x
    constructor
    · rintro ⟨i, rfl⟩
      exact ⟨i, i.2, rfl⟩
    · rintro ⟨i, hi, rfl⟩
      exact ⟨⟨i, hi⟩, rfl⟩
  unfold Indep
  rw [linearIndependent_iff_card_eq_finrank_span, linearIndependent_iff_card_eq_finrank_span, Set.finrank, Set.finrank,
    hr b, hr b']
  unfold spanTo at h
  rw [h]

theorem indep_of_orthogonal {b : ℕ → Fin N → K} {n : ℕ} (h : ∀ i j, i < n → j < n → i ≠ j → b i ⬝ᵥ b j = 0) :
    Indep b n ↔ ∀ i < n, b i ≠ 0 := by
  constructor
  · intro hi i hin
    exact hi.ne_zero (⟨i, hin⟩ : Fin n)
  · intro hne
    rw [Indep, Fintype.linearIndependent_iff]
    intro g hg i
    have := congrArg (fun x => x ⬝ᵥ b i) hg
    simp only [zero_dotProduct, sum_dotProduct, smul_dotProduct, smul_eq_mul] at this
    rw [sum_eq_single i (fun j _ hj => by
      rw [h j i j.2 i.2 (fun h => hj (Fin.ext h)), mul_zero]) (by simp)] at this
    exact (mul_eq_zero.1 this).resolve_right (self_dot_pos (hne i i.2)).ne'

/-- **C36**, `orthonormalize`: succeeds exactly for independent vectors, and then the result is orthonormal with the
spans kept. -/
theorem C36_orthonormalize {sqrt : K → K} (hs : IsSqrt sqrt) (b : ℕ → Fin N → K) (n : ℕ) :
    (orthonormalize sqrt b n = none ↔ ¬ Indep b n) ∧
    ∀ b', orthonormalize sqrt b n = some b' →
      (∀ i j, i < n → j < n → b' i ⬝ᵥ b' j = if i = j then 1 else 0) ∧ spanTo b' n = spanTo b n ∧
      ∃ t : K, 0 < t ∧ (0 < n → b 0 = t • b' 0) := by
  obtain ⟨h1, h2, h3, -⟩ := C36_orthogonalize b n
  have hind : Indep b n ↔ ∀ i < n, orthogonalize b n i ≠ 0 := by
    rw [← indep_of_orthogonal h1]
    exact indep_of_span (h2 n le_rfl).symm
  unfold orthonormalize
  generalize orthogonalize b n = c at h1 h2 h3 hind
  by_cases hne : ∀ i < n, c i ≠ 0
  · obtain ⟨d, e, hd1, hd2⟩ := loopM_inv (n := n) (f := fun i b =>
      let m := sqrt (mag2 (b i))
      if m = 0 then none else some (Function.update b i (fun k => b i k / m))) (s := c)
      (fun t d => (∀ i < t, d i = (sqrt (c i ⬝ᵥ c i))⁻¹ • c i) ∧ ∀ i, t ≤ i → d i = c i)
      ⟨fun i hi => by omega, fun _ _ => rfl⟩ (by
        rintro t ht d ⟨g1, g2⟩
        have hp := self_dot_pos (hne t ht)
        have hq := hs.pos _ hp
        simp only [mag2_eq, g2 t le_rfl]
        rw [if_neg hq.ne']
        refine ⟨_, rfl, fun i hi => ?_, fun i hi => ?_⟩
        · rcases Nat.lt_or_eq_of_le (Nat.lt_succ_iff.1 hi) with hlt | heq
          · rw [Function.update_of_ne (by omega), g1 i hlt]
          · subst heq
            rw [Function.update_self]
            ext k
            rw [Pi.smul_apply, smul_eq_mul]
            ring
        · rw [Function.update_of_ne (by omega), g2 i (by omega)])
    have hpos : ∀ i < n, 0 < sqrt (c i ⬝ᵥ c i) := fun i hi => hs.pos _ (self_dot_pos (hne i hi))
    have e : normalize sqrt c n = some d := e
    rw [e]
    refine ⟨by simp [hind.2 hne], fun b' hb' => ?_⟩
    obtain rfl := Option.some.inj hb'
    refine ⟨fun i j hi hj => ?_, ?_, ?_⟩
    · rw [hd1 i hi, hd1 j hj, smul_dotProduct, dotProduct_smul, smul_eq_mul, smul_eq_mul]
      split_ifs with hij
      · subst hij
        have := hs.sq _ (self_dot_nonneg (c i))
        have := hpos i hi
        field_simp
        rw [pow_two]
        exact (hs.sq _ (self_dot_nonneg (c i))).symm
      · rw [h1 i j hi hj hij]
        simp
    · rw [← h2 n le_rfl]
      apply le_antisymm
      · unfold spanTo
        rw [Submodule.span_le]
        rintro _ ⟨i, hi, rfl⟩
        rw [hd1 i hi]
        exact Submodule.smul_mem _ _ (Submodule.subset_span ⟨i, hi, rfl⟩)
      · unfold spanTo
        rw [Submodule.span_le]
        rintro _ ⟨i, hi, rfl⟩
        have : c i = sqrt (c i ⬝ᵥ c i) • d i := by
          rw [hd1 i hi, smul_smul, mul_inv_cancel₀ (hpos i hi).ne', one_smul]
        rw [this]
        exact Submodule.smul_mem _ _ (Submodule.subset_span ⟨i, hi, rfl⟩)
    · by_cases hn : 0 < n
      · refine ⟨sqrt (c 0 ⬝ᵥ c 0), hpos 0 hn, fun _ => ?_⟩
        rw [hd1 0 hn, smul_smul, mul_inv_cancel₀ (hpos 0 hn).ne', one_smul, h3]
      · exact ⟨1, one_pos, fun h => absurd h hn⟩
  · have hno : ¬ Indep b n := fun h => hne (hind.1 h)
    have : normalize sqrt c n = none := by
      push Not at hne
      -- the first zero vector is reached unchanged
      obtain ⟨k, ⟨hk, hz⟩, hmin⟩ : ∃ k, (k < n ∧ c k = 0) ∧ ∀ j < k, ¬ (j < n ∧ c j = 0) := by
        classical
        exact ⟨Nat.find hne, Nat.find_spec hne, fun j hj => Nat.find_min hne hj⟩
      have step : ∀ t, t ≤ k → ∃ d, loopM t (fun i b =>
          let m := sqrt (mag2 (b i))
          if m = 0 then none else some (Function.update b i (fun k => b i k / m))) c = some d ∧
          ∀ i, t ≤ i → d i = c i := by
        intro t ht
        refine loopM_inv (n := t) (P := fun t (d : ℕ → Fin N → K) => ∀ i, t ≤ i → d i = c i) (fun _ _ => rfl) ?_
        intro i hi d hd
        have hci : c i ≠ 0 := fun h0 => hmin i (by omega) ⟨by omega, h0⟩
        simp only [mag2_eq, hd i le_rfl]
        rw [if_neg (hs.pos _ (self_dot_pos hci)).ne']
        exact ⟨_, rfl, fun j hj => by rw [Function.update_of_ne (by omega), hd j (by omega)]⟩
      obtain ⟨d, e, hd⟩ := step k le_rfl
      have hk1 : loopM (k + 1) (fun i b =>
          let m := sqrt (mag2 (b i))
          if m = 0 then none else some (Function.update b i (fun k => b i k / m))) c = none := by
        rw [loopM, e, Option.bind_some]
        simp only [mag2_eq, hd k le_rfl, hz]
        rw [if_pos (by simp [hs.zero])]
      have : ∀ m, loopM (k + 1 + m) (fun i b =>
          let m := sqrt (mag2 (b i))
          if m = 0 then none else some (Function.update b i (fun k => b i k / m))) c = none := by
        intro m
        induction m with
        | zero => exact hk1
        | succ m ih => rw [← add_assoc, loopM, ih, Option.bind_none]
      have h := this (n - (k + 1))
      rwa [show k + 1 + (n - (k + 1)) = n by omega] at h
    rw [this]
    exact ⟨by simp [hno], fun b' hb' => by cases hb'⟩

/-- **C36**, `project_to_orthogonal_subspace`: on a pairwise orthogonal family (zeros allowed) it is the orthogonal
projection: the result is in the span and the rest is orthogonal to it. -/
theorem C36_project_orthogonal (b : ℕ → Fin N → K) (x : Fin N → K) (n : ℕ)
    (h : ∀ i j, i < n → j < n → i ≠ j → b i ⬝ᵥ b j = 0) :
    projectToOrthogonal b x n ∈ spanTo b n ∧ ∀ y ∈ spanTo b n, (x - projectToOrthogonal b x n) ⬝ᵥ y = 0 := by
  have key := loop_inv (n := n) (f := fun i out => out + projectOn x (b i)) (s := (0 : Fin N → K))
    (fun i out => i ≤ n → out ∈ spanTo b i ∧ (∀ j, j < n → (i ≤ j → out ⬝ᵥ b j = 0) ∧
      (j < i → (x - out) ⬝ᵥ b j = 0)))
    (fun _ => ⟨Submodule.zero_mem _, fun j hj => ⟨fun _ => by simp, fun hj => by omega⟩⟩) (by
      intro i hi out ih _
      obtain ⟨h1, h2⟩ := ih hi.le
      have hmono : spanTo b i ≤ spanTo b (i + 1) := by rw [spanTo_succ]; exact le_sup_right
      have hdot : ∀ j, j < n → i ≠ j → projectOn x (b i) ⬝ᵥ b j = 0 := by
        intro j hj hij
        rw [projectOn_eq, smul_dotProduct, h i j hi hj hij, smul_zero]
      refine ⟨Submodule.add_mem _ (hmono h1) ?_, fun j hj => ⟨fun hij => ?_, fun hij => ?_⟩⟩
      · rw [projectOn_eq]
        exact Submodule.smul_mem _ _ (mem_spanTo b (Nat.lt_succ_self i))
      · rw [add_dotProduct, (h2 j hj).1 (by omega), hdot j hj (by omega), add_zero]
      · rcases Nat.lt_or_eq_of_le (Nat.lt_succ_iff.1 hij) with hlt | heq
        · rw [show x - (out + projectOn x (b i)) = (x - out) - projectOn x (b i) by abel, sub_dotProduct,
            (h2 j hj).2 hlt, hdot j hj (by omega), sub_zero]
        · subst heq
          rw [show x - (out + projectOn x (b j)) = (x - projectOn x (b j)) - out by abel, sub_dotProduct,
            (C37_project_on x (b j)).2, (h2 j hj).1 le_rfl, sub_zero])
  obtain ⟨h1, h2⟩ := key le_rfl
  refine ⟨h1, fun y hy => ?_⟩
  refine Submodule.span_induction (p := fun y _ => (x - projectToOrthogonal b x n) ⬝ᵥ y = 0) ?_ (by simp)
    (fun y z _ _ hy hz => by rw [dotProduct_add, hy, hz, add_zero])
    (fun a y _ hy => by rw [dotProduct_smul, hy, smul_zero]) hy
  rintro _ ⟨j, hj, rfl⟩
  exact (h2 j hj).2 hj

/-- **C36**, `project_to_subspace`: the orthogonal projection to the span of independent vectors; undefined exactly for
dependent ones. -/
theorem C36_project_to_subspace {sqrt : K → K} (hs : IsSqrt sqrt) (b : ℕ → Fin N → K) (x : Fin N → K) (n : ℕ) :
    (projectToSubspace sqrt b x n = none ↔ ¬ Indep b n) ∧
    ∀ p, projectToSubspace sqrt b x n = some p → p ∈ spanTo b n ∧ ∀ y ∈ spanTo b n, (x - p) ⬝ᵥ y = 0 := by
  obtain ⟨h1, h2⟩ := C36_orthonormalize hs b n
  unfold projectToSubspace
  cases e : orthonormalize sqrt b n with
  | none => simpa using h1.1 e
  | some b' =>
    obtain ⟨g1, g2, -⟩ := h2 b' e
    refine ⟨?_, fun p hp => ?_⟩
    · rw [← h1, e]
      simp
    · obtain rfl := Option.some.inj hp
      rw [← g2]
      exact C36_project_orthogonal b' x n (fun i j hi hj hij => by rw [g1 i j hi hj, if_neg hij])

/-- **C36**, two dimensions: the second vector becomes perpendicular to the first; together they span the plane unless
the first is zero. -/
theorem C36_orthogonalize2 (b : ℕ → Fin 2 → K) :
    let b' := orthogonalize2 b 2
    b' 0 = b 0 ∧ b' 0 ⬝ᵥ b' 1 = 0 ∧ (b 0 ≠ 0 → ∀ x : Fin 2 → K, ∃ s t : K, x = s • b' 0 + t • b' 1) := by
  refine ⟨rfl, (C36_orthogonal2 (b 0)).1, fun h x => ?_⟩
  have hp := self_dot_pos h
  rw [dotProduct, Fin.sum_univ_two] at hp
  show ∃ s t : K, x = s • b 0 + t • leftPerp (b 0)
  refine ⟨(x 0 * b 0 0 + x 1 * b 0 1) / (b 0 0 * b 0 0 + b 0 1 * b 0 1),
    (x 1 * b 0 0 - x 0 * b 0 1) / (b 0 0 * b 0 0 + b 0 1 * b 0 1), ?_⟩
  have := hp.ne'
  generalize hD : b 0 0 * b 0 0 + b 0 1 * b 0 1 = D at *
  ext i
  fin_cases i <;> simp [leftPerp] <;> field_simp <;> rw [← hD] <;> ring

/-- **C36** refuted for the two-dimensional `orthogonalize`: `0, (1,0)` becomes `0, 0` and the span is lost (the general
version keeps it). -/
theorem C36_orthogonalize2_refuted :
    let b : ℕ → Fin 2 → ℚ := fun i => if i = 0 then 0 else ![1, 0]
    (orthogonalize2 b 2) 0 = 0 ∧ (orthogonalize2 b 2) 1 = 0 ∧ (orthogonalize b 2) 1 = ![1, 0] := by
  decide +kernel

/-! ### Concrete instances -/

example : ((orthogonal (fun i c => if i = c then (1 : ℚ) else if c = 3 then i else 0) 4).map
    (fun o => (List.range 4).map o)) = some [0, -1, -2, 1] := by decide +kernel

example : ((nullspace (fun _ c => (c + 1 : ℚ)) 1 3).map (fun r => (r.1, (List.range 3).map (r.2 0)))) =
    some (true, [-2, 1, 0]) := by decide +kernel

example : orthogonalize (fun i => if i = 0 then (![1, 1] : Fin 2 → ℚ) else ![2, 0]) 2 1 = ![1, -1] := by
  decide +kernel

end Geomc.LU
