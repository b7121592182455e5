import Mathlib.Tactic.FieldSimp
import Mathlib.Tactic.LinearCombination
import Verif.LU.SmallModel
import Verif.LU.Solve
import Verif.Duals.Props

/-!
# C33, C34 for sizes 2–4, diagonal matrices and permutations
-/

namespace Geomc.LU

open Geomc.Duals (diffOfProducts sumOfProducts diffOfProducts_eq sumOfProducts_eq)
open Geomc.Mtx

variable {K : Type} [Field K]

/-- The `n × n` matrix in a flat array, row by row or column by column. -/
def flat (n : ℕ) (rowMajor : Bool) (m : ℕ → K) : Matrix (Fin n) (Fin n) K :=
  Matrix.of fun i j => if rowMajor then m (n * i + j) else m (n * j + i)

theorem flat_false (n : ℕ) (m : ℕ → K) : flat n false m = (flat n true m).transpose := by
  ext i j
  simp [flat]

/-! ### C34 -/

theorem det2_eq (a b c d : K) : det2 a b c d = a * d - b * c := by
  rw [det2, diffOfProducts_eq]

theorem cofac_eq (a b c d e f : K) : cofac a b c d e f = a * b - c * d + e * f := by
  rw [cofac, diffOfProducts_eq]
  ring

theorem det_flat (n : ℕ) (l : Bool) (m : ℕ → K) : (flat n l m).det = (flat n true m).det := by
  cases l
  · rw [flat_false, Matrix.det_transpose]
  · rfl

/-- **C34**, 2 × 2, in either layout. -/
theorem C34_det2 (l : Bool) (m : ℕ → K) :
    det2m m = (flat 2 l m).det ∧ det2 (m 0) (m 1) (m 2) (m 3) = (flat 2 l m).det := by
  rw [det_flat, Matrix.det_fin_two]
  constructor <;> simp [flat, det2m, det2_eq, diffOfProducts_eq]

/-- **C34**, 3 × 3. -/
theorem C34_det3 (l : Bool) (m : ℕ → K) :
    det3m m = (flat 3 l m).det ∧
    det3 (m 0) (m 1) (m 2) (m 3) (m 4) (m 5) (m 6) (m 7) (m 8) = (flat 3 l m).det := by
  rw [det_flat, Matrix.det_fin_three]
  constructor <;>
  · simp [flat, det3m, det3, det2_eq, cofac_eq]
    ring

theorem det4_expand (M : Matrix (Fin 4) (Fin 4) K) : M.det =
    M 0 0 * (M 1 1 * (M 2 2 * M 3 3 - M 2 3 * M 3 2) - M 1 2 * (M 2 1 * M 3 3 - M 2 3 * M 3 1)
      + M 1 3 * (M 2 1 * M 3 2 - M 2 2 * M 3 1))
    - M 0 1 * (M 1 0 * (M 2 2 * M 3 3 - M 2 3 * M 3 2) - M 1 2 * (M 2 0 * M 3 3 - M 2 3 * M 3 0)
      + M 1 3 * (M 2 0 * M 3 2 - M 2 2 * M 3 0))
    + M 0 2 * (M 1 0 * (M 2 1 * M 3 3 - M 2 3 * M 3 1) - M 1 1 * (M 2 0 * M 3 3 - M 2 3 * M 3 0)
      + M 1 3 * (M 2 0 * M 3 1 - M 2 1 * M 3 0))
    - M 0 3 * (M 1 0 * (M 2 1 * M 3 2 - M 2 2 * M 3 1) - M 1 1 * (M 2 0 * M 3 2 - M 2 2 * M 3 0)
      + M 1 2 * (M 2 0 * M 3 1 - M 2 1 * M 3 0)) := by
  rw [Matrix.det_succ_row_zero, Fin.sum_univ_four]
  simp only [Matrix.det_fin_three, Matrix.submatrix_apply]
  simp [Fin.succAbove, Fin.lt_def]
  ring

/-- **C34**, 4 × 4. -/
theorem C34_det4 (l : Bool) (m : ℕ → K) : det4m m = (flat 4 l m).det := by
  rw [det_flat, det4_expand]
  simp [flat, det4m, det3, det2_eq, cofac_eq, diffOfProducts_eq]
  ring

/-- **C34**, diagonal matrices: the product of the diagonal, and zero when not square. -/
theorem C34_diag (v : Diag) (m : Mem K) :
    (v.rows ≠ v.cols → detDiag v m = 0) ∧
    (∀ n (d : Fin n → K), v.rows = n → v.cols = n → (∀ i : Fin n, m (v.base + i) = d i) →
      detDiag v m = (Matrix.diagonal d).det) := by
  refine ⟨fun h => if_pos h, fun n d h1 h2 hd => ?_⟩
  rw [detDiag, if_neg (by rw [h1, h2]; simp), h1, h2, min_self, Matrix.det_diagonal]
  have : ∀ k (hk : k ≤ n), (List.range k).foldl (fun d i => d * m (v.base + i)) 1 =
      ∏ i ∈ Finset.range k, m (v.base + i) := by
    intro k hk
    induction k with
    | zero => rfl
    | succ k ih =>
      rw [List.range_succ, List.foldl_append, ih (by omega), Finset.prod_range_succ]
      rfl
  rw [this n le_rfl, Finset.prod_range]
  exact Finset.prod_congr rfl (fun i _ => hd i)

theorem reach_good {n : ℕ} {p : Perm} {A : Matrix (Fin n) (Fin n) ℤ} (h : Reach n p A) : Good n p A := by
  obtain ⟨h1, h2, h3, -⟩ := C29_history h
  subst h1
  refine ⟨rfl, h2, fun r c => ?_⟩
  have := (h3 (fun _ => 0) r c).1
  rw [Perm.get, if_pos r.2] at this
  exact (Option.some.inj this).symm

/-- **C34**, permutation matrices: the value returned is the determinant exactly when the permutation has an even
number of cycles. -/
theorem C34_perm_iff {n : ℕ} {p : Perm} {A : Matrix (Fin n) (Fin n) ℤ} (h : Reach n p A) :
    ∃ σ : Equiv.Perm (Fin n), (∀ i : Fin n, p.src i = (σ i : Fin n)) ∧ A.det = Equiv.Perm.sign σ ∧
      (detPerm p = some A.det ↔ Even (Multiset.card σ.cycleType)) := by
  obtain ⟨hn, hv, he⟩ := (reach_good h)
  subst hn
  let σ : Equiv.Perm (Fin p.n) := {
    toFun := fun i => ⟨p.src i, (hv i i.2).1⟩
    invFun := fun i => ⟨p.dst i, (hv i i.2).2.1⟩
    left_inv := fun i => Fin.ext (hv i i.2).2.2.1
    right_inv := fun i => Fin.ext (hv i i.2).2.2.2 }
  have hσ : ∀ i : Fin p.n, p.src i = (σ i : Fin p.n) := fun i => rfl
  have hA : A = (1 : Matrix (Fin p.n) (Fin p.n) ℤ).submatrix σ id := by
    ext r c
    rw [he, hσ, Matrix.submatrix_apply, Matrix.one_apply]
    exact if_congr Fin.ext_iff.symm rfl rfl
  have hdet : A.det = Equiv.Perm.sign σ := by
    rw [hA, Matrix.det_permute, Matrix.det_one, mul_one]
    simp
  refine ⟨σ, hσ, hdet, ?_⟩
  rw [← C30_permutation_sign_iff σ p.src hσ, hdet]
  unfold detPerm
  constructor
  · intro h
    obtain ⟨⟨p', x⟩, h1, h2⟩ := Option.map_eq_some_iff.1 h
    exact ⟨p', by rw [h1, ← h2]⟩
  · rintro ⟨p', h1⟩
    rw [h1]
    rfl

/-! ### C33 -/

variable [DecidableEq K]

theorem inv2_spec (out m : ℕ → K) :
    ((flat 2 true m).det = 0 → inv2 out m = (false, out)) ∧
    ((flat 2 true m).det ≠ 0 → ∃ z, inv2 out m = (true, z) ∧ flat 2 true z * flat 2 true m = 1 ∧
      ∀ k, 4 ≤ k → z k = out k) := by
  have hd := (C34_det2 true m).2
  rw [← hd]
  refine ⟨fun h => by unfold inv2; simp only; rw [if_pos h], fun h => ?_⟩
  refine ⟨_, by unfold inv2; simp only; rw [if_neg h], ?_, fun k hk => ?_⟩
  · generalize hD : det2 (m 0) (m 1) (m 2) (m 3) = D at h
    rw [det2_eq] at hD
    ext i j
    rw [Matrix.mul_apply, Fin.sum_univ_two]
    fin_cases i <;> fin_cases j <;> simp [flat, copyOut] <;> field_simp <;> first | ring1 | linear_combination hD
  · simp [copyOut, hk]

theorem inv3_spec (out m : ℕ → K) :
    ((flat 3 true m).det = 0 → inv3 out m = (false, out)) ∧
    ((flat 3 true m).det ≠ 0 → ∃ z, inv3 out m = (true, z) ∧ flat 3 true z * flat 3 true m = 1 ∧
      ∀ k, 9 ≤ k → z k = out k) := by
  have hd : m 6 * det2 (m 5) (m 4) (m 2) (m 1) + det2 (m 0) (m 3) (det2 (m 8) (m 7) (m 2) (m 1))
      (det2 (m 8) (m 7) (m 5) (m 4)) = (flat 3 true m).det := by
    rw [Matrix.det_fin_three]
    simp [flat, det2_eq]
    ring
  rw [← hd]
  refine ⟨fun h => by unfold inv3; simp only; rw [if_pos h], fun h => ?_⟩
  refine ⟨_, by unfold inv3; simp only; rw [if_neg h], ?_, fun k hk => ?_⟩
  · generalize hD : m 6 * det2 (m 5) (m 4) (m 2) (m 1) + det2 (m 0) (m 3) (det2 (m 8) (m 7) (m 2) (m 1))
      (det2 (m 8) (m 7) (m 5) (m 4)) = D at h
    simp only [det2_eq] at hD ⊢
    ext i j
    rw [Matrix.mul_apply, Fin.sum_univ_three]
    fin_cases i <;> fin_cases j <;> simp [flat, copyOut] <;> field_simp <;>
      first | ring1 | linear_combination hD
  · simp [copyOut, hk]

theorem inv4_spec (out m : ℕ → K) :
    ((flat 4 true m).det = 0 → inv4 out m = (false, out)) ∧
    ((flat 4 true m).det ≠ 0 → ∃ z, inv4 out m = (true, z) ∧ flat 4 true z * flat 4 true m = 1 ∧
      ∀ k, 16 ≤ k → z k = out k) := by
  have hd : diffOfProducts (det2 (m 0) (m 1) (m 4) (m 5)) (det2 (m 10) (m 11) (m 14) (m 15))
        (det2 (m 0) (m 2) (m 4) (m 6)) (det2 (m 9) (m 11) (m 13) (m 15))
      + diffOfProducts (det2 (m 1) (m 2) (m 5) (m 6)) (det2 (m 8) (m 11) (m 12) (m 15))
        (det2 (m 1) (m 3) (m 5) (m 7)) (det2 (m 8) (m 10) (m 12) (m 14))
      + sumOfProducts (det2 (m 0) (m 3) (m 4) (m 7)) (det2 (m 9) (m 10) (m 13) (m 14))
        (det2 (m 2) (m 3) (m 6) (m 7)) (det2 (m 8) (m 9) (m 12) (m 13)) = (flat 4 true m).det := by
    rw [det4_expand]
    simp [flat, det2_eq, diffOfProducts_eq, sumOfProducts_eq]
    ring
  rw [← hd]
  refine ⟨fun h => by unfold inv4; simp only; rw [if_pos h], fun h => ?_⟩
  refine ⟨_, by unfold inv4; simp only; rw [if_neg h], ?_, fun k hk => ?_⟩
  · generalize hD : diffOfProducts (det2 (m 0) (m 1) (m 4) (m 5)) (det2 (m 10) (m 11) (m 14) (m 15))
        (det2 (m 0) (m 2) (m 4) (m 6)) (det2 (m 9) (m 11) (m 13) (m 15))
      + diffOfProducts (det2 (m 1) (m 2) (m 5) (m 6)) (det2 (m 8) (m 11) (m 12) (m 15))
        (det2 (m 1) (m 3) (m 5) (m 7)) (det2 (m 8) (m 10) (m 12) (m 14))
      + sumOfProducts (det2 (m 0) (m 3) (m 4) (m 7)) (det2 (m 9) (m 10) (m 13) (m 14))
        (det2 (m 2) (m 3) (m 6) (m 7)) (det2 (m 8) (m 9) (m 12) (m 13)) = D at h
    simp only [det2_eq, cofac_eq, diffOfProducts_eq, sumOfProducts_eq] at hD ⊢
    ext i j
    rw [Matrix.mul_apply, Fin.sum_univ_four]
    fin_cases i <;> fin_cases j <;> simp [flat, copyOut] <;> field_simp <;>
      first | ring1 | linear_combination hD
  · simp [copyOut, hk]

omit [DecidableEq K] in
theorem flat_transpose (n : ℕ) (l : Bool) (z : ℕ → K) : flat n l (flatTranspose n z) = flat n (!l) z := by
  have idx : ∀ i j : Fin n, flatTranspose n z (n * i + j) = z (n * j + i) := by
    intro i j
    have hlt : n * (i : ℕ) + j < n * n := by
      have : n * (i : ℕ) + n ≤ n * n := by
        rw [← Nat.mul_succ]
        exact Nat.mul_le_mul_left n i.2
      omega
    rw [flatTranspose, if_pos hlt, Nat.mul_add_mod, Nat.mod_eq_of_lt j.2, Nat.mul_add_div (by omega),
      Nat.div_eq_of_lt j.2, add_zero, Nat.mul_comm]
  ext i j
  cases l <;> simp [flat, idx]

/-- The class level inverse from the flat one. -/
theorem classInv_spec {n : ℕ} {raw : (ℕ → K) → (ℕ → K) → Bool × (ℕ → K)} (out m : ℕ → K) (lo lm : Bool)
    (h0 : (flat n true m).det = 0 → raw out m = (false, out))
    (h1 : (flat n true m).det ≠ 0 → ∃ z, raw out m = (true, z) ∧ flat n true z * flat n true m = 1) :
    ((flat n lm m).det = 0 → classInv n raw lo lm out m = (false, out)) ∧
    ((flat n lm m).det ≠ 0 → ∃ z, classInv n raw lo lm out m = (true, z) ∧
      flat n lo z * flat n lm m = 1 ∧ flat n lm m * flat n lo z = 1) := by
  rw [det_flat]
  refine ⟨fun h => ?_, fun h => ?_⟩
  · unfold classInv
    rw [h0 h]
    rfl
  · obtain ⟨z, e, hz⟩ := h1 h
    have hz' : flat n lm z * flat n lm m = 1 := by
      cases lm
      · rw [flat_false, flat_false, ← Matrix.transpose_mul, mul_eq_one_comm.1 hz, Matrix.transpose_one]
      · exact hz
    have fin : ∀ w, flat n lo w = flat n lm z → flat n lo w * flat n lm m = 1 ∧ flat n lm m * flat n lo w = 1 := by
      intro w hw
      rw [hw]
      exact ⟨hz', mul_eq_one_comm.1 hz'⟩
    by_cases hl : lo = lm
    · refine ⟨z, ?_, fin z (by rw [hl])⟩
      unfold classInv
      rw [e]
      simp [hl]
    · refine ⟨flatTranspose n z, ?_, fin _ ?_⟩
      · unfold classInv
        rw [e]
        simp [hl]
      · rw [flat_transpose]
        congr 1
        cases lo <;> cases lm <;> simp_all

/-- **C33**, sizes 2, 3 and 4, whatever the layouts: `false` exactly for singular input (destination unchanged), else the
result is the two-sided inverse. -/
theorem C33_inv2 (out m : ℕ → K) (lo lm : Bool) :
    ((flat 2 lm m).det = 0 → classInv 2 inv2 lo lm out m = (false, out)) ∧
    ((flat 2 lm m).det ≠ 0 → ∃ z, classInv 2 inv2 lo lm out m = (true, z) ∧
      flat 2 lo z * flat 2 lm m = 1 ∧ flat 2 lm m * flat 2 lo z = 1) :=
  classInv_spec out m lo lm (inv2_spec out m).1 (fun h => by
    obtain ⟨z, e, h1, -⟩ := (inv2_spec out m).2 h
    exact ⟨z, e, h1⟩)

theorem C33_inv3 (out m : ℕ → K) (lo lm : Bool) :
    ((flat 3 lm m).det = 0 → classInv 3 inv3 lo lm out m = (false, out)) ∧
    ((flat 3 lm m).det ≠ 0 → ∃ z, classInv 3 inv3 lo lm out m = (true, z) ∧
      flat 3 lo z * flat 3 lm m = 1 ∧ flat 3 lm m * flat 3 lo z = 1) :=
  classInv_spec out m lo lm (inv3_spec out m).1 (fun h => by
    obtain ⟨z, e, h1, -⟩ := (inv3_spec out m).2 h
    exact ⟨z, e, h1⟩)

theorem C33_inv4 (out m : ℕ → K) (lo lm : Bool) :
    ((flat 4 lm m).det = 0 → classInv 4 inv4 lo lm out m = (false, out)) ∧
    ((flat 4 lm m).det ≠ 0 → ∃ z, classInv 4 inv4 lo lm out m = (true, z) ∧
      flat 4 lo z * flat 4 lm m = 1 ∧ flat 4 lm m * flat 4 lo z = 1) :=
  classInv_spec out m lo lm (inv4_spec out m).1 (fun h => by
    obtain ⟨z, e, h1, -⟩ := (inv4_spec out m).2 h
    exact ⟨z, e, h1⟩)

/-- **C33**, diagonal into a separate diagonal matrix: succeeds exactly when no diagonal element is zero, with the
reciprocals. -/
theorem C33_diag (into v : Diag) (m : Mem K) {n : ℕ} (hv : min v.rows v.cols = n)
    (hi : min into.rows into.cols = n)
    (hsep : ∀ i < n, ∀ j < n, into.base + i ≠ v.base + j) :
    ((∀ i < n, m (v.base + i) ≠ 0) → ∃ m', invDiag into v m = some (true, m') ∧
      (∀ i < n, m' (into.base + i) * m (v.base + i) = 1) ∧ ∀ i < n, m' (v.base + i) = m (v.base + i)) ∧
    ((∃ i < n, m (v.base + i) = 0) → ∃ m', invDiag into v m = some (false, m')) := by
  -- the loop from element `k` on
  have key : ∀ (j k : ℕ) (m₁ : Mem K), k + j = n → (∀ i < n, m₁ (v.base + i) = m (v.base + i)) →
      (∀ i < k, m₁ (into.base + i) * m (v.base + i) = 1) →
      ((∀ i, k ≤ i → i < n → m (v.base + i) ≠ 0) →
        ∃ m', invDiagLoop into v (List.range' k j) m₁ = some (true, m') ∧
        (∀ i < n, m' (into.base + i) * m (v.base + i) = 1) ∧ ∀ i < n, m' (v.base + i) = m (v.base + i)) ∧
      ((∃ i, k ≤ i ∧ i < n ∧ m (v.base + i) = 0) →
        ∃ m', invDiagLoop into v (List.range' k j) m₁ = some (false, m')) := by
    intro j
    induction j with
    | zero =>
      intro k m₁ hk h1 h2
      refine ⟨fun _ => ⟨m₁, rfl, fun i hi' => h2 i (by omega), h1⟩, ?_⟩
      rintro ⟨i, h, h', -⟩
      omega
    | succ j ih =>
      intro k m₁ hk h1 h2
      have hkn : k < n := by omega
      have red : invDiagLoop into v (List.range' k (j + 1)) m₁ =
          if m (v.base + k) = 0 then some (false, m₁) else
            invDiagLoop into v (List.range' (k + 1) j)
              (Function.update m₁ (into.base + k) (1 / m (v.base + k))) := by
        rw [List.range'_succ, invDiagLoop, Diag.rd, if_pos (by omega)]
        simp only [Option.bind_eq_bind, Option.bind_some, h1 k hkn]
        split_ifs
        · rfl
        · rw [Diag.wr, if_pos (by omega)]
          rfl
      rw [red]
      by_cases hz : m (v.base + k) = 0
      · rw [if_pos hz]
        exact ⟨fun h => absurd hz (h k le_rfl hkn), fun _ => ⟨m₁, rfl⟩⟩
      · rw [if_neg hz]
        have := ih (k + 1) (Function.update m₁ (into.base + k) (1 / m (v.base + k))) (by omega)
          (fun i hi' => by rw [Function.update_of_ne (fun h => hsep k hkn i hi' h.symm), h1 i hi'])
          (fun i hi' => by
            by_cases hik : i = k
            · rw [hik, Function.update_self]
              field_simp
            · rw [Function.update_of_ne (by omega)]
              exact h2 i (by omega))
        refine ⟨fun h => this.1 (fun i hi' hi'' => h i (by omega) hi''), fun ⟨i, h1', h2', h3'⟩ => this.2 ⟨i, ?_, h2', h3'⟩⟩
        rcases Nat.lt_or_eq_of_le h1' with h | h
        · omega
        · exact absurd (h ▸ h3') hz
  have hfill : ∀ i < n, into.fill 0 m (v.base + i) = m (v.base + i) := by
    intro i hi'
    unfold Diag.fill
    rw [if_neg]
    rintro ⟨h1, h2⟩
    exact hsep (v.base + i - into.base) (by omega) i hi' (by omega)
  have := key n 0 (into.fill 0 m) (by omega) hfill (fun i hi' => by omega)
  unfold invDiag
  rw [hv, List.range_eq_range']
  refine ⟨fun h => this.1 (fun i _ hi' => h i hi'), fun ⟨i, h1, h2⟩ => this.2 ⟨i, Nat.zero_le i, h1, h2⟩⟩

/-- **C33** refuted for a diagonal matrix inverted in place, which `inv` documents as allowed: the destination is zeroed
before it is read, so every inversion fails and destroys the matrix. -/
theorem C33_diag_in_place_refuted (v : Diag) (m : Mem K) (h : 0 < min v.rows v.cols) :
    ∃ m', invDiag v v m = some (false, m') ∧ ∀ i < min v.rows v.cols, m' (v.base + i) = 0 := by
  have hz : ∀ i < min v.rows v.cols, v.fill 0 m (v.base + i) = 0 := by
    intro i hi
    unfold Diag.fill
    rw [if_pos ⟨by omega, by omega⟩]
  refine ⟨v.fill 0 m, ?_, hz⟩
  unfold invDiag
  obtain ⟨k, hk⟩ : ∃ k, min v.rows v.cols = k + 1 := ⟨min v.rows v.cols - 1, by omega⟩
  rw [List.range_eq_range', hk, List.range'_succ, invDiagLoop, Diag.rd, if_pos h]
  simp only [Option.bind_eq_bind, Option.bind_some, hz 0 h, if_true]

/-- **C33**, permutation matrices: the inverse is computed for every reachable object, into matrices of either storage
kind. -/
theorem C33_perm {n : ℕ} {p q : Perm} {A B : Matrix (Fin n) (Fin n) ℤ} (h : Reach n p A) (hq : Reach n q B) :
    ∃ C : Matrix (Fin n) (Fin n) ℤ, A * C = 1 ∧ C * A = 1 ∧ Reach n (invPermStatic p) C ∧
      ∃ q', invPermDynamic q p = some q' ∧ Reach n q' C := by
  obtain ⟨hn, hv, he⟩ := reach_good h
  have hqn := (reach_good hq).size
  subst hn
  let σ : Equiv.Perm (Fin p.n) := {
    toFun := fun i => ⟨p.dst i, (hv i i.2).2.1⟩
    invFun := fun i => ⟨p.src i, (hv i i.2).1⟩
    left_inv := fun i => Fin.ext (hv i i.2).2.2.2
    right_inv := fun i => Fin.ext (hv i i.2).2.2.1 }
  have hσ : ∀ i : Fin p.n, p.dst i = (σ i : Fin p.n) := fun i => rfl
  obtain ⟨q', e, hg, -⟩ := Good.setRowSources hqn σ p.dst hσ
  have hT : A.transpose = rowMatrix p.dst := by
    ext r c
    have h2 := (reach_good h).transpose.elem r c
    rw [h2]
    rfl
  have hA : A = (1 : Matrix (Fin p.n) (Fin p.n) ℤ).submatrix σ.symm id := by
    ext r c
    rw [he, Matrix.submatrix_apply, Matrix.one_apply]
    refine if_congr ?_ rfl rfl
    rw [Fin.ext_iff]
    rfl
  have hmul : A * A.transpose = 1 := by
    ext r c
    rw [Matrix.mul_apply, hA]
    simp [Matrix.one_apply, Matrix.transpose_apply]
  refine ⟨A.transpose, hmul, mul_eq_one_comm.1 hmul, h.transpose, q', e, ?_⟩
  rw [hT]
  exact hq.setRowSources σ p.dst hσ e

/-! ### Concrete instances -/

example : (inv2 (fun _ => 0) (fun k => (k + 1 : ℚ))).1 = true ∧
    (List.range 4).map (inv2 (fun _ => 0) (fun k => (k + 1 : ℚ))).2 = [-2, 1, 3 / 2, -1 / 2] := by decide +kernel

example : (inv3 (fun _ => 0) (fun k => (k : ℚ))).1 = false ∧
    (inv3 (fun _ => 0) (fun k => (k * k : ℚ))).1 = true ∧
    (inv4 (fun _ => 0) (fun k => if k = 5 then (2 : ℚ) else if k % 5 = 0 then 1 else 0)).2 5 = 1 / 2 := by
  decide +kernel

example : det4m (fun k => if k % 5 = 0 then (k + 1 : ℚ) else 0) = 1 * 6 * 11 * 16 := by decide +kernel

end Geomc.LU
