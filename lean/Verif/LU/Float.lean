import Verif.LU.FloatSub
import Mathlib.Data.Fin.VecNotation

/-!
# Property C113: decompositions and solutions of linear systems are those of nearby systems
-/

namespace Geomc.LU

open Geomc.Flt (IsRound IsFloat eps)
open Geomc.Mtx (permutationApply C72_apply)

variable {K : Type} [Field K] [LinearOrder K] [IsStrictOrderedRing K]

/-! ### Matrices -/

theorem abs_lower (A : ℕ → ℕ → K) (rows n : ℕ) (r : Fin rows) (k : Fin n) :
    |lower A rows n r k| = lower (fun r c => |A r c|) rows n r k := by
  simp only [lower, Matrix.of_apply]
  split_ifs <;> simp

theorem abs_upper (A : ℕ → ℕ → K) (n cols : ℕ) (k : Fin n) (c : Fin cols) :
    |upper A n cols k c| = upper (fun r c => |A r c|) n cols k c := by
  simp only [upper, Matrix.of_apply]
  split_ifs <;> simp

theorem plu_err {rnd : K → K} {u m : K} (hn : Near rnd u) (hm : 0 ≤ m) (A : ℕ → ℕ → K) {rows cols : ℕ} (h : rows ≤ cols)
    (hA : ∀ r < rows, ∀ c < cols, |A r c| ≤ m) :
    let s := decompPluF rnd A rows cols
    let L := lower s.A rows rows
    let U := upper s.A rows cols
    (∃ σ : Equiv.Perm (Fin rows), (∀ r : Fin rows, s.p r = (σ r : Fin rows)) ∧
      (Equiv.Perm.sign σ = if s.parity then -1 else 1) ∧
      ∀ (r : Fin rows) (c : Fin cols), |A (σ r) c - (L * U) r c| ≤ gam u r * ∑ k, |L r k| * |U k c|) ∧
    (∀ r k, |L r k| ≤ 1) ∧ ∀ k c, |U k c| ≤ (2 * (1 + u)) ^ (k : ℕ) * m := by
  intro s L U
  obtain ⟨⟨σ, hσ, hs⟩, hf, -, hmult, hgrow⟩ := plu_invE hn hm A rows cols hA
  refine ⟨⟨σ, hσ, hs, fun r c => ?_⟩, fun r k => ?_, fun k c => ?_⟩
  · have h1 := hf r r.2 c c.2
    rw [show min (r : ℕ) (min rows cols - 1) = r by omega] at h1
    have e1 : (L * U) r c = (∑ k ∈ Finset.range (r : ℕ), if k ≤ (c : ℕ) then s.A r k * s.A k c else 0) +
        if (r : ℕ) ≤ c then s.A r c else 0 := by
      rw [lower_mul_upper, show min (r : ℕ) rows = r by omega,
        if_congr (show (r : ℕ) < rows ∧ (r : ℕ) ≤ c ↔ (r : ℕ) ≤ c by omega) rfl rfl]
    have e2 : ∑ k, |L r k| * |U k c| = (∑ k ∈ Finset.range (r : ℕ), |if k ≤ (c : ℕ) then s.A r k * s.A k c else 0|) +
        |if (r : ℕ) ≤ c then s.A r c else 0| := by
      have := lower_mul_upper (fun r c => |s.A r c|) rows rows cols r c
      rw [Matrix.mul_apply] at this
      rw [Finset.sum_congr rfl (fun k _ => by rw [abs_lower, abs_upper]), this, show min (r : ℕ) rows = r by omega,
        if_congr (show (r : ℕ) < rows ∧ (r : ℕ) ≤ c ↔ (r : ℕ) ≤ c by omega) rfl rfl]
      congr 1
      · refine Finset.sum_congr rfl (fun k _ => ?_)
        split_ifs
        · exact (abs_mul _ _).symm
        · exact abs_zero.symm
      · split_ifs
        · rfl
        · exact abs_zero.symm
    rw [e1, e2, ← sub_sub, show ((σ r : Fin rows) : ℕ) = (decompPluF rnd A rows cols).p r from (hσ r).symm]
    exact h1
  · simp only [L, lower, Matrix.of_apply]
    by_cases h1 : (k : ℕ) < r
    · rw [if_pos h1]
      exact hmult k (by omega) r h1 r.2
    · rw [if_neg h1]
      split_ifs <;> simp
  · simp only [U, upper, Matrix.of_apply]
    have hu := hn.nonneg
    by_cases h1 : (k : ℕ) ≤ c
    · rw [if_pos h1]
      have := hgrow k k.2 c c.2 (by omega)
      rwa [show min (k : ℕ) (min rows cols - 1) = k by omega] at this
    · rw [if_neg h1, abs_zero]
      positivity

/-- Three errors in a row. -/
theorem residual {n : ℕ} {g : K} (hg : 0 ≤ g) (L U B : Matrix (Fin n) (Fin n) K) (b y x : Fin n → K)
    (h1 : ∀ r, |b r - ∑ k, L r k * y k| ≤ g * ∑ k, |L r k| * |y k|)
    (h2 : ∀ k, |y k - ∑ c, U k c * x c| ≤ g * ∑ c, |U k c| * |x c|)
    (h3 : ∀ r c, |B r c - (L * U) r c| ≤ g * ∑ k, |L r k| * |U k c|) (r : Fin n) :
    |b r - ∑ c, B r c * x c| ≤ ((1 + g) ^ 3 - 1) * ∑ c, (∑ k, |L r k| * |U k c|) * |x c| := by
  set W : Fin n → K := fun k => ∑ c, |U k c| * |x c| with hW
  have hW0 : ∀ k, 0 ≤ W k := fun k => Finset.sum_nonneg fun c _ => by positivity
  have hS : ∑ c, (∑ k, |L r k| * |U k c|) * |x c| = ∑ k, |L r k| * W k := by
    simp only [hW, Finset.sum_mul, Finset.mul_sum]
    rw [Finset.sum_comm]
    exact Finset.sum_congr rfl fun k _ => Finset.sum_congr rfl fun c _ => by ring
  have hS0 : 0 ≤ ∑ k, |L r k| * W k := Finset.sum_nonneg fun k _ => mul_nonneg (abs_nonneg _) (hW0 k)
  have hy : ∀ k, |y k| ≤ (1 + g) * W k := fun k => by
    have a : |∑ c, U k c * x c| ≤ W k := by
      refine (Finset.abs_sum_le_sum_abs _ _).trans (le_of_eq ?_)
      exact Finset.sum_congr rfl fun c _ => abs_mul _ _
    have b := h2 k
    have c := abs_sub_abs_le_abs_sub (y k) (∑ c, U k c * x c)
    simp only [hW] at a b ⊢
    linarith
  have t1 : |b r - ∑ k, L r k * y k| ≤ g * (1 + g) * ∑ k, |L r k| * W k := by
    refine (h1 r).trans ?_
    rw [mul_assoc, Finset.mul_sum (a := 1 + g)]
    refine mul_le_mul_of_nonneg_left (Finset.sum_le_sum fun k _ => ?_) hg
    calc |L r k| * |y k| ≤ |L r k| * ((1 + g) * W k) := mul_le_mul_of_nonneg_left (hy k) (abs_nonneg _)
      _ = (1 + g) * (|L r k| * W k) := by ring
  have t2 : |∑ k, L r k * (y k - ∑ c, U k c * x c)| ≤ g * ∑ k, |L r k| * W k := by
    refine (Finset.abs_sum_le_sum_abs _ _).trans ?_
    rw [Finset.mul_sum]
    refine Finset.sum_le_sum fun k _ => ?_
    rw [abs_mul]
    calc |L r k| * |y k - ∑ c, U k c * x c| ≤ |L r k| * (g * W k) := mul_le_mul_of_nonneg_left (h2 k) (abs_nonneg _)
      _ = g * (|L r k| * W k) := by ring
  have t3 : |∑ c, (B r c - (L * U) r c) * x c| ≤ g * ∑ k, |L r k| * W k := by
    rw [← hS, Finset.mul_sum]
    refine (Finset.abs_sum_le_sum_abs _ _).trans (Finset.sum_le_sum fun c _ => ?_)
    rw [abs_mul, ← mul_assoc]
    exact mul_le_mul_of_nonneg_right (h3 r c) (abs_nonneg _)
  have hLU : ∑ c, (L * U) r c * x c = ∑ k, L r k * ∑ c, U k c * x c := by
    simp only [Matrix.mul_apply, Finset.sum_mul, Finset.mul_sum]
    rw [Finset.sum_comm]
    exact Finset.sum_congr rfl fun k _ => Finset.sum_congr rfl fun c _ => by ring
  have e : b r - ∑ c, B r c * x c = (b r - ∑ k, L r k * y k) + (∑ k, L r k * (y k - ∑ c, U k c * x c)) -
      ∑ c, (B r c - (L * U) r c) * x c := by
    simp only [mul_sub, sub_mul, Finset.sum_sub_distrib]
    rw [hLU]
    ring
  rw [e, hS]
  have s1 := abs_sub ((b r - ∑ k, L r k * y k) + (∑ k, L r k * (y k - ∑ c, U k c * x c))) (∑ c, (B r c - (L * U) r c) * x c)
  have s2 := abs_add_le (b r - ∑ k, L r k * y k) (∑ k, L r k * (y k - ∑ c, U k c * x c))
  have s3 : 0 ≤ (g ^ 3 + 2 * g ^ 2) * ∑ k, |L r k| * W k := by positivity
  nlinarith

/-- A small residual is the effect of a small change of the matrix. -/
theorem perturb {n : ℕ} (G : Fin n → Fin n → K) (hG : ∀ r c, 0 ≤ G r c) (x ρ : Fin n → K)
    (h : ∀ r, |ρ r| ≤ ∑ c, G r c * |x c|) :
    ∃ E : Matrix (Fin n) (Fin n) K, (∀ r c, |E r c| ≤ G r c) ∧ ∀ r, ∑ c, E r c * x c = ρ r := by
  refine ⟨Matrix.of fun r c => ρ r / (∑ c, G r c * |x c|) * (G r c * if 0 ≤ x c then 1 else -1), fun r c => ?_, fun r => ?_⟩
  · have hD : 0 ≤ ∑ c, G r c * |x c| := Finset.sum_nonneg fun c _ => mul_nonneg (hG r c) (abs_nonneg _)
    have h1 : |ρ r / (∑ c, G r c * |x c|)| ≤ 1 := by
      rw [abs_div, abs_of_nonneg hD]
      exact div_le_one_of_le₀ (h r) hD
    have h2 : |if 0 ≤ x c then (1 : K) else -1| = 1 := by split_ifs <;> simp
    rw [Matrix.of_apply, abs_mul, abs_mul, h2, mul_one, abs_of_nonneg (hG r c)]
    exact mul_le_of_le_one_left (hG r c) h1
  · have hx : ∀ c, (if 0 ≤ x c then (1 : K) else -1) * x c = |x c| := fun c => by
      split_ifs with h0
      · rw [one_mul, abs_of_nonneg h0]
      · rw [abs_of_neg (not_le.1 h0)]
        ring
    have e : ∀ c ∈ Finset.univ, (Matrix.of fun r c => ρ r / (∑ c, G r c * |x c|) * (G r c * if 0 ≤ x c then 1 else -1)) r c * x c =
        ρ r / (∑ c, G r c * |x c|) * (G r c * |x c|) := fun c _ => by
      rw [Matrix.of_apply, mul_assoc, mul_assoc, hx]
    rw [Finset.sum_congr rfl e, ← Finset.mul_sum]
    by_cases hD : ∑ c, G r c * |x c| = 0
    · have : ρ r = 0 := abs_eq_zero.1 (le_antisymm (hD ▸ h r) (abs_nonneg _))
      rw [this, zero_div, zero_mul]
    · exact div_mul_cancel₀ _ hD

/-! ### The substitutions of a column -/

theorem solve_err {rnd : K → K} {u m : K} (hn : Near rnd u) (hm : 0 ≤ m) (f : Bool) (A X X' Z : ℕ → ℕ → K) (n w : ℕ)
    (hA : ∀ r < n, ∀ c < n, |A r c| ≤ m)
    (hX : ∀ r < n, ∀ i < w, X' r i = X ((decompPluF rnd A n n).p r) i)
    (hZ : backwardF rnd f (decompPluF rnd A n n).A n w 0 (forwardLuF rnd f (decompPluF rnd A n n).A n w X') = some Z) :
    ∀ i < w, ∃ E : Matrix (Fin n) (Fin n) K,
      (∀ r : Fin n, ∑ c : Fin n, (A r c + E r c) * Z c i = X r i) ∧
      (∃ σ : Equiv.Perm (Fin n), (∀ r : Fin n, (decompPluF rnd A n n).p r = (σ r : Fin n)) ∧
        ∀ r c, |E (σ r) c| ≤ gam u (3 * n) * ∑ k, |lower (decompPluF rnd A n n).A n n r k| * |upper (decompPluF rnd A n n).A n n k c|) ∧
      ∀ r c, |E r c| ≤ gam u (3 * n) * n * (2 * (1 + u)) ^ (n - 1) * m := by
  intro i hi
  have hu := hn.nonneg
  obtain ⟨⟨σ, hσ, -, hLU⟩, hL, hU⟩ := plu_err hn hm A (le_refl n) hA
  set M := (decompPluF rnd A n n).A with hM
  have hne : ∀ r, 0 ≤ r → r < n → M r r ≠ 0 ∨ w = 0 := fun r h0 hr => by
    refine Or.inl fun h => ?_
    rw [backwardF_none rnd f M _ h0 hr (by omega) h] at hZ
    exact absurd hZ (by simp)
  obtain ⟨Z', e, hZ'⟩ := backwardF_spec hn f M (forwardLuF rnd f M n w X') n w 0 (Nat.zero_le n) hne
  rw [e] at hZ
  obtain rfl : Z' = Z := by simpa using hZ
  set Y := forwardLuF rnd f M n w X' with hY
  have hgn := gam_nonneg hu n
  have hres := residual hgn (lower M n n) (upper M n n) (Matrix.of fun r c => A (σ r) c) (fun r => X (σ r) i) (fun k => Y k i)
    (fun c => Z' c i) (fun r => by
      have h1 := forwardLuF_spec hn f M X' n w r r.2 i hi
      have e1 := lower_mul_view M Y n w r ⟨i, hi⟩
      have e2 := lower_mul_view (fun r c => |M r c|) (fun r c => |Y r c|) n w r ⟨i, hi⟩
      rw [Matrix.mul_apply] at e1 e2
      simp only [view, Matrix.of_apply, ← abs_lower] at e1 e2
      rw [e1, e2, ← hσ r, ← hX r r.2 i hi, add_comm, ← sub_sub,
        add_comm (|Y r i|)]
      refine h1.trans ?_
      rw [Finset.sum_congr rfl (fun k _ => abs_mul _ _)]
      exact mul_le_mul_of_nonneg_right (gam_mono hu (by omega)) (by positivity))
    (fun k => by
      have h1 := (hZ' i hi).1 k (Nat.zero_le _) k.2
      have e1 := upper_mul_view M Z' n w k ⟨i, hi⟩
      have e2 := upper_mul_view (fun r c => |M r c|) (fun r c => |Z' r c|) n w k ⟨i, hi⟩
      rw [Matrix.mul_apply] at e1 e2
      simp only [view, Matrix.of_apply, ← abs_upper] at e1 e2
      rw [e1, e2]
      rw [Finset.sum_congr rfl (fun c _ => mul_comm (M k c) (Z' c i)),
        Finset.sum_congr rfl (fun c _ => (mul_comm (|M k c|) (|Z' c i|)).trans (abs_mul _ _).symm)]
      exact h1.trans (mul_le_mul_of_nonneg_right (gam_mono hu (by omega)) (Finset.sum_nonneg fun _ _ => abs_nonneg _)))
    (fun r c => (hLU r c).trans (mul_le_mul_of_nonneg_right (gam_mono hu (by omega))
      (Finset.sum_nonneg fun _ _ => mul_nonneg (abs_nonneg _) (abs_nonneg _))))
  have hg3 : (1 + gam u n) ^ 3 - 1 = gam u (3 * n) := by
    unfold gam
    rw [mul_comm 3 n, pow_mul]
    ring
  rw [hg3] at hres
  have hg3n := gam_nonneg hu (3 * n)
  obtain ⟨E, hE, hEx⟩ := perturb (fun r c => gam u (3 * n) * ∑ k, |lower M n n r k| * |upper M n n k c|)
    (fun r c => mul_nonneg hg3n (Finset.sum_nonneg fun _ _ => mul_nonneg (abs_nonneg _) (abs_nonneg _))) (fun c => Z' c i)
    (fun r => X (σ r) i - ∑ c : Fin n, A (σ r) c * Z' c i) (fun r => by
      refine (hres r).trans (le_of_eq ?_)
      rw [Finset.mul_sum]
      exact Finset.sum_congr rfl fun c _ => by ring)
  refine ⟨fun r c => E (σ.symm r) c, fun r => ?_, ⟨σ, hσ, fun r c => ?_⟩, fun r c => ?_⟩
  · have := hEx (σ.symm r)
    rw [Equiv.apply_symm_apply] at this
    simp only [add_mul, Finset.sum_add_distrib]
    rw [this]
    ring
  · show |E (σ.symm (σ r)) c| ≤ _
    rw [Equiv.symm_apply_apply]
    exact hE r c
  · refine (hE _ c).trans ?_
    rw [mul_assoc, mul_assoc]
    refine mul_le_mul_of_nonneg_left ?_ hg3n
    have : ∀ k ∈ Finset.univ, |lower M n n (σ.symm r) k| * |upper M n n k c| ≤ (2 * (1 + u)) ^ (n - 1) * m := fun k _ => by
      calc |lower M n n (σ.symm r) k| * |upper M n n k c| ≤ 1 * ((2 * (1 + u)) ^ (k : ℕ) * m) :=
            mul_le_mul (hL _ _) (hU _ _) (abs_nonneg _) zero_le_one
        _ ≤ (2 * (1 + u)) ^ (n - 1) * m := by
            rw [one_mul]
            exact mul_le_mul_of_nonneg_right (pow_le_pow_right₀ (by linarith) (by omega)) hm
    have := Finset.sum_le_sum this
    simpa using this

/-! ### C113 -/

section
variable [FloorRing K] {p : ℕ} {rnd : K → K}

/-- **C113**: the factors stored by `decomp_plu` multiply to a matrix that is close to the input with its rows in the order of `reorder`.
The error of an element of row `r` is that of `r` operations, relative to the product of the factors with all signs dropped.  The
elements of the lower factor are at most one, and those of the upper one are at most about `2ᵏ` times the largest element. -/
theorem C113_plu (hp : 1 ≤ p) (h : IsRound p rnd) (A : ℕ → ℕ → K) {rows cols : ℕ} (hrc : rows ≤ cols) {m : K} (hm : 0 ≤ m)
    (hA : ∀ r < rows, ∀ c < cols, |A r c| ≤ m) :
    let s := decompPluF rnd A rows cols
    let L := lower s.A rows rows
    let U := upper s.A rows cols
    (∃ σ : Equiv.Perm (Fin rows), (∀ r : Fin rows, s.p r = (σ r : Fin rows)) ∧
      (Equiv.Perm.sign σ = if s.parity then -1 else 1) ∧
      ∀ (r : Fin rows) (c : Fin cols), |A (σ r) c - (L * U) r c| ≤ ((1 + eps K p) ^ (r : ℕ) - 1) * ∑ k, |L r k| * |U k c|) ∧
    (∀ r k, |L r k| ≤ 1) ∧ ∀ k c, |U k c| ≤ (2 * (1 + eps K p)) ^ (k : ℕ) * m :=
  plu_err (near_of_round hp h) hm A hrc hA

/-- **C113**: what `linear_solve` puts in each column solves a system with a matrix close to that given, and exactly the right-hand side
given. -/
theorem C113_solve (hp : 1 ≤ p) (h : IsRound p rnd) (fused : Bool) {A X Z : ℕ → ℕ → K} {n w : ℕ} {m : K} (hm : 0 ≤ m)
    (hA : ∀ r < n, ∀ c < n, |A r c| ≤ m) (hZ : linearSolveF rnd fused A n w X 0 = some (true, Z)) :
    ∀ i < w, ∃ E : Matrix (Fin n) (Fin n) K,
      (∀ r : Fin n, ∑ c : Fin n, (A r c + E r c) * Z c i = X r i) ∧
      (∃ σ : Equiv.Perm (Fin n), (∀ r : Fin n, (decompPluF rnd A n n).p r = (σ r : Fin n)) ∧
        ∀ r c, |E (σ r) c| ≤ ((1 + eps K p) ^ (3 * n) - 1) *
          ∑ k, |lower (decompPluF rnd A n n).A n n r k| * |upper (decompPluF rnd A n n).A n n k c|) ∧
      ∀ r c, |E r c| ≤ ((1 + eps K p) ^ (3 * n) - 1) * n * (2 * (1 + eps K p)) ^ (n - 1) * m := by
  have hn := near_of_round hp h
  obtain ⟨⟨σ, hσ, -⟩, -⟩ := plu_err hn hm A (le_refl n) hA
  obtain ⟨p', X', ea, hX', -⟩ := C72_apply σ _ hσ X
  unfold linearSolveF at hZ
  simp only [ea] at hZ
  by_cases hb : 0 < (decompPluF rnd A n n).bad
  · rw [if_pos hb] at hZ
    exact absurd hZ (by simp)
  · rw [if_neg hb] at hZ
    refine solve_err hn hm fused A X X' Z n w hA (fun r hr i _ => by rw [hX' r hr]) ?_
    cases hB : backwardF rnd fused (decompPluF rnd A n n).A n w 0 (forwardLuF rnd fused (decompPluF rnd A n n).A n w X') with
    | none => simp [hB] at hZ
    | some Z' =>
      simp [hB] at hZ
      rw [hZ]

/-- **C113**: each column of the inverse of a matrix of any size is the column of the inverse of a matrix close to it. -/
theorem C113_inverse (hp : 1 ≤ p) (h : IsRound p rnd) (fused : Bool) {out A Z : ℕ → ℕ → K} {n : ℕ} {m : K} (hm : 0 ≤ m)
    (hA : ∀ r < n, ∀ c < n, |A r c| ≤ m) (hZ : invNxNF rnd fused out A n = some (true, Z)) (i : Fin n) :
    ∃ E : Matrix (Fin n) (Fin n) K,
      (∀ r : Fin n, ∑ c : Fin n, (A r c + E r c) * Z c i = if r = i then 1 else 0) ∧
      ∀ r c, |E r c| ≤ ((1 + eps K p) ^ (3 * n) - 1) * n * (2 * (1 + eps K p)) ^ (n - 1) * m := by
  have hn := near_of_round hp h
  obtain ⟨⟨σ, hσ, -⟩, -⟩ := plu_err hn hm A (le_refl n) hA
  unfold invNxNF at hZ
  simp only at hZ
  by_cases hb : 0 < (decompPluF rnd A n n).bad
  · rw [if_pos hb] at hZ
    exact absurd hZ (by simp)
  · rw [if_neg hb] at hZ
    obtain ⟨E, h1, -, h3⟩ := solve_err hn hm fused A (fun r c => if r = c then 1 else 0)
      (loop n (fun i o => put o i ((decompPluF rnd A n n).p i) 1) (fun _ _ => 0)) Z n n hA (fun r hr i _ => by
        rw [fillPerm]
        exact if_congr ⟨fun h => h.2.symm, fun h => ⟨hr, h.symm⟩⟩ rfl rfl) (by
        cases hB : backwardF rnd fused (decompPluF rnd A n n).A n n 0 (forwardLuF rnd fused (decompPluF rnd A n n).A n n
            (loop n (fun i o => put o i ((decompPluF rnd A n n).p i) 1) (fun _ _ => 0))) with
        | none => simp [hB] at hZ
        | some Z' =>
          simp [hB] at hZ
          rw [hZ]) i i.2
    refine ⟨E, fun r => ?_, h3⟩
    rw [h1 r]
    exact if_congr Fin.ext_iff.symm rfl rfl

/-- **C113**: where `linear_solve` or the inverse fails, or divides by a pivot that is zero, the matrix is close to a singular one. -/
theorem C113_failure (hp : 1 ≤ p) (h : IsRound p rnd) (A : ℕ → ℕ → K) {n : ℕ} {m : K} (hm : 0 ≤ m)
    (hA : ∀ r < n, ∀ c < n, |A r c| ≤ m)
    (hf : (∃ fused w X skip Z, skip ≤ n ∧ (linearSolveF rnd fused A n w X skip = some (false, Z) ∨
        linearSolveF rnd fused A n w X skip = none)) ∨
      ∃ fused out Z, invNxNF rnd fused out A n = some (false, Z) ∨ invNxNF rnd fused out A n = none) :
    ∃ E : Matrix (Fin n) (Fin n) K, (view A n n + E).det = 0 ∧
      ∀ r c, |E r c| ≤ ((1 + eps K p) ^ n - 1) * n * (2 * (1 + eps K p)) ^ (n - 1) * m := by
  have hn := near_of_round hp h
  have hu := hn.nonneg
  obtain ⟨⟨σ, hσ, -, hLU⟩, hL, hU⟩ := plu_err hn hm A (le_refl n) hA
  -- a pivot is zero
  have hz : ∃ r < n, (decompPluF rnd A n n).A r r = 0 := by
    by_contra hc
    push Not at hc
    have hb : (decompPluF rnd A n n).bad = 0 := by
      rw [(plu_invE hn hm A n n hA).bad, Finset.card_eq_zero, Finset.filter_eq_empty_iff]
      intro k hk
      rw [Finset.mem_range] at hk
      exact hc k (by omega)
    rcases hf with ⟨f, w, X, skip, Z, hs, hf⟩ | ⟨f, out, Z, hf⟩
    · obtain ⟨p', X', ea, -, -⟩ := C72_apply σ _ hσ X
      obtain ⟨W, e, -⟩ := backwardF_spec hn f (decompPluF rnd A n n).A (forwardLuF rnd f (decompPluF rnd A n n).A n w X') n w skip hs
        (fun r _ hr => Or.inl (hc r hr))
      simp [linearSolveF, hb, ea, e] at hf
    · obtain ⟨W, e, -⟩ := backwardF_spec hn f (decompPluF rnd A n n).A (forwardLuF rnd f (decompPluF rnd A n n).A n n
        (loop n (fun i o => put o i ((decompPluF rnd A n n).p i) 1) (fun _ _ => 0))) n n 0 (Nat.zero_le n)
        (fun r _ hr => Or.inl (hc r hr))
      simp [invNxNF, hb, e] at hf
  obtain ⟨k, hk, hz⟩ := hz
  set M := (decompPluF rnd A n n).A with hM
  refine ⟨(lower M n n * upper M n n).submatrix σ.symm id - view A n n, ?_, fun r c => ?_⟩
  · rw [add_sub_cancel, Matrix.det_permute, Matrix.det_mul, upper_det, Finset.prod_eq_zero (Finset.mem_univ (⟨k, hk⟩ : Fin n)) hz]
    simp
  · have := hLU (σ.symm r) c
    rw [Equiv.apply_symm_apply] at this
    rw [Matrix.sub_apply, Matrix.submatrix_apply, abs_sub_comm]
    refine this.trans ?_
    rw [mul_assoc, mul_assoc]
    refine mul_le_mul (gam_mono hu (by omega)) ?_ (Finset.sum_nonneg fun _ _ => mul_nonneg (abs_nonneg _) (abs_nonneg _))
      (gam_nonneg hu n)
    have : ∀ k ∈ Finset.univ, |lower M n n (σ.symm r) k| * |upper M n n k c| ≤ (2 * (1 + eps K p)) ^ (n - 1) * m := fun k _ => by
      calc |lower M n n (σ.symm r) k| * |upper M n n k c| ≤ 1 * ((2 * (1 + eps K p)) ^ (k : ℕ) * m) :=
            mul_le_mul (hL _ _) (hU _ _) (abs_nonneg _) zero_le_one
        _ ≤ (2 * (1 + eps K p)) ^ (n - 1) * m := by
            rw [one_mul]
            exact mul_le_mul_of_nonneg_right (pow_le_pow_right₀ (by linarith) (by omega)) hm
    have := Finset.sum_le_sum this
    simpa using this

omit [FloorRing K] in
theorem third_not_float (p : ℕ) : ¬ IsFloat p (1 / 3 : K) := by
  rintro ⟨m, e, -, h⟩
  rcases le_total 0 e with he | he
  · obtain ⟨k, rfl⟩ := Int.eq_ofNat_of_zero_le he
    have : ((3 * m * 2 ^ k : ℤ) : K) = (1 : ℤ) := by
      push_cast
      rw [zpow_natCast] at h
      linarith
    have := Int.cast_injective this
    have : (3 : ℤ) ∣ 1 := ⟨m * 2 ^ k, by linarith⟩
    omega
  · obtain ⟨k, hk⟩ := Int.eq_ofNat_of_zero_le (neg_nonneg.2 he)
    obtain rfl : e = -(k : ℤ) := by omega
    have h2 : (2 : K) ^ k ≠ 0 := by positivity
    rw [zpow_neg, zpow_natCast] at h
    have : ((3 * m : ℤ) : K) = ((2 ^ k : ℤ) : K) := by
      push_cast
      field_simp at h
      linarith
    have := Int.cast_injective this
    have h3 : (3 : ℤ) ∣ 2 ^ k := ⟨m, by linarith⟩
    have key : ∀ k : ℕ, (2 : ℤ) ^ k % 3 = 1 ∨ (2 : ℤ) ^ k % 3 = 2 := fun k => by
      induction k with
      | zero => left; rfl
      | succ k ih => rw [pow_succ]; omega
    have := key k
    omega

/-- **C113** refuted for the converse: at every precision, and however ties are rounded, there is a matrix that is not singular for which
failure is reported. -/
theorem C113_singular_refuted (hp : 2 ≤ p) (h : IsRound p rnd) (fused : Bool) (w : ℕ) (X : ℕ → ℕ → K) :
    let A : ℕ → ℕ → K := fun r c => match r, c with
      | 0, 0 => 3
      | 0, 1 => 1
      | 1, 0 => 1
      | 1, 1 => rnd (1 / 3)
      | 2, 2 => 1
      | _, _ => 0
    (∀ r c, IsFloat p (A r c)) ∧ (view A 3 3).det ≠ 0 ∧ linearSolveF rnd fused A 3 w X 0 = some (false, X) := by
  have hp1 : 1 ≤ p := by omega
  intro A
  refine ⟨?_, ?_, ?_⟩
  · have one : IsFloat p (1 : K) := by simpa using Flt.float_pow (K := K) hp1 0
    have three : IsFloat p (3 : K) := ⟨3, 0, by
      have : (2 : ℤ) ^ 2 ≤ 2 ^ p := pow_le_pow_right₀ (by norm_num) hp
      rw [abs_of_pos (by norm_num)]
      linarith, by norm_num⟩
    intro r c
    simp only [A]
    split
    · exact three
    · exact one
    · exact one
    · exact h.mem _
    · exact one
    · exact Flt.float_zero p
  · have : rnd (1 / 3) ≠ 1 / 3 := fun h' => third_not_float p (h' ▸ h.mem _)
    rw [Matrix.det_fin_three]
    simp only [view, Matrix.of_apply, A, Fin.isValue, Fin.val_zero, Fin.val_one, Fin.val_two]
    intro h'
    apply this
    linarith
  · have h0 : rnd 0 = 0 := h.fix (Flt.float_zero p)
    have h3 : rnd (1 / 3) ≤ 1 := h.le_of_le (by simpa using Flt.float_pow (K := K) hp1 0) (by norm_num)
    have hpos : 0 < rnd (1 / 3) := by
      have := (h.bounds hp1 (show (0 : K) ≤ 1 / 3 by norm_num)).1
      have := Flt.eps_le (K := K) hp1
      linarith
    have hbad : (decompPluF rnd A 3 3).bad = 1 := by
      have s0 : pluStepF rnd 3 3 0 ⟨A, fun i => i, false, 0⟩ = ⟨eliminateF rnd A 3 3 0, fun i => i, false, 0⟩ := by
        have : findRowPivot A 3 0 = (0, 3) := by
          simp [findRowPivot, loopFrom, loop, A]
        simp [pluStepF, this]
      have s1 : pluStepF rnd 3 3 1 ⟨eliminateF rnd A 3 3 0, fun i => i, false, 0⟩ =
          ⟨eliminateF rnd A 3 3 0, fun i => i, false, 1⟩ := by
        have : findRowPivot (eliminateF rnd A 3 3 0) 3 1 = (1, 0) := by
          rw [one_div] at hpos
          simp [findRowPivot, loopFrom, loop, eliminateF_apply, upd, A, h0, hpos.ne']
        simp [pluStepF, this]
      show (loop 2 (pluStepF rnd 3 3) ⟨A, fun i => i, false, 0⟩).bad = 1
      rw [loop, loop, loop, s0, s1]
    simp [linearSolveF, hbad]

end

omit [IsStrictOrderedRing K] in
/-- **C113**: without rounding these are the exact functions. -/
theorem C113_exact (fused : Bool) (A X : ℕ → ℕ → K) (n m skip : ℕ) :
    linearSolveF id fused A n m X skip = linearSolve A n m X skip ∧ invNxNF id fused X A n = invNxN X A n := by
  cases fused <;> exact ⟨rfl, rfl⟩

/-- With four bits, the solution of `7 x + y = 1`, `3 x + 2 y = 1` comes out as `0.102, 0.344` instead of `1/11, 4/11`; without rounding it is
exact. -/
example :
    let A : ℕ → ℕ → ℚ := fun r c => if r = 0 then (if c = 0 then 7 else 1) else if c = 0 then 3 else 2
    let x := fun rnd f => (linearSolveF rnd f A 2 1 (fun _ _ => 1) 0).map fun s => (s.1, s.2 0 0, s.2 1 0)
    x (Flt.nearest 4) true = some (true, 13 / 128, 11 / 32) ∧ x (Flt.nearest 4) false = some (true, 13 / 128, 11 / 32) ∧
      x id true = some (true, 1 / 11, 4 / 11) := by
  decide +kernel

end Geomc.LU
