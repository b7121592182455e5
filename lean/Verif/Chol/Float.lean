import Verif.Chol.FloatLemmas

/-!
# Property C114: Cholesky decompositions with rounding
-/

namespace Geomc.LU

open Geomc.Flt (IsRound IsFloat eps)
open Finset

variable {K : Type} [Field K] [LinearOrder K] [IsStrictOrderedRing K] [FloorRing K] {p : ℕ} {rnd : K → K}

/-- **C114**, success: the result is lower triangular with positive diagonal, and `L Lᵀ` is close to the symmetric matrix given by the lower
triangle of the input: the error is that of `n + 1` operations, both relative to the product with all signs dropped and, if that is less
than one, relative to the geometric mean of the diagonal elements. -/
theorem C114_sound (hp : 1 ≤ p) (h : IsRound p rnd) (fused : Bool) {sqrt : K → K}
    (hsq : ∀ x, 0 < x → 0 < sqrt x ∧ sqrt x * sqrt x = x) (A : ℕ → ℕ → K) (n : ℕ)
    (hok : (choleskyF rnd fused sqrt A n).ok = true) :
    let L := view (choleskyF rnd fused sqrt A n).A n n
    let E := view (symm A) n n - L * L.transpose
    let g := (1 + eps K p) ^ (n + 1) - 1
    (∀ i j, i < j → L i j = 0) ∧ (∀ i, 0 < L i i) ∧ (∀ i j, |E i j| ≤ g * ∑ k, |L i k| * |L j k|) ∧
      (g < 1 → ∀ i j, ((1 - g) * E i j) ^ 2 ≤ (2 * g) ^ 2 * (A i i * A j j)) := by
  intro L E g
  have hn := near_of_round hp h
  have hu1 : eps K p < 1 := by have := Flt.eps_le (K := K) hp; linarith
  have hg : 0 ≤ g := gam_nonneg hn.nonneg (n + 1)
  rcases chol_invE hn hu1 fused hsq A n with ⟨-, hi⟩ | ⟨h', -⟩
  swap
  · rw [hok] at h'
    cases h'
  set s := choleskyF rnd fused sqrt A n with hs
  have hz : ∀ i j, i < j → j < n → s.A i j = 0 := fun i j hij hj => hi.zero i j hij (Or.inl hj)
  have full : ∀ (i j : Fin n), (j : ℕ) ≤ i → ∀ φ : K → K, φ 0 = 0 →
      ∑ k : Fin n, φ (s.A i k * s.A j k) = ∑ k ∈ range ((j : ℕ) + 1), φ (s.A i k * s.A j k) := by
    intro i j hij φ hφ
    rw [← sum_range (fun k => φ (s.A i k * s.A j k))]
    symm
    refine sum_subset (range_mono (by omega)) (fun k hk hk' => ?_)
    rw [mem_range] at hk hk'
    rw [hz j k (by omega) hk, mul_zero, hφ]
  have low : ∀ i j : Fin n, (j : ℕ) ≤ i → |A i j - ∑ k : Fin n, s.A i k * s.A j k| ≤ g * ∑ k : Fin n, |s.A i k * s.A j k| ∧
      (g < 1 → ((1 - g) * (A i j - ∑ k : Fin n, s.A i k * s.A j k)) ^ 2 ≤ (2 * g) ^ 2 * (A i i * A j j)) := by
    intro i j hij
    have f1 := full i j hij id rfl
    simp only [id] at f1
    rw [f1, full i j hij abs abs_zero]
    have hd := hi.done i j hij (Or.inl i.2)
    refine ⟨hd, fun hg1 => ?_⟩
    exact err_bound hg hg1 ((j : ℕ) + 1) (fun k => s.A i k) (fun k => s.A j k) hd
      (row_len _ ((i : ℕ) + 1) (by omega) hg1 (fun k => s.A i k) (hi.done i i le_rfl (Or.inl i.2)))
      (row_len _ ((j : ℕ) + 1) le_rfl hg1 (fun k => s.A j k) (hi.done j j le_rfl (Or.inl j.2)))
  have hE : ∀ i j : Fin n, (j : ℕ) ≤ i → E i j = A i j - ∑ k : Fin n, s.A i k * s.A j k := fun i j hij => by
    simp only [E, L, Matrix.sub_apply, Matrix.mul_apply, view, symm, Matrix.of_apply, Matrix.transpose_apply, if_pos hij]
    rfl
  have hE' : ∀ i j : Fin n, ¬ (j : ℕ) ≤ i → E i j = A j i - ∑ k : Fin n, s.A j k * s.A i k := fun i j hij => by
    simp only [E, L, Matrix.sub_apply, Matrix.mul_apply, view, symm, Matrix.of_apply, Matrix.transpose_apply, if_neg hij]
    congr 1
    exact sum_congr rfl fun k _ => mul_comm _ _
  refine ⟨fun i j hij => hz i j hij j.2, fun i => hi.pos i (Or.inl i.2), fun i j => ?_, fun hg1 i j => ?_⟩
  · by_cases hij : (j : ℕ) ≤ i
    · rw [hE i j hij]
      have := (low i j hij).1
      simp only [abs_mul] at this
      exact this
    · rw [hE' i j hij]
      have := (low j i (by omega)).1
      simp only [abs_mul] at this
      refine this.trans (le_of_eq ?_)
      congr 1
      exact sum_congr rfl fun k _ => mul_comm _ _
  · by_cases hij : (j : ℕ) ≤ i
    · rw [hE i j hij]
      exact (low i j hij).2 hg1
    · rw [hE' i j hij, mul_comm (A i i)]
      exact (low j i (by omega)).2 hg1

/-- **C114**: the decomposition succeeds if all symmetric matrices near the input are positive definite. -/
theorem C114_complete (hp : 1 ≤ p) (h : IsRound p rnd) (fused : Bool) {sqrt : K → K}
    (hsq : ∀ x, 0 < x → 0 < sqrt x ∧ sqrt x * sqrt x = x) (A : ℕ → ℕ → K) (n : ℕ)
    (hg1 : (1 + eps K p) ^ (n + 1) - 1 < 1) (hA : ∀ i < n, 0 < A i i)
    (hpd : ∀ E : Matrix (Fin n) (Fin n) K, (∀ i j, E i j = E j i) →
      (∀ i j, ((1 - ((1 + eps K p) ^ (n + 1) - 1)) * E i j) ^ 2 ≤ (2 * ((1 + eps K p) ^ (n + 1) - 1)) ^ 2 * (A i i * A j j)) →
      PosDef (view (symm A) n n + E)) :
    (choleskyF rnd fused sqrt A n).ok = true := by
  have hn := near_of_round hp h
  have hu1 : eps K p < 1 := by have := Flt.eps_le (K := K) hp; linarith
  rcases chol_invE hn hu1 fused hsq A n with ⟨h1, -⟩ | ⟨-, h2⟩
  · exact h1
  · obtain ⟨E, e1, e2, e3⟩ := stuck_near (gam_nonneg hn.nonneg (n + 1)) hg1 hA h2
    exact absurd (hpd E e1 e2) e3

/-- **C114**: matrices with a diagonal element that is not positive are always refused. -/
theorem C114_diagonal (hp : 1 ≤ p) (h : IsRound p rnd) (fused : Bool) {sqrt : K → K}
    (hsq : ∀ x, 0 < x → 0 < sqrt x ∧ sqrt x * sqrt x = x) (A : ℕ → ℕ → K) {n i : ℕ}
    (hg1 : (1 + eps K p) ^ (n + 1) - 1 < 1) (hi : i < n) (hA : A i i ≤ 0) : (choleskyF rnd fused sqrt A n).ok = false := by
  have hn := near_of_round hp h
  have hu1 : eps K p < 1 := by have := Flt.eps_le (K := K) hp; linarith
  rcases chol_invE hn hu1 fused hsq A n with ⟨-, h1⟩ | ⟨h2, -⟩
  · have a := row_len (i + 1) (i + 1) le_rfl hg1 (fun k => (choleskyF rnd fused sqrt A n).A i k) (h1.done i i le_rfl (Or.inl hi))
    have b := h1.pos i (Or.inl hi)
    rw [sum_range_succ] at a
    have c : 0 ≤ ∑ k ∈ range i, (choleskyF rnd fused sqrt A n).A i k * (choleskyF rnd fused sqrt A n).A i k :=
      sum_nonneg fun _ _ => mul_self_nonneg _
    have d : 0 < 1 - gam (eps K p) (n + 1) := by
      unfold gam
      linarith
    have e := mul_pos d (add_pos_of_nonneg_of_pos c (mul_pos b b))
    unfold gam at e
    linarith
  · exact h2

/-- Over the reals, with `std::sqrt` correctly rounded. -/
theorem C114_real {p : ℕ} (hp : 1 ≤ p) {rnd : ℝ → ℝ} (h : IsRound p rnd) (fused : Bool) (A : ℕ → ℕ → ℝ) (n : ℕ)
    (hok : (choleskyF rnd fused Real.sqrt A n).ok = true) :
    let L := view (choleskyF rnd fused Real.sqrt A n).A n n
    ∀ i j, |(view (symm A) n n - L * L.transpose) i j| ≤ ((1 + eps ℝ p) ^ (n + 1) - 1) * ∑ k, |L i k| * |L j k| :=
  (C114_sound hp h fused (fun x hx => ⟨Real.sqrt_pos.2 hx, Real.mul_self_sqrt hx.le⟩) A n hok).2.2.1

/-- **C114** refuted near the border, with four bits: a matrix that is positive definite is refused, and one that is not is accepted. -/
theorem C114_border_refuted :
    let A : ℕ → ℕ → ℚ := fun i j => if i = 0 ∧ j = 0 then 1 else if i = 1 ∧ j = 1 then 11 / 4 else 13 / 8
    let B : ℕ → ℕ → ℚ := fun i j => if i = 0 ∧ j = 0 then 9 else if i = 1 ∧ j = 1 then 11 / 4 else 5
    (view (symm A) 2 2).det > 0 ∧ (choleskyF (Flt.nearest 4) false ratSqrt A 2).ok = false ∧
    (view (symm B) 2 2).det < 0 ∧ (choleskyF (Flt.nearest 4) true ratSqrt B 2).ok = true := by
  refine ⟨?_, by decide +kernel, ?_, by decide +kernel⟩ <;> rw [Matrix.det_fin_two] <;> simp [view, symm] <;> norm_num

omit [IsStrictOrderedRing K] [FloorRing K] in
/-- Without rounding this is the exact decomposition. -/
theorem C114_exact (sqrt : K → K) (fused : Bool) (A : ℕ → ℕ → K) (n : ℕ) : choleskyF id fused sqrt A n = cholesky sqrt A n := by
  have : ∀ x y z : K, subProd id fused x y z = x - y * z := fun x y z => by cases fused <;> simp [subProd]
  have e : ∀ r c (s : CState K), cholElemF id fused sqrt r c s = cholElem sqrt r c s := fun r c s => by
    simp only [cholElemF, cholElem, this, id]
  have e' : ∀ r, cholElemF id fused sqrt r = cholElem sqrt r := fun r => by
    funext c s
    exact e r c s
  have e'' : cholRowF id fused sqrt = cholRow sqrt := by
    funext r s
    rw [cholRowF, cholRow, e']
  rw [choleskyF, cholesky, e'']

end Geomc.LU
