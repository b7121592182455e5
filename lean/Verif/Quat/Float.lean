import Mathlib.Analysis.Quaternion
import Verif.Quat.FloatModel
import Verif.Quat.Props
import Verif.Float.Vec

/-! # Property C115: rounding errors of quaternion products and rotations -/

namespace Geomc.Quat

open Geomc.Flt

/-! ## Products -/

theorem step_err {u c s S w t A : ℝ} {rnd : ℝ → ℝ} (h : ∀ x, |rnd x - x| ≤ u * |x|) (hu : 0 ≤ u) (hc : 1 + u ≤ c)
    (ih : |s - S| ≤ (c - 1) * A) (ih' : |S| ≤ A) (ht : t = w ∨ t = rnd w) :
    |rnd (s + t) - (S + w)| ≤ (c * (1 + u) - 1) * (A + |w|) ∧ |S + w| ≤ A + |w| := by
  have hS : |S + w| ≤ A + |w| := (abs_add_le _ _).trans (by linarith)
  refine ⟨?_, hS⟩
  have hw0 := abs_nonneg w
  have tw : |t - w| ≤ (c - 1) * |w| := by
    rcases ht with rfl | rfl
    · rw [sub_self, abs_zero]; exact mul_nonneg (by linarith) hw0
    · exact (h w).trans (mul_le_mul_of_nonneg_right (by linarith) hw0)
  have e1 : |(s + t) - (S + w)| ≤ (c - 1) * (A + |w|) := by
    rw [show (s + t) - (S + w) = (s - S) + (t - w) by ring, mul_add]
    exact (abs_add_le _ _).trans (add_le_add ih tw)
  have e2 : |s + t| ≤ c * (A + |w|) := by
    have := abs_sub_abs_le_abs_sub (s + t) (S + w)
    linarith
  have e3 : |rnd (s + t) - (S + w)| ≤ |rnd (s + t) - (s + t)| + |(s + t) - (S + w)| := by
    rw [show rnd (s + t) - (S + w) = (rnd (s + t) - (s + t)) + ((s + t) - (S + w)) by ring]
    exact abs_add_le _ _
  have e4 := (h (s + t)).trans (mul_le_mul_of_nonneg_left e2 hu)
  linarith

theorem add_err {u c s S a b A : ℝ} {rnd : ℝ → ℝ} (h : ∀ x, |rnd x - x| ≤ u * |x|) (hu : 0 ≤ u) (hc : 1 + u ≤ c) (fused : Bool)
    (ih : |s - S| ≤ (c - 1) * A ∧ |S| ≤ A) :
    |addMul rnd fused s a b - (S + a * b)| ≤ (c * (1 + u) - 1) * (A + |a * b|) ∧ |S + a * b| ≤ A + |a * b| := by
  refine step_err h hu hc ih.1 ih.2 ?_
  cases fused
  · right; rfl
  · left; rfl

theorem sub_err {u c s S a b A : ℝ} {rnd : ℝ → ℝ} (h : ∀ x, |rnd x - x| ≤ u * |x|) (hu : 0 ≤ u) (hc : 1 + u ≤ c) (fused : Bool)
    (ih : |s - S| ≤ (c - 1) * A ∧ |S| ≤ A) :
    |subMul rnd fused s a b - (S - a * b)| ≤ (c * (1 + u) - 1) * (A + |a * b|) ∧ |S - a * b| ≤ A + |a * b| := by
  have hS : |S - a * b| ≤ A + |a * b| := by
    have := abs_sub S (a * b)
    linarith [ih.2]
  refine ⟨?_, hS⟩
  set w := a * b
  have hw0 := abs_nonneg w
  unfold subMul
  set t := if fused then a * b else rnd (a * b) with htd
  have tw : |t - w| ≤ (c - 1) * |w| := by
    cases fused
    · simp only [htd, Bool.false_eq_true, if_false]
      exact (h w).trans (mul_le_mul_of_nonneg_right (by linarith) hw0)
    · simp only [htd, if_true]
      rw [show a * b - w = 0 from sub_self _, abs_zero]; exact mul_nonneg (by linarith) hw0
  have e1 : |(s - t) - (S - w)| ≤ (c - 1) * (A + |w|) := by
    rw [show (s - t) - (S - w) = (s - S) + (w - t) by ring, mul_add]
    refine (abs_add_le _ _).trans (add_le_add ih.1 ?_)
    rw [abs_sub_comm]; exact tw
  have e2 : |s - t| ≤ c * (A + |w|) := by
    have := abs_sub_abs_le_abs_sub (s - t) (S - w)
    linarith
  have e3 : |rnd (s - t) - (S - w)| ≤ |rnd (s - t) - (s - t)| + |(s - t) - (S - w)| := by
    rw [show rnd (s - t) - (S - w) = (rnd (s - t) - (s - t)) + ((s - t) - (S - w)) by ring]
    exact abs_add_le _ _
  have e4 := (h (s - t)).trans (mul_le_mul_of_nonneg_left e2 hu)
  linarith

theorem norm_sq (q : Fin 4 → ℝ) : ‖toQ q‖ ^ 2 = ∑ i, q i ^ 2 := by
  rw [sq, ← Quaternion.normSq_eq_norm_mul_self, Quaternion.normSq_def', Fin.sum_univ_four]
  simp
  ring

/-- Four products of the components of two quaternions, each component being used once. -/
theorem four_products (p q : Fin 4 → ℝ) (σ : Fin 4 → Fin 4) (hσ : Function.Injective σ) :
    ∑ i, |p i * q (σ i)| ≤ ‖toQ p‖ * ‖toQ q‖ := by
  have h := Finset.sum_mul_sq_le_sq_mul_sq Finset.univ (fun i => |p i|) (fun i => |q (σ i)|)
  simp only [sq_abs, ← abs_mul] at h
  have hb : ∑ i, q (σ i) ^ 2 = ∑ i, q i ^ 2 :=
    Function.Bijective.sum_comp (Finite.injective_iff_bijective.1 hσ) fun i => q i ^ 2
  rw [hb, ← norm_sq, ← norm_sq, ← mul_pow] at h
  exact le_of_sq_le_sq h (by positivity)


theorem mult_err {u : ℝ} (hu : 0 ≤ u) {rnd : ℝ → ℝ} (h : ∀ x, |rnd x - x| ≤ u * |x|) (fused : Bool) (a b : Fin 4 → ℝ) (i : Fin 4) :
    |multF rnd fused a b i - mult a b i| ≤ ((1 + u) ^ 4 - 1) * (‖toQ a‖ * ‖toQ b‖) := by
  have first : ∀ w : ℝ, |rnd w - w| ≤ ((1 + u) - 1) * |w| ∧ |w| ≤ |w| := fun w => ⟨by rw [add_sub_cancel_left]; exact h w, le_refl _⟩
  have c2 : 1 + u ≤ (1 + u) * (1 + u) := by nlinarith
  have c3 : 1 + u ≤ (1 + u) * (1 + u) * (1 + u) := by nlinarith [mul_nonneg hu hu]
  have c4 : (1 + u) * (1 + u) * (1 + u) * (1 + u) = (1 + u) ^ 4 := by ring
  have g0 : 0 ≤ (1 + u) ^ 4 - 1 := by
    have := one_le_pow₀ (n := 4) (show 1 ≤ 1 + u by linarith)
    linarith
  fin_cases i
  · have := (sub_err (a := a 2) (b := b 1) h hu c3 fused (add_err (a := a 1) (b := b 2) h hu c2 fused
      (add_err (a := a 0) (b := b 3) h hu (le_refl _) fused (first (a 3 * b 0))))).1
    rw [c4] at this
    refine this.trans (mul_le_mul_of_nonneg_left ?_ g0)
    have := four_products a b ![3, 2, 1, 0] (by decide)
    simp only [Fin.sum_univ_four, Matrix.cons_val_zero, Matrix.cons_val_one, Matrix.cons_val] at this
    linarith
  · have := (add_err (a := a 2) (b := b 0) h hu c3 fused (add_err (a := a 1) (b := b 3) h hu c2 fused
      (sub_err (a := a 0) (b := b 2) h hu (le_refl _) fused (first (a 3 * b 1))))).1
    rw [c4] at this
    refine this.trans (mul_le_mul_of_nonneg_left ?_ g0)
    have := four_products a b ![2, 3, 0, 1] (by decide)
    simp only [Fin.sum_univ_four, Matrix.cons_val_zero, Matrix.cons_val_one, Matrix.cons_val] at this
    linarith
  · have := (add_err (a := a 2) (b := b 3) h hu c3 fused (sub_err (a := a 1) (b := b 0) h hu c2 fused
      (add_err (a := a 0) (b := b 1) h hu (le_refl _) fused (first (a 3 * b 2))))).1
    rw [c4] at this
    refine this.trans (mul_le_mul_of_nonneg_left ?_ g0)
    have := four_products a b ![1, 0, 3, 2] (by decide)
    simp only [Fin.sum_univ_four, Matrix.cons_val_zero, Matrix.cons_val_one, Matrix.cons_val] at this
    linarith
  · have := (sub_err (a := a 2) (b := b 2) h hu c3 fused (sub_err (a := a 1) (b := b 1) h hu c2 fused
      (sub_err (a := a 0) (b := b 0) h hu (le_refl _) fused (first (a 3 * b 3))))).1
    rw [c4] at this
    refine this.trans (mul_le_mul_of_nonneg_left ?_ g0)
    have := four_products a b ![0, 1, 2, 3] (by decide)
    simp only [Fin.sum_univ_four, Matrix.cons_val_zero, Matrix.cons_val_one, Matrix.cons_val] at this
    linarith

theorem toQ_sub (a b : Fin 4 → ℝ) : toQ (a - b) = toQ a - toQ b := by
  apply Quaternion.ext <;> simp

theorem norm_of_components {a : Fin 4 → ℝ} {c : ℝ} (hc : 0 ≤ c) (h : ∀ i, |a i| ≤ c) : ‖toQ a‖ ≤ 2 * c := by
  refine le_of_sq_le_sq ?_ (by positivity)
  rw [norm_sq, Fin.sum_univ_four]
  have := fun i => sq_le_sq.2 ((h i).trans (le_abs_self c))
  linarith [this 0, this 1, this 2, this 3]

/-- The relative error of one product. -/
noncomputable def κ (p : ℕ) : ℝ := 2 * ((1 + 2 ^ (-(p : ℤ))) ^ 4 - 1)

theorem κ_nonneg (p : ℕ) : 0 ≤ κ p := by
  have := one_le_pow₀ (n := 4) (show (1 : ℝ) ≤ 1 + 2 ^ (-(p : ℤ)) by have := two_zpow_pos (K := ℝ) (-(p : ℤ)); linarith)
  unfold κ
  linarith

/-- **C115.** Each component of a product of quaternions is right up to `(1 + ε)^4 - 1` times the product of their norms; as a
quaternion it is right up to twice that. -/
theorem C115_product {p : ℕ} (hp : 1 ≤ p) {rnd : ℝ → ℝ} (h : IsRound p rnd) (fused : Bool) (a b : Fin 4 → ℝ) :
    (∀ i, |multF rnd fused a b i - mult a b i| ≤ ((1 + 2 ^ (-(p : ℤ))) ^ 4 - 1) * (‖toQ a‖ * ‖toQ b‖)) ∧
    ‖toQ (multF rnd fused a b) - toQ a * toQ b‖ ≤ 2 * ((1 + 2 ^ (-(p : ℤ))) ^ 4 - 1) * (‖toQ a‖ * ‖toQ b‖) := by
  have hc := mult_err (eps_pos (K := ℝ) p).le (h.rel hp) fused a b
  refine ⟨hc, ?_⟩
  rw [← C40_mul, ← toQ_sub, mul_assoc]
  refine norm_of_components (mul_nonneg ?_ (by positivity)) hc
  have := κ_nonneg p
  unfold κ at this
  linarith

/-! ## Long products -/

theorem chain_step {A B : Quaternion ℝ} {b : Fin 4 → ℝ} {p : ℕ} (hp : 1 ≤ p) {rnd : ℝ → ℝ} (h : IsRound p rnd) (fused : Bool)
    {a : Fin 4 → ℝ} {c N : ℝ} (hA : ‖A‖ ≤ N) (ih : ‖toQ a - A‖ ≤ (c - 1) * N) (hB : B = toQ b) :
    ‖toQ (multF rnd fused a b) - A * B‖ ≤ (c * (1 + κ p) - 1) * (N * ‖toQ b‖) := by
  have k0 := κ_nonneg p
  have e1 := (C115_product hp h fused a b).2
  have ha : ‖toQ a‖ ≤ c * N := by
    have := norm_sub_norm_le (toQ a) A
    linarith
  have e2 : ‖toQ (multF rnd fused a b) - A * B‖ ≤ ‖toQ (multF rnd fused a b) - toQ a * toQ b‖ + ‖toQ a - A‖ * ‖toQ b‖ := by
    rw [← norm_mul, hB, show toQ (multF rnd fused a b) - A * toQ b =
      (toQ (multF rnd fused a b) - toQ a * toQ b) + (toQ a - A) * toQ b by rw [sub_mul]; abel]
    exact norm_add_le _ _
  have hb := norm_nonneg (toQ b)
  have e3 := mul_le_mul_of_nonneg_left (mul_le_mul_of_nonneg_right ha hb) k0
  have e4 := mul_le_mul_of_nonneg_right ih hb
  change _ ≤ κ p * _ at e1
  nlinarith

/-- **C115.** A product of any number of rotations, composed one after another, is right up to `(1 + κ)^k - 1` times the product of
the norms, and so is its norm. -/
theorem C115_chain {p : ℕ} (hp : 1 ≤ p) {rnd : ℝ → ℝ} (h : IsRound p rnd) (fused : Bool) (q : Fin 4 → ℝ) (l : List (Fin 4 → ℝ)) :
    ‖toQ (l.foldl (multF rnd fused) q) - toQ q * (l.map toQ).prod‖ ≤
      ((1 + 2 * ((1 + 2 ^ (-(p : ℤ))) ^ 4 - 1)) ^ l.length - 1) * (‖toQ q‖ * (l.map fun a => ‖toQ a‖).prod) ∧
    |‖toQ (l.foldl (multF rnd fused) q)‖ - ‖toQ q‖ * (l.map fun a => ‖toQ a‖).prod| ≤
      ((1 + 2 * ((1 + 2 ^ (-(p : ℤ))) ^ 4 - 1)) ^ l.length - 1) * (‖toQ q‖ * (l.map fun a => ‖toQ a‖).prod) := by
  have hn : ∀ l : List (Fin 4 → ℝ), ‖(l.map toQ).prod‖ = (l.map fun a => ‖toQ a‖).prod := by
    intro l
    induction l with
    | nil => simp
    | cons a l ih => simp [ih]
  have main : ‖toQ (l.foldl (multF rnd fused) q) - toQ q * (l.map toQ).prod‖ ≤
      ((1 + κ p) ^ l.length - 1) * (‖toQ q‖ * (l.map fun a => ‖toQ a‖).prod) := by
    induction l using List.reverseRecOn with
    | nil => simp
    | append_singleton l b ih =>
      rw [List.foldl_append, List.foldl_cons, List.foldl_nil, List.map_append, List.prod_append, List.map_append, List.prod_append,
        List.map_singleton, List.map_singleton, List.prod_singleton, List.prod_singleton, List.length_append, List.length_singleton,
        pow_succ]
      have := chain_step (b := b) hp h fused (by rw [norm_mul, hn]) ih rfl
      rw [mul_assoc (toQ q), mul_assoc ‖toQ q‖] at this
      exact this
  refine ⟨main, le_trans ?_ main⟩
  rw [← hn, ← norm_mul]
  exact abs_norm_sub_norm_le _ _

/-! ## Rotations -/

theorem norm_mk (v : Fin 3 → ℝ) (w : ℝ) : ‖toQ (mk v w)‖ ^ 2 = ∑ i, v i ^ 2 + w ^ 2 := by
  rw [norm_sq, Fin.sum_univ_four, Fin.sum_univ_three]
  simp [mk]

theorem norm_vec (v : Fin 3 → ℝ) : ‖toQ (mk v 0)‖ = √(∑ i, v i ^ 2) := by
  rw [← Real.sqrt_sq (norm_nonneg _), norm_mk]
  simp

theorem norm_conj (q : Fin 4 → ℝ) : ‖toQ (conj q)‖ = ‖toQ q‖ := by
  rw [(C40_conj q).1, norm_star]

theorem norm_imag (a : Fin 4 → ℝ) : √(∑ i, imag a i ^ 2) ≤ ‖toQ a‖ := by
  rw [← Real.sqrt_sq (norm_nonneg (toQ a)), norm_sq, Fin.sum_univ_four, Fin.sum_univ_three]
  refine Real.sqrt_le_sqrt ?_
  simp [imag]
  positivity

/-- **C115.** Rotating a vector is right up to `(1 + κ)^2 - 1` times the exact length of the result; so is its length. -/
theorem C115_rotate {p : ℕ} (hp : 1 ≤ p) {rnd : ℝ → ℝ} (h : IsRound p rnd) (fused : Bool) (q : Fin 4 → ℝ) (v : Fin 3 → ℝ) :
    √(∑ i, (rotateF rnd fused q v i - rotate q v i) ^ 2) ≤
      ((1 + 2 * ((1 + 2 ^ (-(p : ℤ))) ^ 4 - 1)) ^ 2 - 1) * ((∑ i, q i ^ 2) * √(∑ i, v i ^ 2)) ∧
    √(∑ i, (unrotateF rnd fused v q i - unrotate v q i) ^ 2) ≤
      ((1 + 2 * ((1 + 2 ^ (-(p : ℤ))) ^ 4 - 1)) ^ 2 - 1) * ((∑ i, q i ^ 2) * √(∑ i, v i ^ 2)) := by
  have key : ∀ a b : Fin 4 → ℝ, ‖toQ a‖ = ‖toQ q‖ → ‖toQ b‖ = ‖toQ q‖ →
      √(∑ i, (imag (multF rnd fused (multF rnd fused a (mk v 0)) b) i - imag (mult (mult a (mk v 0)) b) i) ^ 2) ≤
      ((1 + κ p) ^ 2 - 1) * ((∑ i, q i ^ 2) * √(∑ i, v i ^ 2)) := by
    intro a b ha hb
    have e := (C115_chain hp h fused a [mk v 0, b]).1
    simp only [List.foldl_cons, List.foldl_nil, List.map_cons, List.map_nil, List.prod_cons, List.prod_nil, mul_one,
      List.length_cons, List.length_nil, ha, hb, norm_vec] at e
    rw [← mul_assoc (toQ a), ← C40_mul, ← C40_mul, ← toQ_sub] at e
    have f := norm_imag (multF rnd fused (multF rnd fused a (mk v 0)) b - mult (mult a (mk v 0)) b)
    have g : ∀ i, imag (multF rnd fused (multF rnd fused a (mk v 0)) b - mult (mult a (mk v 0)) b) i =
        imag (multF rnd fused (multF rnd fused a (mk v 0)) b) i - imag (mult (mult a (mk v 0)) b) i := by
      intro i
      fin_cases i <;> simp [imag]
    simp only [g] at f
    refine f.trans (e.trans (le_of_eq ?_))
    rw [← norm_sq]
    unfold κ
    ring
  exact ⟨key q (conj q) rfl (norm_conj q), key (conj q) q (norm_conj q) rfl⟩

/-! ## Sequences of rotations -/

theorem rotate_norm (q : Fin 4 → ℝ) (v : Fin 3 → ℝ) : √(∑ i, rotate q v i ^ 2) = (∑ i, q i ^ 2) * √(∑ i, v i ^ 2) := by
  have h := (C40_rotation q v v).1
  have e : ∀ w : Fin 3 → ℝ, ∑ i, w i ^ 2 = w ⬝ᵥ w := fun w => by simp [dotProduct, sq]
  have m : Vec.mag2 q = ∑ i, q i ^ 2 := by rw [Vec.mag2_eq]; simp [dotProduct, sq]
  rw [e, h, Real.sqrt_mul (sq_nonneg _), m, Real.sqrt_sq (Finset.sum_nonneg fun _ _ => sq_nonneg _), e]

theorem rotate_sub (q : Fin 4 → ℝ) (v w : Fin 3 → ℝ) (i : Fin 3) : rotate q v i - rotate q w i = rotate q (v - w) i := by
  fin_cases i <;> simp [rotate, mult, conj, mk, imag] <;> ring

theorem tri (a b : Fin 3 → ℝ) : √(∑ i, (a i + b i) ^ 2) ≤ √(∑ i, a i ^ 2) + √(∑ i, b i ^ 2) := by
  rw [← norm_vec, ← norm_vec, ← norm_vec]
  refine le_trans (le_of_eq ?_) (norm_add_le _ _)
  congr 1
  apply Quaternion.ext <;> simp [mk]

/-- **C115.** A vector rotated by any number of quaternions, one after another, is right up to `(1 + κ)^(2 k) - 1` times the exact
length of the result. -/
theorem C115_rotations {p : ℕ} (hp : 1 ≤ p) {rnd : ℝ → ℝ} (h : IsRound p rnd) (fused : Bool) (v : Fin 3 → ℝ) (l : List (Fin 4 → ℝ)) :
    √(∑ i, (l.foldl (fun v q => rotateF rnd fused q v) v i - l.foldl (fun v q => rotate q v) v i) ^ 2) ≤
      ((1 + 2 * ((1 + 2 ^ (-(p : ℤ))) ^ 4 - 1)) ^ (2 * l.length) - 1) * ((l.map fun q => ∑ i, q i ^ 2).prod * √(∑ i, v i ^ 2)) ∧
    √(∑ i, l.foldl (fun v q => rotate q v) v i ^ 2) = (l.map fun q => ∑ i, q i ^ 2).prod * √(∑ i, v i ^ 2) := by
  induction l using List.reverseRecOn with
  | nil => simp
  | append_singleton l q ih =>
    obtain ⟨ih, hl⟩ := ih
    rw [List.foldl_append, List.foldl_cons, List.foldl_nil, List.foldl_append, List.foldl_cons, List.foldl_nil, List.map_append,
      List.prod_append, List.map_singleton, List.prod_singleton, List.length_append, List.length_singleton]
    set a := l.foldl (fun v q => rotateF rnd fused q v) v
    set b := l.foldl (fun v q => rotate q v) v
    set P := (l.map fun q => ∑ i, q i ^ 2).prod
    set L := √(∑ i, v i ^ 2)
    set S := ∑ i, q i ^ 2 with hS
    have hS0 : 0 ≤ S := Finset.sum_nonneg fun _ _ => sq_nonneg _
    refine ⟨?_, by rw [rotate_norm, hl]; ring⟩
    have e1 := (C115_rotate hp h fused q a).1
    have e2 : √(∑ i, (rotate q a i - rotate q b i) ^ 2) = S * √(∑ i, (a i - b i) ^ 2) := by
      simp only [rotate_sub]
      exact rotate_norm q (a - b)
    have e3 := tri (fun i => rotateF rnd fused q a i - rotate q a i) (fun i => rotate q a i - rotate q b i)
    simp only [sub_add_sub_cancel] at e3
    have e4 : √(∑ i, a i ^ 2) ≤ √(∑ i, (a i - b i) ^ 2) + √(∑ i, b i ^ 2) := by
      have := tri (fun i => a i - b i) b
      simpa only [sub_add_cancel] using this
    rw [e2] at e3
    rw [← hS] at e1
    change _ ≤ ((1 + κ p) ^ 2 - 1) * _ at e1
    change _ ≤ ((1 + κ p) ^ (2 * l.length) - 1) * _ at ih
    change _ ≤ ((1 + κ p) ^ (2 * (l.length + 1)) - 1) * _
    have k0 := κ_nonneg p
    have k1 : 0 ≤ (1 + κ p) ^ 2 - 1 := by nlinarith
    have e5 : √(∑ i, a i ^ 2) ≤ (1 + κ p) ^ (2 * l.length) * (P * L) := by linarith
    have e6 := mul_le_mul_of_nonneg_left (mul_le_mul_of_nonneg_left e5 hS0) k1
    have e7 := mul_le_mul_of_nonneg_left ih hS0
    rw [mul_add, mul_one, pow_add]
    set c := (1 + κ p) ^ (2 * l.length)
    set d := (1 + κ p) ^ 2
    refine e3.trans ((add_le_add (e1.trans e6) e7).trans (le_of_eq ?_))
    ring

/-! ## Unit quaternions -/

theorem even_of_four {a b c d : ℤ} (h : (8 : ℤ) ∣ a ^ 2 + b ^ 2 + c ^ 2 + d ^ 2) : 2 ∣ a ∧ 2 ∣ b ∧ 2 ∣ c ∧ 2 ∣ d := by
  have sqm : ∀ x : ℤ, x ^ 2 % 8 = 0 ∧ x % 2 = 0 ∨ x ^ 2 % 8 = 4 ∧ x % 2 = 0 ∨ x ^ 2 % 8 = 1 ∧ x % 2 = 1 := by
    intro x
    have h8 : x % 8 = 0 ∨ x % 8 = 1 ∨ x % 8 = 2 ∨ x % 8 = 3 ∨ x % 8 = 4 ∨ x % 8 = 5 ∨ x % 8 = 6 ∨ x % 8 = 7 := by omega
    have hx : x ^ 2 % 8 = (x % 8) ^ 2 % 8 := by rw [sq, sq, Int.mul_emod]
    rcases h8 with h | h | h | h | h | h | h | h <;> rw [h] at hx <;> norm_num at hx <;> omega
  have ha := sqm a
  have hb := sqm b
  have hc := sqm c
  have hd := sqm d
  omega

theorem lone {k : Fin 4 → ℤ} {c : ℤ} (hc : 0 ≤ c) (h : ∑ i, k i ^ 2 = c ^ 2) {i : Fin 4} (hi : c ≤ |k i|) :
    (k i = c ∨ k i = -c) ∧ ∀ j, j ≠ i → k j = 0 := by
  have h1 : c ^ 2 ≤ k i ^ 2 := by
    rw [← sq_abs (k i)]
    exact pow_le_pow_left₀ hc hi 2
  have h2 : ∀ j, j ≠ i → k j ^ 2 = 0 := by
    intro j hj
    have : k i ^ 2 + k j ^ 2 ≤ ∑ i, k i ^ 2 := by
      rw [← Finset.sum_pair (f := fun i => k i ^ 2) (Ne.symm hj)]
      exact Finset.sum_le_univ_sum_of_nonneg fun _ => sq_nonneg _
    have := sq_nonneg (k j)
    linarith
  have h3 : k i ^ 2 = c ^ 2 := by
    rw [← h, Finset.sum_eq_single i (fun j _ hj => h2 j hj) (by simp)]
  exact ⟨sq_eq_sq_iff_eq_or_eq_neg.1 h3, fun j hj => pow_eq_zero_iff (two_ne_zero) |>.1 (h2 j hj)⟩

/-- Four integers whose squares add up to a power of four. -/
theorem four_squares (N : ℕ) (k : Fin 4 → ℤ) (h : ∑ i, k i ^ 2 = 4 ^ N) :
    (∃ i, (k i = 2 ^ N ∨ k i = -2 ^ N) ∧ ∀ j, j ≠ i → k j = 0) ∨ ∀ i, 2 * k i = 2 ^ N ∨ 2 * k i = -2 ^ N := by
  induction N using Nat.strong_induction_on generalizing k with
  | _ N ih =>
    match N, ih, h with
    | 0, _, h =>
      left
      obtain ⟨i, hi⟩ : ∃ i, 1 ≤ |k i| := by
        by_contra hn
        push Not at hn
        have : ∀ i, k i = 0 := fun i => Int.abs_lt_one_iff.1 (hn i)
        simp [this] at h
      exact ⟨i, by simpa using lone (c := 1) (by norm_num) (by simpa using h) hi⟩
    | 1, _, h =>
      by_cases hb : ∃ i, 2 ≤ |k i|
      · obtain ⟨i, hi⟩ := hb
        left
        exact ⟨i, by simpa using lone (c := 2) (by norm_num) (by rw [h]; norm_num) hi⟩
      · right
        push Not at hb
        have hle : ∀ i, k i ^ 2 ≤ 1 := fun i => by
          have := abs_lt.1 (hb i)
          nlinarith
        intro i
        rw [Fin.sum_univ_four] at h
        have h0 := hle 0
        have h1 := hle 1
        have h2 := hle 2
        have h3 := hle 3
        have : k i ^ 2 = 1 := by fin_cases i <;> simp only [Fin.zero_eta, Fin.mk_one, Fin.reduceFinMk] <;> linarith
        rcases sq_eq_sq_iff_eq_or_eq_neg.1 (this.trans (one_pow 2).symm) with h | h <;> rw [h] <;> norm_num
    | N + 2, ih, h =>
      rw [Fin.sum_univ_four] at h
      have h8 : (8 : ℤ) ∣ k 0 ^ 2 + k 1 ^ 2 + k 2 ^ 2 + k 3 ^ 2 := by
        rw [h]
        exact ⟨2 * 4 ^ N, by ring⟩
      obtain ⟨e0, e1, e2, e3⟩ := even_of_four h8
      have ev : ∀ i, ∃ t, k i = 2 * t := by
        intro i
        fin_cases i
        exacts [e0, e1, e2, e3]
      choose t ht using ev
      have hs : ∑ i, t i ^ 2 = 4 ^ (N + 1) := by
        rw [Fin.sum_univ_four]
        rw [ht 0, ht 1, ht 2, ht 3, pow_succ (4 : ℤ) (N + 1)] at h
        linarith
      have e : (2 : ℤ) ^ (N + 2) = 2 * 2 ^ (N + 1) := by ring
      rcases ih (N + 1) (by omega) t hs with ⟨i, hi, hj⟩ | hall
      · refine Or.inl ⟨i, ?_, fun j hne => by rw [ht, hj j hne, mul_zero]⟩
        rw [ht, e]
        rcases hi with h | h <;> rw [h]
        · left; rfl
        · right; ring
      · refine Or.inr fun i => ?_
        rw [ht, e]
        rcases hall i with h | h <;> rw [h]
        · left; rfl
        · right; ring

theorem float_over {p : ℕ} {x : ℝ} (h : IsFloat p x) : ∃ N : ℕ, ∀ M : ℕ, N ≤ M → ∃ k : ℤ, x * 2 ^ M = k := by
  obtain ⟨m, e, -, rfl⟩ := h
  refine ⟨(-e).toNat, fun M hM => ⟨m * 2 ^ (e + M).toNat, ?_⟩⟩
  have : ((e + M).toNat : ℤ) = e + M := Int.toNat_of_nonneg (by omega)
  push_cast
  rw [mul_assoc, ← zpow_natCast (2 : ℝ) M, ← zadd, ← zpow_natCast, this]

/-- **C115.** Hardly any quaternion of floating-point numbers is a unit quaternion: at every precision only `±1`, `±i`, `±j`, `±k` and
the sixteen `(±1 ± i ± j ± k) / 2` are. -/
theorem C115_units_refuted {p : ℕ} {q : Fin 4 → ℝ} (hq : ∀ i, IsFloat p (q i)) :
    ‖toQ q‖ = 1 ↔ (∃ i, (q i = 1 ∨ q i = -1) ∧ ∀ j, j ≠ i → q j = 0) ∨ ∀ i, q i = 1 / 2 ∨ q i = -(1 / 2) := by
  have hn : ‖toQ q‖ = 1 ↔ ∑ i, q i ^ 2 = 1 := by
    rw [← norm_sq]
    constructor
    · intro h; rw [h]; norm_num
    · intro h
      have := norm_nonneg (toQ q)
      nlinarith
  rw [hn]
  constructor
  · intro hs
    choose N hN using fun i => float_over (hq i)
    set M := N 0 + N 1 + N 2 + N 3
    have hk : ∀ i, ∃ k : ℤ, q i * 2 ^ M = k := fun i => hN i M (by fin_cases i <;> simp only [Fin.zero_eta, Fin.mk_one, Fin.reduceFinMk] <;> omega)
    choose k hk using hk
    have h2 : (0 : ℝ) < 2 ^ M := by positivity
    have hq' : ∀ i, q i = k i / 2 ^ M := fun i => by rw [← hk]; field_simp
    have hs' : ∑ i, k i ^ 2 = 4 ^ M := by
      have : (∑ i, (k i : ℝ) ^ 2) = 4 ^ M := by
        have e : ∀ i, (k i : ℝ) ^ 2 = q i ^ 2 * 4 ^ M := fun i => by
          rw [← hk, mul_pow, ← pow_mul, mul_comm M 2, pow_mul]; norm_num
        simp only [e]
        rw [← Finset.sum_mul, hs, one_mul]
      exact_mod_cast this
    rcases four_squares M k hs' with ⟨i, hi, hj⟩ | hall
    · refine Or.inl ⟨i, ?_, fun j hne => by rw [hq', hj j hne]; simp⟩
      rw [hq']
      rcases hi with hi | hi <;> rw [hi] <;> push_cast
      · left; field_simp
      · right; field_simp
    · refine Or.inr fun i => ?_
      rw [hq']
      have e : (k i : ℝ) = (2 * k i : ℤ) / 2 := by push_cast; ring
      rw [e]
      rcases hall i with hi | hi <;> rw [hi] <;> push_cast
      · left; field_simp
      · right; field_simp
  · rintro (⟨i, hi, hj⟩ | hall)
    · rw [Finset.sum_eq_single i (fun j _ hne => by rw [hj j hne]; norm_num) (by simp)]
      rcases hi with hi | hi <;> rw [hi] <;> norm_num
    · have : ∀ i, q i ^ 2 = 1 / 4 := fun i => by rcases hall i with h | h <;> rw [h] <;> norm_num
      simp only [this]
      norm_num

/-! ## Exact rotations -/

/-- **C115.** The identity and half turns about the coordinate axes are exact for every vector of floats. -/
theorem C115_half_turns {p : ℕ} {rnd : ℝ → ℝ} (h : IsRound p rnd) (fused : Bool) {q : Fin 4 → ℝ} {v : Fin 3 → ℝ}
    (hq : ∃ i, (q i = 1 ∨ q i = -1) ∧ ∀ j, j ≠ i → q j = 0) (hv : ∀ i, IsFloat p (v i)) :
    rotateF rnd fused q v = rotate q v ∧ unrotateF rnd fused v q = unrotate v q := by
  have r0 : rnd 0 = 0 := h.fix (float_zero p)
  have rv : ∀ i, rnd (v i) = v i := fun i => h.fix (hv i)
  have rn : ∀ i, rnd (-v i) = -v i := fun i => h.fix (float_neg (hv i))
  obtain ⟨i, hi, hj⟩ := hq
  have v0 : i ≠ 0 → q 0 = 0 := fun hne => hj 0 (Ne.symm hne)
  have v1 : i ≠ 1 → q 1 = 0 := fun hne => hj 1 (Ne.symm hne)
  have v2 : i ≠ 2 → q 2 = 0 := fun hne => hj 2 (Ne.symm hne)
  have v3 : i ≠ 3 → q 3 = 0 := fun hne => hj 3 (Ne.symm hne)
  constructor <;> funext t <;> fin_cases i <;> simp at hi v0 v1 v2 v3 <;> rcases hi with hi | hi <;> cases fused <;> fin_cases t <;>
    simp [rotateF, unrotateF, rotate, unrotate, multF, mult, addMul, subMul, imag, conj, mk, hi, v0, v1, v2, v3, r0, rv, rn]

theorem near_half {p : ℕ} {rnd : ℝ → ℝ} (h : IsRound p rnd) (hp : 1 ≤ p) {δ : ℝ} (hδ : |δ| < 2 ^ (-(p : ℤ) - 2)) : rnd (1 / 2 + δ) = 1 / 2 := by
  have hh : IsFloat p (1 / 2 : ℝ) := by
    have := float_pow (K := ℝ) hp (-1)
    norm_num at this ⊢
    exact this
  have e1 := h.near (1 / 2 + δ) (1 / 2) hh
  rw [show (1 / 2 : ℝ) - (1 / 2 + δ) = -δ by ring, abs_neg] at e1
  have e2 : |rnd (1 / 2 + δ) - 1 / 2| < 2 ^ (-(p : ℤ) - 1) := by
    have t : |rnd (1 / 2 + δ) - 1 / 2| ≤ |rnd (1 / 2 + δ) - (1 / 2 + δ)| + |δ| := by
      rw [show rnd (1 / 2 + δ) - 1 / 2 = (rnd (1 / 2 + δ) - (1 / 2 + δ)) + δ by ring]
      exact abs_add_le _ _
    have d : (2 : ℝ) ^ (-(p : ℤ) - 1) = 2 * 2 ^ (-(p : ℤ) - 2) := by
      rw [show -(p : ℤ) - 1 = 1 + (-(p : ℤ) - 2) by ring, zadd, zpow_one]
    linarith
  have small : (2 : ℝ) ^ (-(p : ℤ) - 1) ≤ 1 / 4 := by
    rw [show (1 / 4 : ℝ) = 2 ^ (-2 : ℤ) by norm_num]
    exact zle (by omega)
  have big : (2 : ℝ) ^ (-2 : ℤ) ≤ |rnd (1 / 2 + δ)| := by
    have := (abs_lt.1 e2).1
    rw [show (2 : ℝ) ^ (-2 : ℤ) = 1 / 4 by norm_num]
    exact le_trans (by linarith) (le_abs_self _)
  obtain ⟨k, hk⟩ := grid_of_float (h.mem (1 / 2 + δ)) big
  have g : (1 / 2 : ℝ) = (2 ^ p : ℤ) * 2 ^ ((-2 : ℤ) + 1 - p) := by
    push_cast
    rw [← zpow_natCast, ← zadd, show (p : ℤ) + (-1 - p) = -1 by ring]
    norm_num
  have hpos : (0 : ℝ) < 2 ^ ((-2 : ℤ) + 1 - p) := two_zpow_pos _
  rw [hk, g, ← sub_mul, abs_mul, abs_of_pos hpos, show (-(p : ℤ) - 1) = (-2 : ℤ) + 1 - p by ring] at e2
  have e3 : |(k : ℝ) - (2 ^ p : ℤ)| < 1 := by
    by_contra hc
    push Not at hc
    nlinarith
  have e4 : |k - 2 ^ p| < 1 := by exact_mod_cast e3
  have e5 : k = 2 ^ p := by
    have := abs_lt.1 e4
    omega
  rw [hk, e5, ← g]

/-- **C115.** Rotations are not exact in general, not even the one which only exchanges the coordinates: a third of a turn about the
diagonal loses a small component altogether, at every precision and with or without fused operations. -/
theorem C115_third_turn_refuted {p : ℕ} (hp : 2 ≤ p) {rnd : ℝ → ℝ} (h : IsRound p rnd) (fused : Bool) :
    ∃ (q : Fin 4 → ℝ) (t : ℝ), (∀ i, IsFloat p (q i)) ∧ IsFloat p t ∧ 0 < t ∧ ‖toQ q‖ = 1 ∧
      (∀ v : Fin 3 → ℝ, rotate q v = ![v 2, v 0, v 1]) ∧ rotateF rnd fused q ![1, t, 0] = ![0, 1, 0] := by
  have f2 : ∀ e : ℤ, IsFloat p ((2 : ℝ) ^ e) := fun e => float_pow (by omega) e
  have fh : IsFloat p (1 / 2 : ℝ) := by have := f2 (-1); norm_num at this ⊢; exact this
  have f1 : IsFloat p (1 : ℝ) := by have := f2 0; norm_num at this ⊢; exact this
  have f4 : IsFloat p (1 / 4 : ℝ) := by have := f2 (-2); norm_num at this ⊢; exact this
  have f34 : IsFloat p (3 / 4 : ℝ) := ⟨3, -2, by
    have : (2 : ℤ) ^ 2 ≤ 2 ^ p := pow_le_pow_right₀ (by norm_num) hp
    norm_num at this ⊢; omega, by norm_num⟩
  set t : ℝ := 2 ^ (-(p : ℤ) - 2) with ht
  have t0 : 0 < t := two_zpow_pos _
  have th : |1 / 2 * t| < 2 ^ (-(p : ℤ) - 2) := by rw [← ht, abs_of_pos (by positivity)]; linarith
  have fth : IsFloat p (1 / 2 * t) := by
    have := f2 (-(p : ℤ) - 3)
    rwa [show (2 : ℝ) ^ (-(p : ℤ) - 3) = 1 / 2 * t by
      rw [ht, show (-(p : ℤ) - 3) = -1 + (-(p : ℤ) - 2) by ring, zadd]; norm_num] at this
  have nh := near_half h (by omega) th
  have nh' := near_half h (by omega) (show |-(1 / 2 * t)| < 2 ^ (-(p : ℤ) - 2) by rwa [abs_neg])
  have r0 : rnd 0 = 0 := h.fix (float_zero p)
  have neg : IsRound p fun x => -rnd (-x) := by
    refine ⟨fun x => float_neg (h.mem _), fun x y hy => ?_⟩
    have := h.near (-x) (-y) (float_neg hy)
    rw [show -rnd (-x) - x = -(rnd (-x) - -x) by ring, abs_neg, show y - x = -(-y - -x) by ring, abs_neg]
    exact this
  have mh := near_half neg (by omega) th
  have mh' := near_half neg (by omega) (show |-(1 / 2 * t)| < 2 ^ (-(p : ℤ) - 2) by rwa [abs_neg])
  have a1 : rnd (2⁻¹ - 2⁻¹ * t) = 2⁻¹ := by
    rw [show (2⁻¹ - 2⁻¹ * t : ℝ) = 1 / 2 + -(1 / 2 * t) by ring, nh']; norm_num
  have a2 : rnd (2⁻¹ * t + 2⁻¹) = 2⁻¹ := by
    rw [show (2⁻¹ * t + 2⁻¹ : ℝ) = 1 / 2 + 1 / 2 * t by ring, nh]; norm_num
  have a3 : rnd (2⁻¹ * t - 2⁻¹) = -2⁻¹ := by
    have : rnd (2⁻¹ * t - 2⁻¹) = -(1 / 2) := by
      rw [← mh', neg_neg]
      congr 1; ring
    rw [this]; norm_num
  have a4 : rnd (-2⁻¹ - 2⁻¹ * t) = -2⁻¹ := by
    have : rnd (-2⁻¹ - 2⁻¹ * t) = -(1 / 2) := by
      rw [← mh, neg_neg]
      congr 1; ring
    rw [this]; norm_num
  have b1 : rnd (2⁻¹ : ℝ) = 2⁻¹ := by have := h.fix fh; norm_num at this ⊢; exact this
  have b2 : rnd (-2⁻¹ : ℝ) = -2⁻¹ := by have := h.fix (float_neg fh); norm_num at this ⊢; exact this
  have b3 : rnd (2⁻¹ * t) = 2⁻¹ * t := by have := h.fix fth; norm_num at this ⊢; exact this
  have c1 : rnd (1 / 4) = 1 / 4 := h.fix f4
  have c2 : rnd (1 / 2) = 1 / 2 := h.fix fh
  have c3 : rnd (3 / 4) = 3 / 4 := h.fix f34
  have c4 : rnd 1 = 1 := h.fix f1
  have c5 : rnd (-(1 / 4)) = -(1 / 4) := h.fix (float_neg f4)
  refine ⟨fun _ => 1 / 2, t, fun _ => fh, f2 _, t0, ?_, ?_, ?_⟩
  · rw [C115_units_refuted fun _ => fh]
    right; simp
  · intro v
    funext i
    fin_cases i <;> simp [rotate, mult, conj, mk, imag] <;> ring
  · have first : multF rnd fused (fun _ => 1 / 2) (mk ![1, t, 0] 0) = ![1 / 2, 1 / 2, -(1 / 2), -(1 / 2)] := by
      funext i
      cases fused <;> fin_cases i <;> simp [multF, addMul, subMul, mk, r0, a1, a2, a3, a4, b1, b2, b3]
    have p1 : (1 / 2 : ℝ) * (1 / 2) = 1 / 4 := by norm_num
    have p2 : (1 / 2 : ℝ) * -(1 / 2) = -(1 / 4) := by norm_num
    have p3 : -(1 / 2 : ℝ) * (1 / 2) = -(1 / 4) := by norm_num
    have p4 : -(1 / 2 : ℝ) * -(1 / 2) = 1 / 4 := by norm_num
    have s1 : (1 / 4 : ℝ) + 1 / 4 = 1 / 2 := by norm_num
    have s2 : (1 / 2 : ℝ) + -(1 / 4) = 1 / 4 := by norm_num
    have s3 : (1 / 4 : ℝ) - 1 / 4 = 0 := by norm_num
    have s4 : (1 / 4 : ℝ) - -(1 / 4) = 1 / 2 := by norm_num
    have s5 : (1 / 2 : ℝ) + 1 / 4 = 3 / 4 := by norm_num
    have s6 : (3 / 4 : ℝ) + 1 / 4 = 1 := by norm_num
    have s7 : (1 / 4 : ℝ) + -(1 / 4) = 0 := by norm_num
    have s8 : (0 : ℝ) - -(1 / 4) = 1 / 4 := by norm_num
    unfold rotateF
    rw [first]
    funext i
    cases fused <;> fin_cases i <;>
      simp only [multF, addMul, subMul, imag, conj, Matrix.cons_val_zero, Matrix.cons_val_one, Matrix.cons_val, Fin.zero_eta, Fin.mk_one,
        Fin.reduceFinMk, if_true, if_false, Bool.false_eq_true, p1, p2, p3, p4, s1, s2, s3, s4, s5, s6, s7, s8, r0, c1, c2, c3, c4, c5]

/-! ## Rotations from axis and angle -/

/-- **C115.** The quaternion of an axis and an angle, given the computed sine and cosine of half the angle: the components of the vector
part have the right signs and, like the norm, the right squares up to `(1 ± ε)^4 / (1 ∓ ε)^5`.  A zero axis gives the identity. -/
theorem C115_axis_angle {p : ℕ} (hp : 1 ≤ p) {rnd sqrt : ℝ → ℝ} (h : IsRound p rnd)
    (hq : ∀ x, 0 ≤ x → 0 ≤ sqrt x ∧ sqrt x * sqrt x = x) (axis : Fin 3 → ℝ) (ch sh : ℝ) :
    (axis = 0 → fromAxisAngleF rnd sqrt axis ch sh = some identity) ∧
    (axis ≠ 0 → ∃ q, fromAxisAngleF rnd sqrt axis ch sh = some q ∧ q 3 = ch ∧
      (∀ i : Fin 3, 0 ≤ q i.castSucc * (axis i * sh) ∧
        (1 - 2 ^ (-(p : ℤ))) ^ 4 / (1 + 2 ^ (-(p : ℤ))) ^ 5 * (axis i ^ 2 / (∑ j, axis j ^ 2) * sh ^ 2) ≤ q i.castSucc ^ 2 ∧
        q i.castSucc ^ 2 ≤ (1 + 2 ^ (-(p : ℤ))) ^ 4 / (1 - 2 ^ (-(p : ℤ))) ^ 5 * (axis i ^ 2 / (∑ j, axis j ^ 2) * sh ^ 2)) ∧
      (1 - 2 ^ (-(p : ℤ))) ^ 4 / (1 + 2 ^ (-(p : ℤ))) ^ 5 * (sh ^ 2 + ch ^ 2) ≤ ‖toQ q‖ ^ 2 ∧
      ‖toQ q‖ ^ 2 ≤ (1 + 2 ^ (-(p : ℤ))) ^ 4 / (1 - 2 ^ (-(p : ℤ))) ^ 5 * (sh ^ 2 + ch ^ 2)) := by
  have hz : (axis 0 = 0 ∧ axis 1 = 0 ∧ axis 2 = 0) ↔ axis = 0 := by
    constructor
    · rintro ⟨a, b, c⟩
      funext i
      fin_cases i <;> assumption
    · rintro rfl; simp
  constructor
  · intro h0
    unfold fromAxisAngleF
    rw [if_pos (hz.2 h0), h0]
    congr 1
  · intro hne
    obtain ⟨k, hk, hc, -, -⟩ := (C104_unit hp h hq axis).2 hne
    have e0 : (0 : ℝ) < 2 ^ (-(p : ℤ)) := two_zpow_pos _
    have e1 : (2 : ℝ) ^ (-(p : ℤ)) ≤ 1 / 2 := eps_le hp
    have sb := fun i => h.sq_bounds hp (k i * sh)
    have rl := fun i => h.rel hp (k i * sh)
    simp only [eps] at sb rl
    set e : ℝ := 2 ^ (-(p : ℤ))
    have l0 : 0 < (1 - e) ^ 5 := pow_pos (by linarith) 5
    have u0 : 0 < (1 + e) ^ 5 := by positivity
    have sL : ∀ x, (1 - e) ^ 4 / (1 + e) ^ 5 * x = (1 - e) ^ 2 * ((1 - e) ^ 2 / (1 + e) ^ (3 + 2) * x) := fun x => by ring
    have sH : ∀ x, (1 + e) ^ 4 / (1 - e) ^ 5 * x = (1 + e) ^ 2 * ((1 + e) ^ 2 / (1 - e) ^ (3 + 2) * x) := fun x => by ring
    have comp : ∀ i : Fin 3,
        (1 - e) ^ 4 / (1 + e) ^ 5 * (axis i ^ 2 / (∑ j, axis j ^ 2) * sh ^ 2) ≤ rnd (k i * sh) ^ 2 ∧
        rnd (k i * sh) ^ 2 ≤ (1 + e) ^ 4 / (1 - e) ^ 5 * (axis i ^ 2 / (∑ j, axis j ^ 2) * sh ^ 2) := by
      intro i
      obtain ⟨-, a, b⟩ := hc i
      obtain ⟨c, d⟩ := sb i
      rw [mul_pow] at c d
      constructor
      · refine le_trans ?_ c
        rw [sL, ← mul_assoc ((1 - e) ^ 2 / _)]
        exact mul_le_mul_of_nonneg_left (mul_le_mul_of_nonneg_right a (sq_nonneg _)) (sq_nonneg _)
      · refine le_trans d ?_
        rw [sH, ← mul_assoc ((1 + e) ^ 2 / _)]
        exact mul_le_mul_of_nonneg_left (mul_le_mul_of_nonneg_right b (sq_nonneg _)) (sq_nonneg _)
    have hS : ∑ j, axis j ^ 2 ≠ 0 := fun hs => hne ((sum_sq_zero axis).1 hs)
    have tot : ∑ i, axis i ^ 2 / (∑ j, axis j ^ 2) * sh ^ 2 = sh ^ 2 := by
      rw [← Finset.sum_mul, ← Finset.sum_div, div_self hS, one_mul]
    have hL : (1 - e) ^ 4 / (1 + e) ^ 5 ≤ 1 := by
      rw [div_le_one u0]
      exact (pow_le_one₀ (by linarith) (by linarith)).trans (one_le_pow₀ (by linarith))
    have hH : 1 ≤ (1 + e) ^ 4 / (1 - e) ^ 5 := by
      rw [one_le_div l0]
      exact (pow_le_one₀ (by linarith) (by linarith)).trans (one_le_pow₀ (by linarith))
    have c0 := sq_nonneg ch
    refine ⟨mk (fun i => rnd (k i * sh)) ch, ?_, rfl, ?_, ?_, ?_⟩
    · unfold fromAxisAngleF
      rw [if_neg (fun hh => hne (hz.1 hh)), hk]
      rfl
    · intro i
      have hi : mk (fun i => rnd (k i * sh)) ch i.castSucc = rnd (k i * sh) := by fin_cases i <;> rfl
      rw [hi]
      refine ⟨?_, comp i⟩
      have sg : 0 ≤ rnd (k i * sh) * (k i * sh) := by
        have t : |rnd (k i * sh) - k i * sh| ≤ |k i * sh| := (rl i).trans (by nlinarith [abs_nonneg (k i * sh)])
        have t2 := sq_le_sq.2 t
        nlinarith [sq_nonneg (rnd (k i * sh))]
      have ks := (hc i).1
      by_cases hk0 : k i = 0
      · rw [hk0, zero_mul, h.fix (float_zero p), zero_mul]
      · have : 0 < k i ^ 2 := by positivity
        have : 0 ≤ k i ^ 2 * (rnd (k i * sh) * (axis i * sh)) := by
          have := mul_nonneg sg ks
          nlinarith
        exact nonneg_of_mul_nonneg_right this (by positivity)
    · rw [norm_mk, mul_add]
      refine add_le_add ?_ (by nlinarith)
      conv_lhs => rw [← tot, Finset.mul_sum]
      exact Finset.sum_le_sum fun i _ => (comp i).1
    · rw [norm_mk, mul_add]
      refine add_le_add ?_ (by nlinarith)
      conv_rhs => rw [← tot, Finset.mul_sum]
      exact Finset.sum_le_sum fun i _ => (comp i).2

/-- Without rounding these are the functions of C40. -/
theorem C115_exact (fused : Bool) (q : Fin 4 → ℝ) (v : Fin 3 → ℝ) (a b : Fin 4 → ℝ) :
    multF id fused a b = mult a b ∧ rotateF id fused q v = rotate q v ∧ unrotateF id fused v q = unrotate v q := by
  have hm : ∀ a b : Fin 4 → ℝ, multF id fused a b = mult a b := by
    intro a b
    funext i
    fin_cases i <;> simp [multF, mult, addMul, subMul]
  exact ⟨hm a b, by simp only [rotateF, rotate, hm], by simp only [unrotateF, unrotate, hm]⟩

/-- A million rotations with `double`s lengthen or shorten a vector by less than `2e-9` of its length. -/
example {rnd : ℝ → ℝ} (h : IsRound 53 rnd) (fused : Bool) (v : Fin 3 → ℝ) (l : List (Fin 4 → ℝ)) (hl : l.length = 10 ^ 6)
    (hq : ∀ q ∈ l, ∑ i, q i ^ 2 = 1) :
    √(∑ i, (l.foldl (fun v q => rotateF rnd fused q v) v i - l.foldl (fun v q => rotate q v) v i) ^ 2) ≤
      1 / (5 * 10 ^ 8) * √(∑ i, v i ^ 2) := by
  have e := (C115_rotations (by norm_num) h fused v l).1
  have hp : (l.map fun q => ∑ i, q i ^ 2).prod = 1 := List.prod_eq_one (by simpa using hq)
  rw [hp, one_mul, hl] at e
  refine e.trans (mul_le_mul_of_nonneg_right ?_ (Real.sqrt_nonneg _))
  have hx : (1 + 2 * ((1 + (2 : ℝ) ^ (-((53 : ℕ) : ℤ))) ^ 4 - 1)) ≤ 1 + 9 / 10 ^ 16 := by norm_num
  have hx0 : (0 : ℝ) ≤ 1 + 2 * ((1 + (2 : ℝ) ^ (-((53 : ℕ) : ℤ))) ^ 4 - 1) := by norm_num
  have h2 := (pow_le_pow_left₀ hx0 hx (2 * 10 ^ 6)).trans
    (pow_le_pow_left₀ (by norm_num) (Real.add_one_le_exp ((9 : ℝ) / 10 ^ 16) |>.trans' (by linarith)) (2 * 10 ^ 6))
  rw [← Real.exp_nat_mul] at h2
  have h3 : Real.exp (((2 * 10 ^ 6 : ℕ) : ℝ) * (9 / 10 ^ 16)) ≤ 1 + 1 / (5 * 10 ^ 8) := by
    have : ((2 * 10 ^ 6 : ℕ) : ℝ) * (9 / 10 ^ 16) = 18 / 10 ^ 10 := by norm_num
    rw [this]
    have h4 := Real.exp_bound_div_one_sub_of_interval (x := 18 / 10 ^ 10) (by norm_num) (by norm_num)
    refine h4.trans (by norm_num)
  exact sub_le_iff_le_add'.2 (h2.trans h3)

end Geomc.Quat
