import Verif.Float.ComposeModel
import Verif.Float.Geom
import Verif.Affine.Props
import Mathlib.Data.Matrix.Mul
import Mathlib.Tactic.NoncommRing

/-! # Property C148: composed and inverted transforms in floating point -/

namespace Geomc.Flt

open Geomc.Affine (XF)

variable {K : Type} [Field K] [LinearOrder K] [IsStrictOrderedRing K] {n m p : ℕ} {rnd : K → K}

/-- Every row of a matrix has elements whose absolute values add up to no more than `μ`. -/
def Rows (A : Matrix (Fin m) (Fin m) K) (μ : K) : Prop := ∀ i, ∑ j, |A i j| ≤ μ

theorem Rows.add {A B : Matrix (Fin m) (Fin m) K} {α β : K} (a : Rows A α) (b : Rows B β) : Rows (A + B) (α + β) := fun i => by
  refine le_trans ?_ (add_le_add (a i) (b i))
  rw [← Finset.sum_add_distrib]
  exact Finset.sum_le_sum fun j _ => abs_add_le _ _

theorem products_le {A B : Matrix (Fin m) (Fin m) K} {α β : K} (a : Rows A α) (b : Rows B β) (β0 : 0 ≤ β) (i : Fin m) :
    ∑ j, ∑ k, |A i k * B k j| ≤ α * β := by
  rw [Finset.sum_comm]
  have : ∀ k, ∑ j, |A i k * B k j| ≤ |A i k| * β := fun k => by
    simp only [abs_mul]
    rw [← Finset.mul_sum]
    exact mul_le_mul_of_nonneg_left (b k) (abs_nonneg _)
  refine (Finset.sum_le_sum fun k _ => this k).trans ?_
  rw [← Finset.sum_mul]
  exact mul_le_mul_of_nonneg_right (a i) β0

theorem Rows.mul {A B : Matrix (Fin m) (Fin m) K} {α β : K} (a : Rows A α) (b : Rows B β) (β0 : 0 ≤ β) : Rows (A * B) (α * β) := fun i =>
  (Finset.sum_le_sum fun _ _ => Finset.abs_sum_le_sum_abs _ _).trans (products_le a b β0 i)

variable [FloorRing K]

/-- The error of a product of matrices. -/
theorem Rows.product (hp : 1 ≤ p) (h : IsRound p rnd) {A B : Matrix (Fin m) (Fin m) K} {α β : K} (a : Rows A α) (b : Rows B β) (β0 : 0 ≤ β) :
    Rows (Matrix.of (mulMtx rnd A B) - A * B) (((1 + eps K p) ^ (m + 1) - 1) * (α * β)) := fun i => by
  have e0 := eps_pos (K := K) p
  have c0 : (0 : K) ≤ (1 + eps K p) ^ (m + 1) - 1 := sub_nonneg.2 (one_le_pow₀ (by linarith))
  refine (Finset.sum_le_sum fun j _ => C111_matrix hp h A B i j).trans ?_
  rw [← Finset.mul_sum]
  exact mul_le_mul_of_nonneg_left (products_le a b β0 i) c0

/-- The inverse of a product, computed from the inverses, is as good as they are, up to rounding. -/
theorem residual (hp : 1 ≤ p) (h : IsRound p rnd) {A A' B B' : Matrix (Fin m) (Fin m) K} {μ ν ρ μ' ν' ρ' : K} (a : Rows A μ) (a' : Rows A' ν)
    (ra : Rows (A' * A - 1) ρ) (b : Rows B μ') (b' : Rows B' ν') (rb : Rows (B' * B - 1) ρ') (μ0 : 0 ≤ μ) (ν0 : 0 ≤ ν) (μ0' : 0 ≤ μ') (ν0' : 0 ≤ ν') (ρ0 : 0 ≤ ρ) :
    Rows (Matrix.of (mulMtx rnd B' A') * Matrix.of (mulMtx rnd A B) - 1) (ν' * ρ * μ' + ρ' + ν * ν' * (μ * μ') * ((1 + eps K p) ^ (2 * m + 2) - 1)) := by
  have e0 := eps_pos (K := K) p
  have E := Rows.product hp h a b μ0'
  have F := Rows.product hp h b' a' ν0
  have P := a.mul b μ0'
  have Q := b'.mul a' ν0
  have c1 : (1 : K) ≤ (1 + eps K p) ^ (m + 1) := one_le_pow₀ (by linarith)
  rw [show 2 * m + 2 = (m + 1) * 2 by ring, pow_mul]
  generalize (1 + eps K p) ^ (m + 1) = c at *
  generalize Matrix.of (mulMtx rnd A B) = Z at *
  generalize Matrix.of (mulMtx rnd B' A') = W at *
  have c0 : 0 ≤ c - 1 := by linarith
  have E0 : 0 ≤ (c - 1) * (μ * μ') := mul_nonneg c0 (mul_nonneg μ0 μ0')
  have k := ((((b'.mul (ra.mul b μ0') (mul_nonneg ρ0 μ0')).add rb).add (Q.mul E E0)).add (F.mul P (mul_nonneg μ0 μ0'))).add (F.mul E E0)
  have e : B' * ((A' * A - 1) * B) + (B' * B - 1) + B' * A' * (Z - A * B) + (W - B' * A') * (A * B) + (W - B' * A') * (Z - A * B) = W * Z - 1 := by
    noncomm_ring
  rw [e] at k
  intro i
  refine (k i).trans (le_of_eq ?_)
  ring

theorem Rows.computed (hp : 1 ≤ p) (h : IsRound p rnd) {A B : Matrix (Fin m) (Fin m) K} {α β : K} (a : Rows A α) (b : Rows B β) (β0 : 0 ≤ β) :
    Rows (Matrix.of (mulMtx rnd A B)) ((1 + eps K p) ^ (m + 1) * (α * β)) := by
  have k := (a.mul b β0).add (Rows.product hp h a b β0)
  rw [add_sub_cancel] at k
  intro i
  refine (k i).trans (le_of_eq ?_)
  ring

omit [FloorRing K] in
theorem Rows.nonneg {A : Matrix (Fin (n + 1)) (Fin (n + 1)) K} {α : K} (a : Rows A α) : 0 ≤ α :=
  (Finset.sum_nonneg fun _ _ => abs_nonneg _).trans (a 0)

/-- **C148.** The product of two transforms: how far its inverse is from being one is bounded by how far those of the factors are, and rounding.  `μ` and `ν`
bound the sums of the absolute values in the rows of the matrix and of the inverse, `ρ` those of their product less the identity. -/
theorem C148_mul (hp : 1 ≤ p) (h : IsRound p rnd) {x y : XF K n} {μ ν ρ μ' ν' ρ' : K} (a : Rows x.mat μ) (a' : Rows x.inv ν)
    (ra : Rows (x.inv * x.mat - 1) ρ) (b : Rows y.mat μ') (b' : Rows y.inv ν') (rb : Rows (y.inv * y.mat - 1) ρ') :
    Rows (xfMul rnd x y).mat ((1 + eps K p) ^ (n + 2) * (μ * μ')) ∧ Rows (xfMul rnd x y).inv ((1 + eps K p) ^ (n + 2) * (ν' * ν)) ∧
    Rows ((xfMul rnd x y).mat - x.mat * y.mat) (((1 + eps K p) ^ (n + 2) - 1) * (μ * μ')) ∧
    Rows ((xfMul rnd x y).inv * (xfMul rnd x y).mat - 1) (ν' * ρ * μ' + ρ' + ν * ν' * (μ * μ') * ((1 + eps K p) ^ (2 * n + 4) - 1)) :=
  ⟨Rows.computed hp h a b b.nonneg, Rows.computed hp h b' a' a'.nonneg, Rows.product hp h a b b.nonneg,
    residual hp h a a' ra b b' rb a.nonneg a'.nonneg b.nonneg b'.nonneg ra.nonneg⟩

/-- **C148.** The quotient of two transforms: likewise, with the inverse of the divisor in place of its matrix. -/
theorem C148_div (hp : 1 ≤ p) (h : IsRound p rnd) {x y : XF K n} {μ ν ρ μ' ν' ρ' : K} (a : Rows x.mat μ) (a' : Rows x.inv ν)
    (ra : Rows (x.inv * x.mat - 1) ρ) (b : Rows y.mat μ') (b' : Rows y.inv ν') (rb : Rows (y.mat * y.inv - 1) ρ') :
    Rows (xfDiv rnd x y).mat ((1 + eps K p) ^ (n + 2) * (ν' * μ)) ∧ Rows (xfDiv rnd x y).inv ((1 + eps K p) ^ (n + 2) * (ν * μ')) ∧
    Rows ((xfDiv rnd x y).mat - y.inv * x.mat) (((1 + eps K p) ^ (n + 2) - 1) * (ν' * μ)) ∧
    Rows ((xfDiv rnd x y).inv * (xfDiv rnd x y).mat - 1) (ν * ρ' * μ + ρ + μ' * ν * (ν' * μ) * ((1 + eps K p) ^ (2 * n + 4) - 1)) :=
  ⟨Rows.computed hp h b' a a.nonneg, Rows.computed hp h a' b b.nonneg, Rows.product hp h b' a a.nonneg,
    residual hp h b' b rb a a' ra b'.nonneg b.nonneg a.nonneg a'.nonneg rb.nonneg⟩

/-! ## Scalings and shifts -/

omit [LinearOrder K] [IsStrictOrderedRing K] [FloorRing K] in
theorem scale_diagonal (s : Fin n → K) :
    (Matrix.of fun i j : Fin (n + 1) => if h : (i : ℕ) < n then (if i = j then s ⟨i, h⟩ else Affine.eye _ i j) else Affine.eye _ i j) =
      Matrix.diagonal (Fin.snoc (α := fun _ => K) s 1) := by
  ext i j
  refine Fin.lastCases ?_ (fun k => ?_) i
  · by_cases e : Fin.last n = j
    · subst e
      simp [Affine.eye]
    · simp [Affine.eye, Matrix.diagonal_apply_ne _ e, e]
  · by_cases e : k.castSucc = j
    · subst e
      simp
    · simp [Affine.eye, Matrix.diagonal_apply_ne _ e, e]

/-- **C148.** The inverse kept with a scaling is one up to a single rounding. -/
theorem C148_scale (hp : 1 ≤ p) (h : IsRound p rnd) {s : Fin n → K} {x : XF K n} (hx : xfScale rnd s = some x) :
    Rows (x.inv * x.mat - 1) (eps K p) ∧ (∀ i, s i ≠ 0) ∧ ∀ j, x.mat (Fin.last n) j = if j = Fin.last n then 1 else 0 := by
  have e0 := eps_pos (K := K) p
  rw [xfScale] at hx
  split_ifs at hx with hz
  push Not at hz
  have := Option.some.inj hx
  subst this
  refine ⟨?_, hz, fun j => ?_⟩
  · rw [scale_diagonal s, scale_diagonal fun i => rnd (1 / s i), Matrix.diagonal_mul_diagonal, ← Matrix.diagonal_one, Matrix.diagonal_sub]
    intro i
    rw [Finset.sum_eq_single i]
    · rw [Matrix.diagonal_apply_eq]
      refine Fin.lastCases ?_ (fun k => ?_) i
      · rw [Fin.snoc_last, Fin.snoc_last, mul_one, sub_self, abs_zero]
        exact e0.le
      · rw [Fin.snoc_castSucc, Fin.snoc_castSucc]
        have h1 := h.rel hp (1 / s k)
        have h2 := mul_le_mul_of_nonneg_right h1 (abs_nonneg (s k))
        rw [← abs_mul, mul_assoc, ← abs_mul, sub_mul, one_div_mul_cancel (hz k), abs_one, mul_one] at h2
        exact h2
    · intro j _ hj
      rw [Matrix.diagonal_apply_ne _ (Ne.symm hj), abs_zero]
    · exact fun hn => absurd (Finset.mem_univ _) hn
  · simp [Affine.eye, eq_comm]

omit [FloorRing K] in
/-- **C148.** The inverse of a shift is exact. -/
theorem C148_translation (t : Fin n → K) : Rows ((Affine.translation t).inv * (Affine.translation t).mat - 1) 0 := fun i => by
  rw [(Affine.translation_wf t).right, sub_self]
  simp

/-! ## There and back -/

omit [FloorRing K] in
theorem rows_dot {A : Matrix (Fin m) (Fin m) K} {α : K} (a : Rows A α) {v : Fin m → K} {M : K} (hv : ∀ i, |v i| ≤ M) (i : Fin m) :
    ∑ j, |A i j * v j| ≤ α * M := by
  have M0 : 0 ≤ M := (abs_nonneg _).trans (hv i)
  refine le_trans ?_ (mul_le_mul_of_nonneg_right (a i) M0)
  rw [Finset.sum_mul]
  exact Finset.sum_le_sum fun j _ => by
    rw [abs_mul]
    exact mul_le_mul_of_nonneg_left (hv j) (abs_nonneg _)

/-- **C148.** A point moved by a transform and moved back is within the error of the inverse and of rounding of where it was, relative to the size `M` of the
point, or one. -/
theorem C148_round_trip (hp : 1 ≤ p) (h : IsRound p rnd) {x : XF K n} {μ ν ρ M : K} (a : Rows x.mat μ) (a' : Rows x.inv ν)
    (ra : Rows (x.inv * x.mat - 1) ρ) (hl : ∀ j, x.mat (Fin.last n) j = if j = Fin.last n then 1 else 0) (q : Fin n → K) (hq : ∀ i, |q i| ≤ M)
    (hM : 1 ≤ M) (i : Fin n) :
    |apply rnd x.inv (apply rnd x.mat q) i - q i| ≤ ρ * M + ν * μ * M * ((1 + eps K p) ^ (2 * n + 4) - 1) := by
  have e0 := eps_pos (K := K) p
  have μ0 := a.nonneg
  have ν0 := a'.nonneg
  rw [show 2 * n + 4 = (n + 2) * 2 by ring, pow_mul]
  obtain ⟨c, hc⟩ : ∃ c, c = (1 + eps K p) ^ (n + 2) := ⟨_, rfl⟩
  have c1 : 1 ≤ c := hc ▸ one_le_pow₀ (by linarith)
  have μ1 : 1 ≤ μ := by
    have := a (Fin.last n)
    rw [Finset.sum_eq_single (Fin.last n)] at this
    · rwa [hl, if_pos rfl, abs_one] at this
    · intro j _ hj
      rw [hl, if_neg hj, abs_zero]
    · exact fun hn => absurd (Finset.mem_univ _) hn
  have fwd : ∀ (B : Matrix (Fin (n + 1)) (Fin (n + 1)) K) (v : Fin (n + 1) → K) (r : Fin (n + 1)),
      |mulVec rnd B v r - ∑ j, B r j * v j| ≤ (c - 1) * ∑ j, |B r j * v j| := fun B v r => hc ▸ C111_vector hp h B v r
  rw [← hc]
  have hw : ∀ j, |(Fin.snoc q 1 : Fin (n + 1) → K) j| ≤ M := fun j => by
    refine Fin.lastCases ?_ (fun k => ?_) j
    · rw [Fin.snoc_last, abs_one]
      exact hM
    · rw [Fin.snoc_castSucc]
      exact hq k
  obtain ⟨w, ew⟩ : ∃ w : Fin (n + 1) → K, w = Fin.snoc q 1 := ⟨_, rfl⟩
  obtain ⟨y, ey⟩ : ∃ y : Fin (n + 1) → K, y = Fin.snoc (apply rnd x.mat q) 1 := ⟨_, rfl⟩
  rw [← ew] at hw
  have wi : w i.castSucc = q i := by rw [ew, Fin.snoc_castSucc]
  have h1 : ∀ j, |y j - ∑ k, x.mat j k * w k| ≤ (c - 1) * (μ * M) := fun j => by
    refine Fin.lastCases ?_ (fun k => ?_) j
    · have : ∑ k, x.mat (Fin.last n) k * w k = 1 := by
        rw [Finset.sum_eq_single (Fin.last n)]
        · rw [hl, if_pos rfl, ew, Fin.snoc_last, mul_one]
        · intro j _ hj
          rw [hl, if_neg hj, zero_mul]
        · exact fun hn => absurd (Finset.mem_univ _) hn
      rw [this, ey, Fin.snoc_last, sub_self, abs_zero]
      exact mul_nonneg (by linarith) (mul_nonneg μ0 (by linarith))
    · rw [ey, Fin.snoc_castSucc, show apply rnd x.mat q k = mulVec rnd x.mat w k.castSucc by rw [ew]; rfl]
      exact (fwd _ _ _).trans (mul_le_mul_of_nonneg_left (rows_dot a hw _) (by linarith))
  have h2 : ∀ j, |∑ k, x.mat j k * w k| ≤ μ * M := fun j => (Finset.abs_sum_le_sum_abs _ _).trans (rows_dot a hw j)
  have h3 : ∀ j, |y j| ≤ c * (μ * M) := fun j => by
    have := abs_sub_abs_le_abs_sub (y j) (∑ k, x.mat j k * w k)
    linarith [h1 j, h2 j]
  have h4 : |apply rnd x.inv (apply rnd x.mat q) i - ∑ j, x.inv i.castSucc j * y j| ≤ (c - 1) * (ν * (c * (μ * M))) := by
    rw [show apply rnd x.inv (apply rnd x.mat q) i = mulVec rnd x.inv y i.castSucc by rw [ey]; rfl]
    exact (fwd x.inv y i.castSucc).trans (mul_le_mul_of_nonneg_left (rows_dot a' h3 _) (by linarith))
  have h5 : |∑ j, x.inv i.castSucc j * (y j - ∑ k, x.mat j k * w k)| ≤ ν * ((c - 1) * (μ * M)) :=
    (Finset.abs_sum_le_sum_abs _ _).trans (rows_dot a' h1 _)
  have h6 : |∑ j, (x.inv * x.mat - 1) i.castSucc j * w j| ≤ ρ * M := (Finset.abs_sum_le_sum_abs _ _).trans (rows_dot ra hw _)
  have h7 : ∑ j, (x.inv * x.mat - 1) i.castSucc j * w j = ∑ j, x.inv i.castSucc j * ∑ k, x.mat j k * w k - q i := by
    have e1 : ∑ j, (x.inv * x.mat - 1) i.castSucc j * w j = (Matrix.mulVec (x.inv * x.mat - 1) w) i.castSucc := rfl
    rw [e1, Matrix.sub_mulVec, Matrix.one_mulVec, ← Matrix.mulVec_mulVec, Pi.sub_apply, wi]
    rfl
  have h8 : ∑ j, x.inv i.castSucc j * (y j - ∑ k, x.mat j k * w k) = ∑ j, x.inv i.castSucc j * y j - ∑ j, x.inv i.castSucc j * ∑ k, x.mat j k * w k := by
    rw [← Finset.sum_sub_distrib]
    exact Finset.sum_congr rfl fun j _ => mul_sub _ _ _
  rw [h7] at h6
  rw [h8] at h5
  rw [abs_le] at h4 h5 h6 ⊢
  constructor <;> nlinarith

/-- **C148** refuted: a point moved by a scaling and moved back is not always where it was, in `float` or in `double`. -/
theorem C148_round_trip_refuted : ∀ t ∈ [(24, 41), (53, 49)], ∃ x : XF ℚ 1, x.mat = !![(t.2 : ℚ), 0; 0, 1] ∧ x.inv = !![nearest t.1 (1 / t.2), 0; 0, 1] ∧
    apply (nearest t.1) x.inv (apply (nearest t.1) x.mat ![1]) ≠ ![1] := by
  intro t ht
  refine ⟨⟨!![(t.2 : ℚ), 0; 0, 1], !![nearest t.1 (1 / (t.2 : ℚ)), 0; 0, 1]⟩, rfl, rfl, ?_⟩
  simp only [List.mem_cons, List.not_mem_nil, or_false] at ht
  rcases ht with rfl | rfl <;> decide +kernel

omit [LinearOrder K] [IsStrictOrderedRing K] [FloorRing K] in
/-- **C148.** Without rounding the model is that of the exact transforms. -/
theorem C148_exact (x y : XF K n) : xfMul (fun x => x) x y = x.mul y ∧ xfDiv (fun x => x) x y = x.div y := ⟨rfl, rfl⟩

omit [LinearOrder K] [IsStrictOrderedRing K] [FloorRing K] in
theorem C148_scale_exact [DecidableEq K] (s : Fin n → K) : xfScale (fun x => x) s = Affine.scale s := rfl

/-- In `double`: a turn and stretch after a shift, its inverse, and what is left after dividing by it. -/
example :
    let x : XF ℚ 2 := ⟨!![1, -1, 3; 1, 1, 0; 0, 0, 1], !![1/2, 1/2, -3/2; -1/2, 1/2, 3/2; 0, 0, 1]⟩
    let y : XF ℚ 2 := ⟨!![1, 0, 5; 0, 1, 7; 0, 0, 1], !![1, 0, -5; 0, 1, -7; 0, 0, 1]⟩
    (xfMul (nearest 53) x y).mat = !![1, -1, 1; 1, 1, 12; 0, 0, 1] ∧ (xfMul (nearest 53) x y).inv = !![1/2, 1/2, -13/2; -1/2, 1/2, -11/2; 0, 0, 1] ∧
    (xfDiv (nearest 53) x x).mat = 1 ∧ (xfScale (nearest 53) ![(2 : ℚ), 4]).map (·.inv) = some !![1/2, 0, 0; 0, 1/4, 0; 0, 0, 1] ∧ xfScale (nearest 53) ![(2 : ℚ), 0] = none ∧ apply (nearest 53) x.inv (apply (nearest 53) x.mat ![3, 4]) = ![3, 4] := by
  decide +kernel

end Geomc.Flt
