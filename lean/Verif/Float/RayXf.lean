import Verif.Float.RayXfModel
import Verif.Float.Geom
import Verif.Float.Lerp
import Verif.Affine.Lemmas

/-! # Property C149: rays moved by transforms in floating point -/

namespace Geomc.Flt

open Geomc.Affine (XF)

variable {K : Type} [Field K] [LinearOrder K] [IsStrictOrderedRing K] [FloorRing K] {n m p : ℕ} {rnd : K → K}

/-- The product of a matrix with a vector of which the components have errors. -/
theorem mulVec_near (hp : 1 ≤ p) (h : IsRound p rnd) (A : Fin m → Fin n → K) {k : ℕ} {v' v V : Fin n → K} (hv : ∀ j, Near (eps K p) k (v' j) (v j) (V j))
    (r : Fin m) : Near (eps K p) (k + (n + 1)) (mulVec rnd A v' r) (∑ j, A r j * v j) (∑ j, |A r j| * V j) := by
  have e0 := eps_pos (K := K) p
  have h1 := C111_vector hp h A v' r
  rw [show (2 : K) ^ (-(p : ℤ)) = eps K p from rfl] at h1
  have c1 : (1 : K) ≤ (1 + eps K p) ^ (n + 1) := one_le_pow₀ (by linarith)
  have h2 : ∑ j, |A r j * v' j| ≤ (1 + eps K p) ^ k * ∑ j, |A r j| * V j := by
    rw [Finset.mul_sum]
    refine Finset.sum_le_sum fun j _ => ?_
    rw [abs_mul]
    have := mul_le_mul_of_nonneg_left (hv j).size (abs_nonneg (A r j))
    linarith
  have h3 : |∑ j, A r j * v' j - ∑ j, A r j * v j| ≤ ((1 + eps K p) ^ k - 1) * ∑ j, |A r j| * V j := by
    rw [← Finset.sum_sub_distrib, Finset.mul_sum]
    refine (Finset.abs_sum_le_sum_abs _ _).trans (Finset.sum_le_sum fun j _ => ?_)
    rw [← mul_sub, abs_mul]
    have := mul_le_mul_of_nonneg_left (hv j).1 (abs_nonneg (A r j))
    linarith
  constructor
  · have h4 := mul_le_mul_of_nonneg_left h2 (show 0 ≤ (1 + eps K p) ^ (n + 1) - 1 by linarith)
    have h5 := abs_sub_le (mulVec rnd A v' r) (∑ j, A r j * v' j) (∑ j, A r j * v j)
    rw [pow_add]
    linarith
  · refine (Finset.abs_sum_le_sum_abs _ _).trans (Finset.sum_le_sum fun j _ => ?_)
    rw [abs_mul]
    exact mul_le_mul_of_nonneg_left (hv j).2 (abs_nonneg _)

/-- A moved point of which the components have errors. -/
theorem apply_near (hp : 1 ≤ p) (h : IsRound p rnd) (A : Fin (n + 1) → Fin (n + 1) → K) {k : ℕ} {q' q Q : Fin n → K}
    (hq : ∀ j, Near (eps K p) k (q' j) (q j) (Q j)) (i : Fin n) :
    Near (eps K p) (k + (n + 2)) (apply rnd A q' i) (∑ j : Fin n, A i.castSucc j.castSucc * q j + A i.castSucc (Fin.last n))
      (∑ j : Fin n, |A i.castSucc j.castSucc| * Q j + |A i.castSucc (Fin.last n)|) := by
  have e0 := eps_pos (K := K) p
  have key := mulVec_near hp h A (k := k) (v' := Fin.snoc q' 1) (v := Fin.snoc q 1) (V := Fin.snoc Q 1) (fun j => by
    refine Fin.lastCases ?_ (fun l => ?_) j
    · simp only [Fin.snoc_last]
      have := (Near.refl (eps K p) (1 : K)).mono e0.le (Nat.zero_le k)
      rwa [abs_one] at this
    · simp only [Fin.snoc_castSucc]
      exact hq l) i.castSucc
  simp only [Fin.sum_univ_castSucc, Fin.snoc_castSucc, Fin.snoc_last, mul_one] at key
  exact key

/-- The points of a moved ray, and the moved points of a ray. -/
theorem ray_moved (hp : 1 ≤ p) (h : IsRound p rnd) (A : Fin (n + 1) → Fin (n + 1) → K) (o v : Fin n → K) (s : K) (i : Fin n) :
    let X := ∑ j : Fin n, A i.castSucc j.castSucc * (o j + v j * s) + A i.castSucc (Fin.last n)
    let W := ∑ j : Fin n, |A i.castSucc j.castSucc| * (|o j| + |v j * s|) + |A i.castSucc (Fin.last n)|
    |rayAt rnd (apply rnd A o) (applyVector rnd A v) s i - X| ≤ ((1 + eps K p) ^ (n + 3) - 1) * W ∧
    |apply rnd A (rayAt rnd o v s) i - X| ≤ ((1 + eps K p) ^ (n + 4) - 1) * W := by
  intro X W
  have e0 := eps_pos (K := K) p
  constructor
  · have ho := apply_near hp h A (fun j => Near.refl (eps K p) (o j)) i
    have hv := mulVec_near hp h (fun r c : Fin n => A r.castSucc c.castSucc) (fun j => Near.refl (eps K p) (v j)) i
    have h1 := (((hv.mul e0.le (Near.refl (eps K p) s)).round hp h le_rfl).mono e0.le (show 0 + (n + 1) + 0 + 1 ≤ 0 + (n + 2) by omega))
    have h2 := ((ho.add h1).round hp h le_rfl).1
    rw [show 0 + (n + 2) + 1 = n + 3 by omega] at h2
    have eX : ∑ j : Fin n, A i.castSucc j.castSucc * o j + A i.castSucc (Fin.last n) + (∑ j : Fin n, A i.castSucc j.castSucc * v j) * s = X := by
      simp only [X, mul_add, Finset.sum_add_distrib, Finset.sum_mul, mul_assoc]
      ring
    have eW : ∑ j : Fin n, |A i.castSucc j.castSucc| * |o j| + |A i.castSucc (Fin.last n)| + (∑ j : Fin n, |A i.castSucc j.castSucc| * |v j|) * |s| = W := by
      simp only [W, mul_add, Finset.sum_add_distrib, Finset.sum_mul, mul_assoc, abs_mul]
      ring
    rw [eX, eW] at h2
    exact h2
  · have hy : ∀ j, Near (eps K p) 2 (rayAt rnd o v s j) (o j + v j * s) (|o j| + |v j * s|) := fun j =>
      ((((Near.refl (eps K p) (o j)).mono e0.le (Nat.zero_le 1)).add ((Near.refl (eps K p) (v j * s)).round hp h le_rfl)).round hp h le_rfl)
    have h2 := (apply_near hp h A hy i).1
    rw [show 2 + (n + 2) = n + 4 by omega] at h2
    exact h2

/-- **C149.** A point of a ray moved by a transform, or moved back, is the moved point of the ray, up to rounding: relative to the sum of the absolute values of
the products. -/
theorem C149_ray (hp : 1 ≤ p) (h : IsRound p rnd) (x : XF K n) (o v : Fin n → K) (s : K) (i : Fin n) :
    let W := fun A : Matrix (Fin (n + 1)) (Fin (n + 1)) K =>
      ∑ j : Fin n, |A i.castSucc j.castSucc| * (|o j| + |v j * s|) + |A i.castSucc (Fin.last n)|
    |rayAt rnd (xfRay rnd x (o, v)).1 (xfRay rnd x (o, v)).2 s i - x.apply (fun j => o j + v j * s) i| ≤ ((1 + eps K p) ^ (n + 3) - 1) * W x.mat ∧
    |rayAt rnd (xfRayInverse rnd x (o, v)).1 (xfRayInverse rnd x (o, v)).2 s i - x.applyInverse (fun j => o j + v j * s) i| ≤
      ((1 + eps K p) ^ (n + 3) - 1) * W x.inv ∧
    |rayAt rnd (xfRay rnd x (o, v)).1 (xfRay rnd x (o, v)).2 s i - apply rnd x.mat (rayAt rnd o v s) i| ≤ 2 * ((1 + eps K p) ^ (n + 4) - 1) * W x.mat ∧
    |rayAt rnd (xfRayInverse rnd x (o, v)).1 (xfRayInverse rnd x (o, v)).2 s i - apply rnd x.inv (rayAt rnd o v s) i| ≤
      2 * ((1 + eps K p) ^ (n + 4) - 1) * W x.inv := by
  intro W
  have e0 := eps_pos (K := K) p
  have ex : ∀ (A : Matrix (Fin (n + 1)) (Fin (n + 1)) K) (q : Fin n → K),
      Affine.applyMat A q i = ∑ j : Fin n, A i.castSucc j.castSucc * q j + A i.castSucc (Fin.last n) := fun A q => Affine.applyMat_eq A q i
  have two : ∀ A : Matrix (Fin (n + 1)) (Fin (n + 1)) K,
      |rayAt rnd (apply rnd A o) (applyVector rnd A v) s i - apply rnd A (rayAt rnd o v s) i| ≤ 2 * ((1 + eps K p) ^ (n + 4) - 1) * W A := by
    intro A
    obtain ⟨h1, h2⟩ := ray_moved hp h A o v s i
    have W0 : 0 ≤ W A := by positivity
    have h3 : (1 + eps K p) ^ (n + 3) ≤ (1 + eps K p) ^ (n + 4) := pow_le_pow_right₀ (by linarith) (by omega)
    have h4 := mul_le_mul_of_nonneg_right h3 W0
    have h5 := abs_sub_le (rayAt rnd (apply rnd A o) (applyVector rnd A v) s i)
      (∑ j : Fin n, A i.castSucc j.castSucc * (o j + v j * s) + A i.castSucc (Fin.last n)) (apply rnd A (rayAt rnd o v s) i)
    rw [abs_sub_comm (∑ j : Fin n, A i.castSucc j.castSucc * (o j + v j * s) + A i.castSucc (Fin.last n))] at h5
    change _ ≤ _ * W A at h1
    change _ ≤ _ * W A at h2
    linarith
  refine ⟨?_, ?_, two x.mat, two x.inv⟩
  · rw [XF.apply, ex]
    exact (ray_moved hp h x.mat o v s i).1
  · rw [XF.applyInverse, ex]
    exact (ray_moved hp h x.inv o v s i).1

omit [LinearOrder K] [IsStrictOrderedRing K] [FloorRing K] in
/-- **C149.** Without rounding the model is that of the exact transforms. -/
theorem C149_exact (x : XF K n) (r : (Fin n → K) × (Fin n → K)) :
    xfRay (fun x => x) x r = x.applyRay r ∧ xfRayInverse (fun x => x) x r = x.applyInverseRay r := ⟨rfl, rfl⟩

/-- **C149** refuted: the moved point of a ray and the point of the moved ray are not the same numbers, in `float` or in `double`. -/
theorem C149_ray_refuted : ∀ p ∈ [24, 53], ∃ (x : XF ℚ 1) (o v : Fin 1 → ℚ) (s : ℚ), (∀ i, nearest p (o i) = o i ∧ nearest p (v i) = v i) ∧ nearest p s = s ∧
    x.mat = !![3, 0; 0, 1] ∧ rayAt (nearest p) (xfRay (nearest p) x (o, v)).1 (xfRay (nearest p) x (o, v)).2 s ≠ apply (nearest p) x.mat (rayAt (nearest p) o v s) := by
  intro p hp
  refine ⟨⟨!![3, 0; 0, 1], !![nearest p (1/3), 0; 0, 1]⟩, ![1], ![1 / 2 ^ (p - 1)], 1 / 2, ?_⟩
  simp only [List.mem_cons, List.not_mem_nil, or_false] at hp
  rcases hp with rfl | rfl <;> decide +kernel

/-- In `double`: a ray turned and stretched, and turned back. -/
example :
    let x : XF ℚ 2 := ⟨!![1, -1, 3; 1, 1, 0; 0, 0, 1], !![1/2, 1/2, -3/2; -1/2, 1/2, 3/2; 0, 0, 1]⟩
    xfRay (nearest 53) x (![1, 2], ![1, 0]) = (![2, 3], ![1, 1]) ∧ xfRayInverse (nearest 53) x (![2, 3], ![1, 1]) = (![1, 2], ![1, 0]) := by
  decide +kernel

end Geomc.Flt
