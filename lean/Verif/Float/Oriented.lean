import Verif.Float.OrientedModel
import Verif.Float.Support
import Verif.Float.Partial
import Verif.Float.Geom
import Verif.Shape.OrientedModel

/-! # Property C144: support points of transformed shapes in floating point -/

namespace Geomc.Flt

open Geomc.Affine (XF)
open Geomc.Rect (Box)

variable {K : Type} [Field K] [LinearOrder K] [IsStrictOrderedRing K] [FloorRing K] {n p : ℕ} {rnd : K → K}

omit [FloorRing K] in
/-- The points themselves are no farther out than the support points and their error. -/
theorem Supports.size {S : Set (Fin n → K)} {sup : (Fin n → K) → Fin n → K} {δ m : K} (h : Supports S sup δ m) {x : Fin n → K} (hx : x ∈ S) (i : Fin n) :
    |x i| ≤ m + δ := by
  have key : ∀ s : K, |s| = 1 → x i * s ≤ m + δ := by
    intro s hs
    have h1 := h.1 (Pi.single i s) x hx
    rw [dotProduct_single, dotProduct_single] at h1
    have h2 : ∑ j, |(Pi.single i s : Fin n → K) j| = 1 := by
      rw [Finset.sum_eq_single i]
      · rw [Pi.single_eq_same, hs]
      · intro j _ hj
        rw [Pi.single_eq_of_ne hj, abs_zero]
      · intro hn
        exact absurd (Finset.mem_univ i) hn
    have h3 := le_abs_self (sup (Pi.single i s) i * s)
    rw [abs_mul, hs, mul_one] at h3
    rw [h2] at h1
    linarith [h.2 (Pi.single i s) i]
  have a := key 1 abs_one
  have b := key (-1) (by rw [abs_neg, abs_one])
  rw [abs_le]
  constructor <;> linarith

omit [FloorRing K] in
theorem sum_mul_near {x e e' : Fin n → K} {X E : K} (hx : ∀ i, |x i| ≤ X) (he : ∀ i, |e i - e' i| ≤ E) : x ⬝ᵥ e ≤ x ⬝ᵥ e' + n * (X * E) := by
  have h1 : x ⬝ᵥ e - x ⬝ᵥ e' = ∑ i, x i * (e i - e' i) := by
    rw [dotProduct, dotProduct, ← Finset.sum_sub_distrib]
    exact Finset.sum_congr rfl fun i _ => by ring
  have h2 : ∑ i, x i * (e i - e' i) ≤ ∑ _i : Fin n, X * E := Finset.sum_le_sum fun i _ => by
    refine (le_abs_self _).trans ?_
    rw [abs_mul]
    exact mul_le_mul (hx i) (he i) (abs_nonneg _) ((abs_nonneg _).trans (hx i))
  rw [Finset.sum_const, Finset.card_univ, Fintype.card_fin, nsmul_eq_mul] at h2
  linarith

/-- **C144.** The support points of a shape moved by an affine transform are right up to rounding, if those of the shape are: `μ` and `τ` bound the elements of
the matrix and the translation. -/
theorem C144_support (hp : 1 ≤ p) (h : IsRound p rnd) {S : Set (Fin n → K)} {sup : (Fin n → K) → Fin n → K} {δ m μ τ : K} (hS : Supports S sup δ m)
    (hδ : 0 ≤ δ) (m0 : 0 ≤ m) (x : XF K n) (hμ : ∀ i j : Fin n, |x.mat i.castSucc j.castSucc| ≤ μ) (hτ : ∀ i : Fin n, |x.mat i.castSucc (Fin.last n)| ≤ τ)
    (μ0 : 0 ≤ μ) :
    Supports {y | ∃ u ∈ S, ∀ i : Fin n, y i = ∑ j : Fin n, x.mat i.castSucc j.castSucc * u j + x.mat i.castSucc (Fin.last n)} (orientedSupport rnd sup x)
      ((2 * m + δ) * n * μ * ((1 + eps K p) ^ (n + 1) - 1) + δ * n * μ * (1 + eps K p) ^ (n + 1) + ((1 + eps K p) ^ (n + 2) - 1) * (n * μ * m + τ))
      ((1 + eps K p) ^ (n + 2) * (n * μ * m + τ)) := by
  have e0 := eps_pos (K := K) p
  obtain ⟨γ, hγ⟩ : ∃ γ, γ = (1 + eps K p) ^ (n + 1) - 1 := ⟨_, rfl⟩
  obtain ⟨G, hG⟩ : ∃ G, G = (1 + eps K p) ^ (n + 2) - 1 := ⟨_, rfl⟩
  have γ0 : 0 ≤ γ := hγ ▸ sub_nonneg.2 (one_le_pow₀ (by linarith))
  have G0 : 0 ≤ G := hG ▸ sub_nonneg.2 (one_le_pow₀ (by linarith))
  have n0 : (0 : K) ≤ n := Nat.cast_nonneg n
  rw [← hγ, ← hG, show (1 + eps K p) ^ (n + 1) = 1 + γ by rw [hγ]; ring, show (1 + eps K p) ^ (n + 2) = 1 + G by rw [hG]; ring]
  -- the direction
  have hd : ∀ (d : Fin n → K) (i : Fin n), |applyInverseNormal rnd x d i - ∑ j : Fin n, x.mat j.castSucc i.castSucc * d j| ≤ γ * (μ * ∑ j, |d j|) ∧
      |∑ j : Fin n, x.mat j.castSucc i.castSucc * d j| ≤ μ * ∑ j, |d j| := by
    intro d i
    have h1 := (C111_apply hp h (fun r c => x.mat c r) d i).2
    have h2 : ∑ j : Fin n, |x.mat j.castSucc i.castSucc * d j| ≤ μ * ∑ j, |d j| := by
      rw [Finset.mul_sum]
      refine Finset.sum_le_sum fun j _ => ?_
      rw [abs_mul]
      exact mul_le_mul_of_nonneg_right (hμ j i) (abs_nonneg _)
    refine ⟨?_, (Finset.abs_sum_le_sum_abs _ _).trans h2⟩
    refine h1.trans ?_
    rw [show ((1 + 2 ^ (-(p : ℤ))) ^ (n + 1) - 1 : K) = γ from hγ.symm]
    exact mul_le_mul_of_nonneg_left h2 γ0
  -- the point
  have hq : ∀ (q : Fin n → K), (∀ i, |q i| ≤ m) → ∀ i : Fin n,
      |apply rnd x.mat q i - (∑ j : Fin n, x.mat i.castSucc j.castSucc * q j + x.mat i.castSucc (Fin.last n))| ≤ G * (n * μ * m + τ) ∧
      |∑ j : Fin n, x.mat i.castSucc j.castSucc * q j + x.mat i.castSucc (Fin.last n)| ≤ n * μ * m + τ := by
    intro q hm i
    have h1 := (C111_apply hp h (fun r c => x.mat r c) q i).1
    have h2 : ∑ j : Fin n, |x.mat i.castSucc j.castSucc * q j| ≤ n * μ * m := by
      refine (Finset.sum_le_sum fun j _ => (show _ ≤ μ * m from ?_)).trans (le_of_eq ?_)
      · rw [abs_mul]
        exact mul_le_mul (hμ i j) (hm j) (abs_nonneg _) μ0
      · rw [Finset.sum_const, Finset.card_univ, Fintype.card_fin, nsmul_eq_mul]
        ring
    have h3 := (Finset.abs_sum_le_sum_abs (fun j : Fin n => x.mat i.castSucc j.castSucc * q j) Finset.univ).trans h2
    refine ⟨?_, (abs_add_le _ _).trans (add_le_add h3 (hτ i))⟩
    refine h1.trans ?_
    rw [show ((1 + 2 ^ (-(p : ℤ))) ^ (n + 2) - 1 : K) = G from hG.symm]
    exact mul_le_mul_of_nonneg_left (add_le_add h2 (hτ i)) G0
  -- the product with a moved point
  have move : ∀ u d : Fin n → K, (fun i : Fin n => ∑ j : Fin n, x.mat i.castSucc j.castSucc * u j + x.mat i.castSucc (Fin.last n)) ⬝ᵥ d =
      u ⬝ᵥ (fun i => ∑ j : Fin n, x.mat j.castSucc i.castSucc * d j) + (fun i : Fin n => x.mat i.castSucc (Fin.last n)) ⬝ᵥ d := by
    intro u d
    simp only [dotProduct, add_mul, Finset.sum_add_distrib, Finset.sum_mul, Finset.mul_sum]
    congr 1
    rw [Finset.sum_comm]
    exact Finset.sum_congr rfl fun i _ => Finset.sum_congr rfl fun j _ => by ring
  refine ⟨fun d y hy => ?_, fun d i => ?_⟩
  · obtain ⟨u, hu, hy⟩ := hy
    obtain ⟨L, hL⟩ : ∃ L, L = ∑ i, |d i| := ⟨_, rfl⟩
    have L0 : 0 ≤ L := hL ▸ Finset.sum_nonneg fun i _ => abs_nonneg _
    obtain ⟨d', hd'⟩ : ∃ d', d' = applyInverseNormal rnd x d := ⟨_, rfl⟩
    obtain ⟨D, hD⟩ : ∃ D : Fin n → K, D = fun i => ∑ j : Fin n, x.mat j.castSucc i.castSucc * d j := ⟨_, rfl⟩
    have hdd : ∀ i, |d' i - D i| ≤ γ * (μ * L) := fun i => by
      rw [hd', hD, hL]
      exact (hd d i).1
    have hd1 : ∑ i, |d' i| ≤ n * ((1 + γ) * (μ * L)) := by
      refine (Finset.sum_le_sum fun i _ => (show _ ≤ (1 + γ) * (μ * L) from ?_)).trans (le_of_eq ?_)
      · have a1 := abs_sub_abs_le_abs_sub (d' i) (D i)
        have a2 : |D i| ≤ μ * L := by
          rw [hD, hL]
          exact (hd d i).2
        linarith [hdd i]
      · rw [Finset.sum_const, Finset.card_univ, Fintype.card_fin, nsmul_eq_mul]
    have b1 : u ⬝ᵥ D ≤ u ⬝ᵥ d' + n * ((m + δ) * (γ * (μ * L))) :=
      sum_mul_near (fun i => hS.size hu i) fun i => by rw [abs_sub_comm]; exact hdd i
    have b2 := hS.1 d' u hu
    have b3 := mul_le_mul_of_nonneg_left hd1 hδ
    have b4 : sup d' ⬝ᵥ d' ≤ sup d' ⬝ᵥ D + n * (m * (γ * (μ * L))) := sum_mul_near (fun i => hS.2 d' i) hdd
    have b5 := along_near (d := d) fun i => (hq (sup d') (hS.2 d') i).1
    rw [move, ← hD, ← hL] at b5
    have ey : y = fun i : Fin n => ∑ j : Fin n, x.mat i.castSucc j.castSucc * u j + x.mat i.castSucc (Fin.last n) := funext hy
    rw [ey, move, ← hD, ← hL]
    have es : orientedSupport rnd sup x d = fun i => apply rnd x.mat (sup d') i := by
      rw [orientedSupport, hd']
    rw [es]
    linarith
  · obtain ⟨q1, q2⟩ := hq (sup (applyInverseNormal rnd x d)) (hS.2 _) i
    have := abs_sub_abs_le_abs_sub (orientedSupport rnd sup x d i) (∑ j : Fin n, x.mat i.castSucc j.castSucc * sup (applyInverseNormal rnd x d) j + x.mat i.castSucc (Fin.last n))
    have e : orientedSupport rnd sup x d i = apply rnd x.mat (sup (applyInverseNormal rnd x d)) i := rfl
    rw [e] at this ⊢
    linarith

/-- **C144.** The bounds of a shape moved by an affine transform contain it, up to rounding. -/
theorem C144_bounds (hp : 1 ≤ p) (h : IsRound p rnd) {S : Set (Fin n → K)} {sup : (Fin n → K) → Fin n → K} {δ m μ τ : K} (hS : Supports S sup δ m)
    (hδ : 0 ≤ δ) (x : XF K n) (hμ : ∀ i j : Fin n, |x.mat i.castSucc j.castSucc| ≤ μ) (hτ : ∀ i : Fin n, |x.mat i.castSucc (Fin.last n)| ≤ τ)
    (μ0 : 0 ≤ μ) {y u : Fin n → K} (hu : u ∈ S)
    (hy : ∀ i : Fin n, y i = ∑ j : Fin n, x.mat i.castSucc j.castSucc * u j + x.mat i.castSucc (Fin.last n)) (i : Fin n) :
    (orientedBounds rnd sup x).lo i - (δ * (n * μ) + ((1 + eps K p) ^ (n + 2) - 1) * (n * μ * m + τ)) ≤ y i ∧
    y i ≤ (orientedBounds rnd sup x).hi i + (δ * (n * μ) + ((1 + eps K p) ^ (n + 2) - 1) * (n * μ * m + τ)) := by
  have e0 := eps_pos (K := K) p
  obtain ⟨G, hG⟩ : ∃ G, G = (1 + eps K p) ^ (n + 2) - 1 := ⟨_, rfl⟩
  have G0 : 0 ≤ G := hG ▸ sub_nonneg.2 (one_le_pow₀ (by linarith))
  have hrow : ∑ j, |Shape.matRow x i j| ≤ n * μ := by
    refine (Finset.sum_le_sum fun j _ => (show _ ≤ μ from hμ i j)).trans (le_of_eq ?_)
    rw [Finset.sum_const, Finset.card_univ, Fintype.card_fin, nsmul_eq_mul]
  have hq : ∀ q : Fin n → K, (∀ i, |q i| ≤ m) → |apply rnd x.mat q i - (q ⬝ᵥ Shape.matRow x i + x.mat i.castSucc (Fin.last n))| ≤ G * (n * μ * m + τ) := by
    intro q hm
    have h1 := (C111_apply hp h (fun r c => x.mat r c) q i).1
    have h2 : ∑ j : Fin n, |x.mat i.castSucc j.castSucc * q j| ≤ n * μ * m := by
      refine (Finset.sum_le_sum fun j _ => (show _ ≤ μ * m from ?_)).trans (le_of_eq ?_)
      · rw [abs_mul]
        exact mul_le_mul (hμ i j) (hm j) (abs_nonneg _) μ0
      · rw [Finset.sum_const, Finset.card_univ, Fintype.card_fin, nsmul_eq_mul]
        ring
    rw [show ((1 + 2 ^ (-(p : ℤ))) ^ (n + 2) - 1 : K) = G from hG.symm] at h1
    have e : q ⬝ᵥ Shape.matRow x i = ∑ j : Fin n, x.mat i.castSucc j.castSucc * q j := by
      rw [dotProduct_comm]
      rfl
    rw [e]
    exact h1.trans (mul_le_mul_of_nonneg_left (add_le_add h2 (hτ i)) G0)
  have ey : y i = u ⬝ᵥ Shape.matRow x i + x.mat i.castSucc (Fin.last n) := by
    rw [hy, dotProduct_comm]
    rfl
  have b3 := mul_le_mul_of_nonneg_left hrow hδ
  rw [← hG, ey]
  constructor
  · have a1 := (abs_le.1 (hq _ (hS.2 (-Shape.matRow x i)))).2
    have a2 := hS.1 (-Shape.matRow x i) u hu
    simp only [dotProduct_neg, Pi.neg_apply, abs_neg] at a2
    simp only [orientedBounds]
    linarith
  · have a1 := (abs_le.1 (hq _ (hS.2 (Shape.matRow x i)))).1
    have a2 := hS.1 (Shape.matRow x i) u hu
    simp only [orientedBounds]
    linarith

omit [IsStrictOrderedRing K] [FloorRing K] in
/-- **C144.** Without rounding the model is that of C54; and that of oriented rectangles is the one of rectangles, moved. -/
theorem C144_exact (sup : (Fin n → K) → Fin n → K) (b : Box K n) (x : XF K n) (d : Fin n → K) :
    orientedSupport (fun x => x) sup x d = Shape.oriSupport sup x d ∧ orientedSupport (fun x => x) b.support x d = Shape.oriRectSupport b x d ∧
    orientedBounds (fun x => x) sup x = Shape.oriBounds sup x := ⟨rfl, rfl, rfl⟩

/-- **C144.** Oriented rectangles in two dimensions or three: the overlap test always gives an answer, reports an overlap where they overlap by more than
rounding, and reports them apart only where they overlap by no more than that along some direction. -/
theorem C144_boxes (hp : 1 ≤ p) (h : IsRound p rnd) (hn : n = 2 ∨ n = 3) (a b : Box K n) (x y : XF K n) {m μ τ : K}
    (ha : ∀ i, |a.lo i| ≤ m ∧ |a.hi i| ≤ m) (hb : ∀ i, |b.lo i| ≤ m ∧ |b.hi i| ≤ m)
    (hx : ∀ i j : Fin n, |x.mat i.castSucc j.castSucc| ≤ μ ∧ |y.mat i.castSucc j.castSucc| ≤ μ)
    (ht : ∀ i : Fin n, |x.mat i.castSucc (Fin.last n)| ≤ τ ∧ |y.mat i.castSucc (Fin.last n)| ≤ τ) :
    let A := {z | ∃ u ∈ a.pts, ∀ i : Fin n, z i = ∑ j : Fin n, x.mat i.castSucc j.castSucc * u j + x.mat i.castSucc (Fin.last n)}
    let B := {z | ∃ u ∈ b.pts, ∀ i : Fin n, z i = ∑ j : Fin n, y.mat i.castSucc j.castSucc * u j + y.mat i.castSucc (Fin.last n)}
    let β := 2 * (2 * m * n * μ * ((1 + eps K p) ^ (n + 1) - 1) + ((1 + eps K p) ^ (n + 2) - 1) * (n * μ * m + τ)) +
      2 * ((1 + eps K p) ^ (n + 1) - 1) * ((1 + eps K p) ^ (n + 2) * (n * μ * m + τ))
    ∃ r, overlapOf rnd (orientedSupport rnd a.support x) (orientedSupport rnd b.support y) = some r ∧
      (∀ ρ, (∀ v : Fin n → K, (∀ i, |v i| ≤ ρ) → ∃ s ∈ A, ∃ t ∈ B, s = t + v) → β < ρ → r.hit = true) ∧
      (r.hit = false → ∃ d : Fin n → K, d ≠ 0 ∧ ∀ s ∈ A, ∀ t ∈ B, (s - t) ⬝ᵥ d ≤ β * ∑ i, |d i|) := by
  have e0 := eps_pos (K := K) p
  have i0 : 0 < n := by omega
  have m0 : 0 ≤ m := (abs_nonneg _).trans (ha ⟨0, i0⟩).1
  have μ0 : 0 ≤ μ := (abs_nonneg _).trans (hx ⟨0, i0⟩ ⟨0, i0⟩).1
  have τ0 : 0 ≤ τ := (abs_nonneg _).trans (ht ⟨0, i0⟩).1
  have sA := C144_support hp h (C141_box a (fun i => (ha i).1) fun i => (ha i).2) le_rfl m0 x (fun i j => (hx i j).1) (fun i => (ht i).1) μ0
  have sB := C144_support hp h (C141_box b (fun i => (hb i).1) fun i => (hb i).2) le_rfl m0 y (fun i j => (hx i j).2) (fun i => (ht i).2) μ0
  have e1 : (0 : K) ≤ (1 + eps K p) ^ (n + 1) - 1 := sub_nonneg.2 (one_le_pow₀ (by linarith))
  have e2 : (0 : K) ≤ (1 + eps K p) ^ (n + 2) - 1 := sub_nonneg.2 (one_le_pow₀ (by linarith))
  rw [add_zero, zero_mul, zero_mul, zero_mul, add_zero] at sA sB
  exact C141_overlap hp h hn sA sB (by positivity)

/-- In `double`: a square turned by a quarter of a right angle and stretched, against another beside it and one upon it. -/
example :
    let x : XF ℚ 2 := ⟨!![1, -1, 3; 1, 1, 0; 0, 0, 1], !![1/2, 1/2, -3/2; -1/2, 1/2, 3/2; 0, 0, 1]⟩
    orientedSupport (nearest 53) (⟨![0, 0], ![1, 1]⟩ : Box ℚ 2).support x ![0, 1] = ![3, 2] ∧
    orientedBounds (nearest 53) (⟨![0, 0], ![1, 1]⟩ : Box ℚ 2).support x = ⟨![2, 0], ![4, 2]⟩ ∧
    (overlapOf (nearest 53) (orientedSupport (nearest 53) (⟨![0, 0], ![1, 1]⟩ : Box ℚ 2).support x) (⟨![0, 0], ![2, 1/2]⟩ : Box ℚ 2).support).map (·.hit) = some false ∧
    (overlapOf (nearest 53) (orientedSupport (nearest 53) (⟨![0, 0], ![1, 1]⟩ : Box ℚ 2).support x) (⟨![0, 0], ![3, 2]⟩ : Box ℚ 2).support).map (·.hit) = some true := by
  decide +kernel

end Geomc.Flt
