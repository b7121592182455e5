import Verif.Vec.Lemmas
import Verif.Rect.Props
import Verif.Util.Model

/-!
# Lengths, and what it means for shape queries to be right

Everything is over an ordered field with a square root (`IsSqrt`), such as the reals.  The specifications of support points,
bounds and signed distances below refer to a set of points only.
-/

namespace Geomc.Shape

open Geomc.Vec Geomc.Rect

variable {K : Type} {n : ℕ} [Field K]

/-- The Euclidean length. -/
def len (sqrt : K → K) (u : Fin n → K) : K := sqrt (mag2 u)

variable [LinearOrder K]

/-- `x` is a point of `S` farthest along `d`. -/
def IsSupport (S : Set (Fin n → K)) (d x : Fin n → K) : Prop := x ∈ S ∧ ∀ q ∈ S, dot q d ≤ dot x d

/-- `b` is the smallest box containing `S`. -/
def IsHull (S : Set (Fin n → K)) (b : Box K n) : Prop :=
  S ⊆ b.pts ∧ ∀ c : Box K n, S ⊆ c.pts → b.pts ⊆ c.pts

/-- `s` is the signed distance of `p` to the surface of the solid `S`: the least distance to a point of `S` from outside;
from inside, minus the radius of the largest ball around `p` that stays in `S`. -/
def IsSDist (sqrt : K → K) (S : Set (Fin n → K)) (p : Fin n → K) (s : K) : Prop :=
  (p ∉ S → IsLeast {x | ∃ q ∈ S, x = len sqrt (p - q)} s) ∧
  (p ∈ S → s ≤ 0 ∧ (∀ q, len sqrt (p - q) < -s → q ∈ S) ∧ ∀ ρ, -s < ρ → ∃ q, len sqrt (p - q) < ρ ∧ q ∉ S)

/-- The surface of a solid: points of it with outside points arbitrarily near. -/
def surface (sqrt : K → K) (S : Set (Fin n → K)) : Set (Fin n → K) :=
  {q | q ∈ S ∧ ∀ ε, 0 < ε → ∃ r, r ∉ S ∧ len sqrt (q - r) < ε}

/-- `q` is a point of the surface nearest to `p`. -/
def IsNearest (sqrt : K → K) (S : Set (Fin n → K)) (p q : Fin n → K) : Prop :=
  q ∈ surface sqrt S ∧ ∀ r ∈ surface sqrt S, len sqrt (p - q) ≤ len sqrt (p - r)

variable [IsStrictOrderedRing K] {sqrt : K → K}

theorem len_nonneg (hs : IsSqrt sqrt) (u : Fin n → K) : 0 ≤ len sqrt u := by
  have h : 0 ≤ mag2 u := by
    rw [mag2_eq]
    exact self_dot_nonneg u
  rcases h.eq_or_lt with h | h
  · rw [len, ← h, hs.zero]
  · exact (hs.pos _ h).le

theorem len_mul_self (hs : IsSqrt sqrt) (u : Fin n → K) : len sqrt u * len sqrt u = u ⬝ᵥ u := by
  rw [len, mag2_eq]
  exact hs.sq _ (self_dot_nonneg u)

theorem len_eq (hs : IsSqrt sqrt) {u : Fin n → K} {x : K} (hx : 0 ≤ x) (h : u ⬝ᵥ u = x * x) : len sqrt u = x := by
  rw [← len_mul_self hs] at h
  exact (mul_self_inj_of_nonneg (len_nonneg hs u) hx).1 h

theorem len_eq_zero (hs : IsSqrt sqrt) {u : Fin n → K} : len sqrt u = 0 ↔ u = 0 := by
  rw [← self_dot_eq_zero, ← len_mul_self hs, mul_self_eq_zero]

theorem len_pos (hs : IsSqrt sqrt) {u : Fin n → K} (h : u ≠ 0) : 0 < len sqrt u :=
  lt_of_le_of_ne (len_nonneg hs u) fun h0 => h ((len_eq_zero hs).1 h0.symm)

theorem len_le_iff (hs : IsSqrt sqrt) {u : Fin n → K} {x : K} (hx : 0 ≤ x) : len sqrt u ≤ x ↔ u ⬝ᵥ u ≤ x * x := by
  rw [← len_mul_self hs]
  exact (mul_self_le_mul_self_iff (len_nonneg hs u) hx)

theorem len_smul (hs : IsSqrt sqrt) (k : K) (u : Fin n → K) : len sqrt (k • u) = |k| * len sqrt u := by
  refine len_eq hs (mul_nonneg (abs_nonneg _) (len_nonneg hs _)) ?_
  rw [smul_dotProduct, dotProduct_smul, ← len_mul_self hs, smul_eq_mul, smul_eq_mul, mul_mul_mul_comm, abs_mul_abs_self,
    mul_assoc]

theorem len_neg (hs : IsSqrt sqrt) (u : Fin n → K) : len sqrt (-u) = len sqrt u := by
  rw [← neg_one_smul K u, len_smul hs, abs_neg, abs_one, one_mul]

theorem len_sub_comm (hs : IsSqrt sqrt) (u v : Fin n → K) : len sqrt (u - v) = len sqrt (v - u) := by
  rw [← len_neg hs, neg_sub]

theorem dot_le_len (hs : IsSqrt sqrt) (u v : Fin n → K) : u ⬝ᵥ v ≤ len sqrt u * len sqrt v := by
  refine le_of_abs_le (abs_le_of_sq_le_sq ?_ (mul_nonneg (len_nonneg hs u) (len_nonneg hs v)))
  rw [mul_pow, pow_two (len sqrt u), pow_two (len sqrt v), len_mul_self hs, len_mul_self hs]
  exact cauchy u v

theorem len_add_le (hs : IsSqrt sqrt) (u v : Fin n → K) : len sqrt (u + v) ≤ len sqrt u + len sqrt v := by
  rw [len_le_iff hs (add_nonneg (len_nonneg hs u) (len_nonneg hs v))]
  have h1 := dot_le_len hs u v
  have h2 := len_mul_self hs u
  have h3 := len_mul_self hs v
  rw [add_dotProduct, dotProduct_add, dotProduct_add, dotProduct_comm v u]
  nlinarith

theorem len_tri (hs : IsSqrt sqrt) (p q r : Fin n → K) : len sqrt (p - r) ≤ len sqrt (p - q) + len sqrt (q - r) := by
  have := len_add_le hs (p - q) (q - r)
  rwa [sub_add_sub_cancel] at this

theorem len_coord (hs : IsSqrt sqrt) (u : Fin n → K) (i : Fin n) : |u i| ≤ len sqrt u := by
  have h : u i * u i ≤ u ⬝ᵥ u :=
    Finset.single_le_sum (f := fun j => u j * u j) (fun j _ => mul_self_nonneg _) (Finset.mem_univ i)
  rw [← len_mul_self hs, ← abs_mul_abs_self] at h
  exact (mul_self_le_mul_self_iff (abs_nonneg _) (len_nonneg hs u)).2 h

omit [IsStrictOrderedRing K] [LinearOrder K] in
theorem len_single_dot (i : Fin n) (x : K) : Pi.single i x ⬝ᵥ Pi.single i x = x * x := by
  rw [single_dotProduct, Pi.single_eq_same]

theorem len_single (hs : IsSqrt sqrt) (i : Fin n) (x : K) : len sqrt (Pi.single i x : Fin n → K) = |x| := by
  refine len_eq hs (abs_nonneg _) ?_
  rw [len_single_dot, abs_mul_abs_self]

/-- `unit` of a nonzero vector. -/
theorem unit_eq (hs : IsSqrt sqrt) {u : Fin n → K} (h : u ≠ 0) :
    unit sqrt u = some ((len sqrt u)⁻¹ • u) ∧ len sqrt ((len sqrt u)⁻¹ • u) = 1 := by
  have h0 := len_pos hs h
  constructor
  · rw [unit, show sqrt (mag2 u) = len sqrt u from rfl, if_neg h0.ne']
    congr 1
    ext i
    rw [Pi.smul_apply, smul_eq_mul, div_eq_inv_mul]
  · rw [len_smul hs, abs_of_pos (inv_pos.2 h0), inv_mul_cancel₀ h0.ne']

theorem unit_none (hs : IsSqrt sqrt) (u : Fin n → K) : unit sqrt u = none ↔ u = 0 := by
  rw [unit, show sqrt (mag2 u) = len sqrt u from rfl]
  split_ifs with h
  · simp [(len_eq_zero hs).1 h]
  · simp only [reduceCtorEq, false_iff]
    exact fun h' => h ((len_eq_zero hs).2 h')

/-- Facts used with the support function: the value of a unit vector scaled along itself. -/
theorem unit_dot (hs : IsSqrt sqrt) {d : Fin n → K} (h : d ≠ 0) : ((len sqrt d)⁻¹ • d) ⬝ᵥ d = len sqrt d := by
  rw [smul_dotProduct, ← len_mul_self hs, smul_eq_mul, ← mul_assoc, inv_mul_cancel₀ (len_pos hs h).ne', one_mul]

/-- Every vector has a direction. -/
theorem exists_dir (hs : IsSqrt sqrt) (hn : 0 < n) (u : Fin n → K) :
    ∃ w : Fin n → K, len sqrt w = 1 ∧ u = len sqrt u • w := by
  by_cases h : u = 0
  · refine ⟨Pi.single ⟨0, hn⟩ 1, by rw [len_single hs, abs_one], ?_⟩
    rw [(len_eq_zero hs).2 h, zero_smul, h]
  · exact ⟨_, (unit_eq hs h).2, by rw [smul_smul, mul_inv_cancel₀ (len_pos hs h).ne', one_smul]⟩

/-- In two and more dimensions there is a unit vector across any vector. -/
theorem exists_perp (hs : IsSqrt sqrt) (hn : 2 ≤ n) (a : Fin n → K) : ∃ u : Fin n → K, len sqrt u = 1 ∧ u ⬝ᵥ a = 0 := by
  have h01 : (⟨0, by omega⟩ : Fin n) ≠ ⟨1, by omega⟩ := by simp
  obtain ⟨v, hv, hva⟩ : ∃ v : Fin n → K, v ≠ 0 ∧ v ⬝ᵥ a = 0 := by
    by_cases h : a ⟨0, by omega⟩ = 0
    · refine ⟨Pi.single ⟨0, by omega⟩ 1, ?_, ?_⟩
      · simp
      · rw [single_dotProduct, h, mul_zero]
    · refine ⟨Pi.single ⟨0, by omega⟩ (-a ⟨1, by omega⟩) + Pi.single ⟨1, by omega⟩ (a ⟨0, by omega⟩), fun hz => ?_, ?_⟩
      · have := congrFun hz ⟨1, by omega⟩
        rw [Pi.add_apply, Pi.single_eq_same, Pi.single_eq_of_ne h01.symm, zero_add] at this
        exact h this
      · rw [add_dotProduct, single_dotProduct, single_dotProduct]
        ring
  exact ⟨_, (unit_eq hs hv).2, by rw [smul_dotProduct, hva, smul_zero]⟩

end Geomc.Shape
