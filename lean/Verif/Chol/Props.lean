import Mathlib.LinearAlgebra.Matrix.NonsingularInverse
import Mathlib.LinearAlgebra.Matrix.PosDef
import Mathlib.Data.Real.Sqrt
import Verif.Chol.Model
import Verif.LU.Decomp

/-!
# C35: Cholesky decomposition
-/

namespace Geomc.LU

open Finset

variable {K : Type} [Field K] [LinearOrder K]

/-- The symmetric matrix given by the lower triangle of an array. -/
def symm (A : ℕ → ℕ → K) (i j : ℕ) : K := if j ≤ i then A i j else A j i

omit [LinearOrder K] in
theorem loop_sub (f g : ℕ → K) (x : K) (c : ℕ) :
    loop c (fun k x => x - f k * g k) x = x - ∑ k ∈ range c, f k * g k := by
  induction c with
  | zero => simp [loop]
  | succ c ih =>
    rw [loop, ih, sum_range_succ]
    ring

/-- What holds before element `(r, c)`. -/
structure CholInv (A₀ : ℕ → ℕ → K) (r c : ℕ) (s : CState K) : Prop where
  todo : ∀ i j, j ≤ i → (r < i ∨ i = r ∧ c ≤ j) → s.A i j = A₀ i j
  zero : ∀ i j, i < j → (j < r ∨ j = r ∧ i < c) → s.A i j = 0
  done : ∀ i j, j ≤ i → (i < r ∨ i = r ∧ j < c) → ∑ k ∈ range (j + 1), s.A i k * s.A j k = A₀ i j
  pos : ∀ i, (i < r ∨ i = r ∧ i < c) → 0 < s.A i i

/-- Failure: some leading block has a factorisation but its next pivot is not positive. -/
def CholStuck (A₀ : ℕ → ℕ → K) (n : ℕ) : Prop :=
  ∃ r < n, ∃ L : ℕ → ℕ → K, (∀ i < r, 0 < L i i) ∧ (∀ i j, i < j → j < r → L i j = 0) ∧
    (∀ i j, j ≤ i → i < r → ∑ k ∈ range (j + 1), L i k * L j k = A₀ i j) ∧
    (∀ j, j < r → ∑ k ∈ range (j + 1), L r k * L j k = A₀ r j) ∧
    A₀ r r - ∑ k ∈ range r, L r k * L r k ≤ 0

theorem CholInv.elem {sqrt : K → K} (hsq : ∀ x, 0 < x → 0 < sqrt x ∧ sqrt x * sqrt x = x) {A₀ : ℕ → ℕ → K} {n r c : ℕ}
    (hr : r < n) (hc : c ≤ r) {s : CState K} (h : (s.ok = true ∧ CholInv A₀ r c s) ∨ (s.ok = false ∧ CholStuck A₀ n)) :
    let s' := cholElem sqrt r c s
    (s'.ok = true ∧ CholInv A₀ r (c + 1) s') ∨ (s'.ok = false ∧ CholStuck A₀ n) := by
  intro s'
  rcases h with ⟨hok, h⟩ | ⟨hok, h⟩
  swap
  · right
    refine ⟨?_, h⟩
    show (cholElem sqrt r c s).ok = false
    unfold cholElem
    by_cases hrc : r = c <;> simp [hrc, hok]
  have hx : loop c (fun k x => x - s.A r k * s.A c k) (s.A r c) =
      A₀ r c - ∑ k ∈ range c, s.A r k * s.A c k := by
    rw [loop_sub, h.todo r c hc (Or.inr ⟨rfl, le_rfl⟩)]
  have e : s' = if r = c then ⟨put s.A r c (sqrt (A₀ r c - ∑ k ∈ range c, s.A r k * s.A c k)),
        s.ok && decide (0 < A₀ r c - ∑ k ∈ range c, s.A r k * s.A c k)⟩
      else ⟨put (put s.A c r 0) r c ((A₀ r c - ∑ k ∈ range c, s.A r k * s.A c k) / s.A c c), s.ok⟩ := by
    show cholElem sqrt r c s = _
    unfold cholElem
    simp only [hx]
  by_cases hrc : r = c
  · subst hrc
    rw [if_pos rfl] at e
    by_cases hp : 0 < A₀ r r - ∑ k ∈ range r, s.A r k * s.A r k
    · left
      obtain ⟨p1, p2⟩ := hsq _ hp
      have hA : s'.A = put s.A r r (sqrt (A₀ r r - ∑ k ∈ range r, s.A r k * s.A r k)) := by rw [e]
      have same : ∀ i j, ¬ (i = r ∧ j = r) → s'.A i j = s.A i j := fun i j hij => by
        rw [hA, put_of_ne _ _ hij]
      refine ⟨by rw [e]; simp [hok, hp], ⟨fun i j hj hij => ?_, fun i j hj hij => ?_, fun i j hj hij => ?_, fun i hi => ?_⟩⟩
      · rw [same i j (by omega)]
        exact h.todo i j hj (by omega)
      · rw [same i j (by omega)]
        exact h.zero i j hj (by omega)
      · by_cases hir : i = r ∧ j = r
        · obtain ⟨rfl, rfl⟩ := hir
          rw [sum_range_succ, sum_congr rfl (fun k hk => by
            rw [same j k (by have := mem_range.1 hk; omega)]), hA, put_self, p2]
          ring
        · rw [← h.done i j hj (by omega)]
          refine sum_congr rfl (fun k hk => ?_)
          have := mem_range.1 hk
          rw [same i k (by omega), same j k (by omega)]
      · by_cases hir : i = r
        · subst hir
          rw [hA, put_self]
          exact p1
        · rw [same i i (by omega)]
          exact h.pos i (by omega)
    · right
      refine ⟨by rw [e]; simp [hp], r, hr, s.A, fun i hi => h.pos i (Or.inl hi), fun i j hij hj => h.zero i j hij (Or.inl hj),
        fun i j hj hi => h.done i j hj (Or.inl hi), fun j hj => h.done r j hj.le (Or.inr ⟨rfl, hj⟩), not_lt.1 hp⟩
  · left
    rw [if_neg hrc] at e
    have hcr : c < r := by omega
    have hA : s'.A = put (put s.A c r 0) r c ((A₀ r c - ∑ k ∈ range c, s.A r k * s.A c k) / s.A c c) := by rw [e]
    have same : ∀ i j, ¬ (i = r ∧ j = c) → ¬ (i = c ∧ j = r) → s'.A i j = s.A i j := fun i j h1 h2 => by
      rw [hA, put_of_ne _ _ h1, put_of_ne _ _ h2]
    have hz : s'.A c r = 0 := by
      rw [hA, put_of_ne _ _ (by omega), put_self]
    have hv : s'.A r c = (A₀ r c - ∑ k ∈ range c, s.A r k * s.A c k) / s.A c c := by rw [hA, put_self]
    have hcc := h.pos c (Or.inl hcr)
    refine ⟨by rw [e]; exact hok, ⟨fun i j hj hij => ?_, fun i j hj hij => ?_, fun i j hj hij => ?_, fun i hi => ?_⟩⟩
    · rw [same i j (by omega) (by omega)]
      exact h.todo i j hj (by omega)
    · by_cases h1 : i = c ∧ j = r
      · rw [h1.1, h1.2, hz]
      · rw [same i j (by omega) h1]
        exact h.zero i j hj (by omega)
    · by_cases hir : i = r ∧ j = c
      · obtain ⟨rfl, rfl⟩ := hir
        rw [sum_range_succ, sum_congr rfl (fun k hk => by
          have := mem_range.1 hk
          rw [same i k (by omega) (by omega), same j k (by omega) (by omega)]), hv, same j j (by omega) (by omega),
          div_mul_cancel₀ _ hcc.ne']
        ring
      · rw [← h.done i j hj (by omega)]
        refine sum_congr rfl (fun k hk => ?_)
        have := mem_range.1 hk
        rw [same i k (by omega) (by omega), same j k (by omega) (by omega)]
    · rw [same i i (by omega) (by omega)]
      exact h.pos i (by omega)

theorem chol_inv {sqrt : K → K} (hsq : ∀ x, 0 < x → 0 < sqrt x ∧ sqrt x * sqrt x = x) (A : ℕ → ℕ → K) (n : ℕ) :
    ((cholesky sqrt A n).ok = true ∧ CholInv A n 0 (cholesky sqrt A n)) ∨
      ((cholesky sqrt A n).ok = false ∧ CholStuck A n) := by
  refine loop_inv (n := n) (f := cholRow sqrt) (s := ⟨A, true⟩)
    (fun r s => (s.ok = true ∧ CholInv A r 0 s) ∨ (s.ok = false ∧ CholStuck A n))
    (Or.inl ⟨rfl, fun _ _ _ _ => rfl, fun _ _ _ _ => by omega, fun _ _ _ _ => by omega, fun _ _ => by omega⟩) ?_
  intro r hr s hs
  have := loop_inv (n := r + 1) (f := cholElem sqrt r) (s := s)
    (fun c s => (s.ok = true ∧ CholInv A r c s) ∨ (s.ok = false ∧ CholStuck A n)) hs
    (fun c hc s h => CholInv.elem hsq hr (by omega) h)
  show ((cholRow sqrt r s).ok = true ∧ _) ∨ _
  rcases this with ⟨h1, h2⟩ | h
  · refine Or.inl ⟨h1, fun i j hj hij => h2.todo i j hj ?_, fun i j hj hij => h2.zero i j hj ?_,
      fun i j hj hij => h2.done i j hj ?_, fun i hi => h2.pos i ?_⟩ <;> omega
  · exact Or.inr h

variable [IsStrictOrderedRing K]

/-- Positive definiteness of a symmetric matrix over any ordered field. -/
def PosDef {n : ℕ} (M : Matrix (Fin n) (Fin n) K) : Prop := ∀ x : Fin n → K, x ≠ 0 → 0 < x ⬝ᵥ M.mulVec x

/-- `x · L Lᵀ x` is a sum of squares. -/
theorem dot_mul_transpose {n : ℕ} (L : Matrix (Fin n) (Fin n) K) (x : Fin n → K) :
    x ⬝ᵥ (L * L.transpose).mulVec x = L.transpose.mulVec x ⬝ᵥ L.transpose.mulVec x := by
  rw [← Matrix.mulVec_mulVec, Matrix.dotProduct_mulVec, ← Matrix.mulVec_transpose]

theorem stuck_not_posDef {A : ℕ → ℕ → K} {n : ℕ} (h : CholStuck A n) : ¬ PosDef (view (symm A) n n) := by
  obtain ⟨r, hr, L, hpos, hz, hd, hl, hs⟩ := h
  intro hp
  -- solve `L'ᵀ y = -l`
  let M : Matrix (Fin r) (Fin r) K := Matrix.of fun i k => L i k
  have hdet : IsUnit M.det := by
    rw [Matrix.det_of_lowerTriangular]
    · rw [isUnit_iff_ne_zero, prod_ne_zero_iff]
      exact fun i _ => (hpos i i.2).ne'
    · intro i j hij
      exact hz i j hij j.2
  let l : Fin r → K := fun k => L r k
  let y : Fin r → K := M.transpose⁻¹.mulVec (-l)
  have hy : M.transpose.mulVec y = -l := by
    rw [Matrix.mulVec_mulVec, Matrix.mul_nonsing_inv _ (by rwa [Matrix.det_transpose]), Matrix.one_mulVec]
  let x : ℕ → K := fun i => if h : i < r then y ⟨i, h⟩ else if i = r then 1 else 0
  -- entries of the symmetric matrix, as full products
  have full : ∀ i j, i < r → j < r → symm A i j = ∑ k ∈ range r, L i k * L j k := by
    have ext : ∀ i j, j ≤ i → i < r → ∑ k ∈ range (j + 1), L i k * L j k = ∑ k ∈ range r, L i k * L j k := by
      intro i j hj hi
      refine sum_subset (range_mono (by omega)) (fun k hk hk' => ?_)
      rw [mem_range] at hk hk'
      rw [hz j k (by omega) hk, mul_zero]
    intro i j hi hj
    unfold symm
    split_ifs with hij
    · rw [← hd i j hij hi, ext i j hij hi]
    · rw [← hd j i (by omega) hj, ext j i (by omega) hj]
      exact sum_congr rfl (fun k _ => mul_comm _ _)
  have last : ∀ j, j < r → A r j = ∑ k ∈ range r, L r k * L j k := by
    intro j hj
    rw [← hl j hj]
    refine sum_subset (range_mono (by omega)) (fun k hk hk' => ?_)
    rw [mem_range] at hk hk'
    rw [hz j k (by omega) hk, mul_zero]
  have hyk : ∀ k < r, ∑ i ∈ range r, L i k * x i = -L r k := by
    intro k hk
    have := congrFun hy ⟨k, hk⟩
    rw [Matrix.mulVec, dotProduct] at this
    rw [sum_range]
    rw [show -L r k = (-l) ⟨k, hk⟩ from rfl, ← this]
    refine sum_congr rfl (fun i _ => ?_)
    show L i k * x i = L i k * y i
    congr 1
    exact dif_pos i.2
  have hxr : x r = 1 := by
    show (if h : r < r then y ⟨r, h⟩ else if r = r then 1 else 0) = 1
    rw [dif_neg (lt_irrefl r), if_pos rfl]
  have hx0 : ∀ i, r < i → x i = 0 := by
    intro i hi
    show (if h : i < r then y ⟨i, h⟩ else if i = r then 1 else 0) = 0
    rw [dif_neg (by omega), if_neg (by omega)]
  have hne : (fun i : Fin n => x i) ≠ 0 := by
    intro h0
    have := congrFun h0 ⟨r, hr⟩
    simp only [hxr, Pi.zero_apply] at this
    exact one_ne_zero this
  have hq := hp _ hne
  -- the quadratic form
  have trunc : ∀ f : ℕ → K, (∀ i, r < i → f i = 0) → ∑ i ∈ range n, f i = (∑ i ∈ range r, f i) + f r := by
    intro f hf
    rw [← sum_range_succ]
    symm
    refine sum_subset (range_mono (by omega)) (fun k hk hk' => hf k ?_)
    rw [mem_range] at hk'
    omega
  have hform : (fun i : Fin n => x i) ⬝ᵥ (view (symm A) n n).mulVec (fun i : Fin n => x i) =
      ∑ i ∈ range n, x i * ∑ j ∈ range n, symm A i j * x j := by
    rw [dotProduct, sum_range]
    refine sum_congr rfl (fun i _ => ?_)
    rw [Matrix.mulVec, dotProduct, sum_range]
    rfl
  have row : ∀ i < r, ∑ j ∈ range n, symm A i j * x j = 0 := by
    intro i hi
    rw [trunc _ (fun j hj => by rw [hx0 j hj, mul_zero]), hxr, mul_one]
    have : symm A i r = ∑ k ∈ range r, L i k * L r k := by
      unfold symm
      rw [if_neg (by omega), last i hi]
      exact sum_congr rfl (fun k _ => mul_comm _ _)
    rw [this, sum_congr rfl (fun j hj => by rw [full i j hi (mem_range.1 hj), sum_mul]), sum_comm,
      ← sum_add_distrib]
    refine sum_eq_zero (fun k hk => ?_)
    have hk := mem_range.1 hk
    rw [sum_congr rfl (fun j _ => mul_assoc (L i k) (L j k) (x j)), ← mul_sum, hyk k hk]
    ring
  have rowr : ∑ j ∈ range n, symm A r j * x j = A r r - ∑ k ∈ range r, L r k * L r k := by
    rw [trunc _ (fun j hj => by rw [hx0 j hj, mul_zero]), hxr, mul_one]
    have h1 : symm A r r = A r r := if_pos le_rfl
    rw [h1, sum_congr rfl (fun j hj => by
      rw [show symm A r j = A r j from if_pos (mem_range.1 hj).le, last j (mem_range.1 hj), sum_mul]), sum_comm]
    rw [sum_congr rfl (fun k hk => by
      rw [sum_congr rfl (fun j _ => mul_assoc (L r k) (L j k) (x j)), ← mul_sum, hyk k (mem_range.1 hk)])]
    rw [sub_eq_add_neg, add_comm, ← sum_neg_distrib]
    congr 1
    exact sum_congr rfl (fun k _ => by ring)
  rw [hform, trunc _ (fun i hi => by rw [hx0 i hi, zero_mul]), hxr, one_mul, rowr,
    sum_eq_zero (fun i hi => by rw [row i (mem_range.1 hi), mul_zero]), zero_add] at hq
  exact absurd hq (not_lt.2 hs)

/-- **C35**, success: the result is lower triangular with positive diagonal and `L Lᵀ` is the symmetric matrix given by
the lower triangle of the input. -/
theorem C35_sound {sqrt : K → K} (hsq : ∀ x, 0 < x → 0 < sqrt x ∧ sqrt x * sqrt x = x) (A : ℕ → ℕ → K) (n : ℕ)
    (h : (cholesky sqrt A n).ok = true) :
    let L := view (cholesky sqrt A n).A n n
    L * L.transpose = view (symm A) n n ∧ (∀ i j, i < j → L i j = 0) ∧ ∀ i, 0 < L i i := by
  rcases chol_inv hsq A n with ⟨-, hi⟩ | ⟨h', -⟩
  swap
  · rw [h] at h'
    cases h'
  have hz : ∀ i j, i < j → j < n → (cholesky sqrt A n).A i j = 0 := fun i j hij hj => hi.zero i j hij (Or.inl hj)
  refine ⟨?_, fun i j hij => hz i j hij j.2, fun i => hi.pos i (Or.inl i.2)⟩
  have key : ∀ i j : Fin n, (j : ℕ) ≤ i →
      ∑ k : Fin n, (cholesky sqrt A n).A i k * (cholesky sqrt A n).A j k = A i j := by
    intro i j hij
    rw [← hi.done i j hij (Or.inl i.2)]
    rw [← sum_range (fun k => (cholesky sqrt A n).A i k * (cholesky sqrt A n).A j k)]
    symm
    refine sum_subset (range_mono (by omega)) (fun k hk hk' => ?_)
    rw [mem_range] at hk hk'
    rw [hz j k (by omega) hk, mul_zero]
  ext i j
  rw [Matrix.mul_apply]
  show _ = symm A i j
  unfold symm
  split_ifs with hij
  · exact key i j hij
  · rw [← key j i (by omega)]
    exact sum_congr rfl (fun k _ => mul_comm _ _)

/-- **C35**: the decomposition succeeds exactly when the symmetric matrix given by the lower triangle is positive
definite. -/
theorem C35_ok_iff {sqrt : K → K} (hsq : ∀ x, 0 < x → 0 < sqrt x ∧ sqrt x * sqrt x = x) (A : ℕ → ℕ → K) (n : ℕ) :
    (cholesky sqrt A n).ok = true ↔ PosDef (view (symm A) n n) := by
  constructor
  · intro h x hx
    obtain ⟨h1, h2, h3⟩ := C35_sound hsq A n h
    rw [← h1, dot_mul_transpose]
    have hu : IsUnit (view (cholesky sqrt A n).A n n).transpose.det := by
      rw [Matrix.det_transpose, Matrix.det_of_lowerTriangular, isUnit_iff_ne_zero, prod_ne_zero_iff]
      · exact fun i _ => (h3 i).ne'
      · exact fun i j hij => h2 i j hij
    have hne : (view (cholesky sqrt A n).A n n).transpose.mulVec x ≠ 0 := by
      intro h0
      apply hx
      have := congrArg ((view (cholesky sqrt A n).A n n).transpose⁻¹.mulVec) h0
      rwa [Matrix.mulVec_mulVec, Matrix.nonsing_inv_mul _ hu, Matrix.one_mulVec, Matrix.mulVec_zero] at this
    obtain ⟨k, hk⟩ := Function.ne_iff.1 hne
    rw [dotProduct]
    exact sum_pos' (fun i _ => mul_self_nonneg _) ⟨k, mem_univ k, mul_self_pos.2 hk⟩
  · intro hp
    rcases chol_inv hsq A n with ⟨h, -⟩ | ⟨-, h⟩
    · exact h
    · exact absurd hp (stuck_not_posDef h)

/-- **C35** for real matrices with the real square root, in Mathlib's terms: on symmetric input the routine succeeds
exactly for positive definite matrices, and returns the factor. -/
theorem C35_real (A : ℕ → ℕ → ℝ) (n : ℕ) (hs : (view A n n).IsSymm) :
    ((cholesky Real.sqrt A n).ok = true ↔ (view A n n).PosDef) ∧
    ((cholesky Real.sqrt A n).ok = true →
      view (cholesky Real.sqrt A n).A n n * (view (cholesky Real.sqrt A n).A n n).transpose = view A n n) := by
  have hsq : ∀ x : ℝ, 0 < x → 0 < Real.sqrt x ∧ Real.sqrt x * Real.sqrt x = x :=
    fun x hx => ⟨Real.sqrt_pos.2 hx, Real.mul_self_sqrt hx.le⟩
  have e : view (symm A) n n = view A n n := by
    ext i j
    show symm A i j = A i j
    unfold symm
    split_ifs
    · rfl
    · exact hs.apply i j
  refine ⟨?_, fun h => ?_⟩
  · rw [C35_ok_iff hsq, e, Matrix.posDef_iff_dotProduct_mulVec]
    constructor
    · intro h
      refine ⟨?_, fun x hx => ?_⟩
      · rw [Matrix.IsHermitian, Matrix.conjTranspose_eq_transpose_of_trivial]
        exact hs
      · rw [star_trivial]
        exact h x hx
    · rintro ⟨-, h⟩ x hx
      have := h hx
      rwa [star_trivial] at this
  · rw [(C35_sound hsq A n h).1, e]

/-- **C35** for matrix objects in row-major layout. -/
theorem C35_matrix (sqrt : K → K) (A : ℕ → ℕ → K) (n : ℕ) :
    choleskyMatrix sqrt false A n n = cholesky sqrt A n ∧
    ∀ l rows cols, rows ≠ cols → (choleskyMatrix sqrt l A rows cols).ok = false := by
  refine ⟨by simp [choleskyMatrix], fun l rows cols h => by simp [choleskyMatrix, h]⟩

/-- **C35** for column-major matrix objects: the result is the transpose of the factor promised, so `Lᵀ L`, not `L Lᵀ`,
is the input. -/
theorem C35_column_major {sqrt : K → K} (hsq : ∀ x, 0 < x → 0 < sqrt x ∧ sqrt x * sqrt x = x) (A : ℕ → ℕ → K) (n : ℕ)
    (hs : (view A n n).IsSymm) (h : (choleskyMatrix sqrt true A n n).ok = true) :
    let L := view (choleskyMatrix sqrt true A n n).A n n
    L.transpose * L = view A n n ∧ (∀ i j, j < i → L i j = 0) ∧
      (L * L.transpose = view A n n → ∀ i j, i ≠ j → L i j = 0) := by
  have e : choleskyMatrix sqrt true A n n =
      ⟨fun r c => (cholesky sqrt (fun r c => A c r) n).A c r, (cholesky sqrt (fun r c => A c r) n).ok⟩ := by
    simp [choleskyMatrix]
  rw [e] at h ⊢
  obtain ⟨h1, h2, h3⟩ := C35_sound hsq (fun r c => A c r) n h
  have e2 : view (symm fun r c => A c r) n n = view A n n := by
    ext i j
    show symm (fun r c => A c r) i j = A i j
    unfold symm
    split_ifs
    · exact hs.apply i j
    · rfl
  rw [e2] at h1
  refine ⟨h1, fun i j hij => h2 j i hij, fun hL => ?_⟩
  -- a triangular factor with `Lᵀ L = L Lᵀ` is diagonal: compare diagonals row by row
  generalize cholesky sqrt (fun r c => A c r) n = s at h1 h2 h3 hL
  have hT : (view s.A n n).transpose * view s.A n n = view s.A n n * (view s.A n n).transpose := by
    rw [h1]
    exact hL
  have hdiag : ∀ m (hm : m < n) (j : Fin n), m < j → s.A j m = 0 := by
    intro m
    induction m using Nat.strong_induction_on with
    | _ m ih =>
      intro hm j hj
      have := congrFun (congrFun hT ⟨m, hm⟩) ⟨m, hm⟩
      rw [Matrix.mul_apply, Matrix.mul_apply] at this
      simp only [Matrix.transpose_apply, view, Matrix.of_apply] at this
      have hr : ∑ k : Fin n, s.A m k * s.A m k = s.A m m * s.A m m := by
        refine sum_eq_single (⟨m, hm⟩ : Fin n) (fun k _ hk => ?_) (by simp)
        have hk : (k : ℕ) ≠ m := fun h => hk (Fin.ext h)
        rcases Nat.lt_or_gt_of_ne hk with hlt | hgt
        · rw [ih k hlt (by omega) ⟨m, hm⟩ hlt, mul_zero]
        · rw [show s.A m k = 0 from h2 ⟨m, hm⟩ k hgt, mul_zero]
      rw [hr] at this
      have hsplit := sum_erase_add univ (fun k : Fin n => s.A k m * s.A k m) (mem_univ (⟨m, hm⟩ : Fin n))
      simp only [this] at hsplit
      have h0 : ∑ k ∈ univ.erase (⟨m, hm⟩ : Fin n), s.A k m * s.A k m = 0 := by linarith
      rw [sum_eq_zero_iff_of_nonneg (fun i _ => mul_self_nonneg _)] at h0
      exact mul_self_eq_zero.1 (h0 j (mem_erase.2 ⟨fun h => by
        rw [Fin.ext_iff] at h
        simp at h
        omega, mem_univ j⟩))
  intro i j hij
  show s.A j i = 0
  have hij : (i : ℕ) ≠ j := fun h => hij (Fin.ext h)
  rcases Nat.lt_or_gt_of_ne hij with hlt | hgt
  · exact hdiag i i.2 j hlt
  · exact h2 j i hgt

/-- The square root of the rationals below, enough for the examples. -/
def ratSqrt (x : ℚ) : ℚ := if x = 4 then 2 else if x = 9 then 3 else if x = 1 then 1 else 0

/-- **C35** refuted for column-major matrices. -/
theorem C35_column_major_refuted :
    let A : ℕ → ℕ → ℚ := fun i j => if i = 0 ∧ j = 0 then 4 else if i = 1 ∧ j = 1 then 10 else 2
    let s := choleskyMatrix ratSqrt true A 2 2
    s.ok = true ∧ (view s.A 2 2 * (view s.A 2 2).transpose) 0 0 = 5 := by
  decide +kernel

/-! ### Concrete instances -/

example : let s := cholesky ratSqrt (fun i j => if i = 0 ∧ j = 0 then 4 else if i = 1 ∧ j = 1 then 10 else 2) 2
    s.ok = true ∧ s.A 0 0 = 2 ∧ s.A 0 1 = 0 ∧ s.A 1 0 = 1 ∧ s.A 1 1 = 3 := by
  decide +kernel

example : (cholesky ratSqrt (fun i j => if i = j then 1 else 2) 2).ok = false := by decide +kernel

end Geomc.LU
