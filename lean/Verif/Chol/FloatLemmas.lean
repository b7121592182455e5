import Verif.Chol.FloatModel
import Verif.Chol.Props
import Verif.LU.FloatSub

/-!
# Rounding errors of Cholesky decompositions
-/

namespace Geomc.LU

open Finset

variable {K : Type} [Field K] [LinearOrder K] [IsStrictOrderedRing K]

/-- What holds before element `(r, c)`. -/
structure CholInvE (g : K) (A₀ : ℕ → ℕ → K) (r c : ℕ) (s : CState K) : Prop where
  todo : ∀ i j, j ≤ i → (r < i ∨ i = r ∧ c ≤ j) → s.A i j = A₀ i j
  zero : ∀ i j, i < j → (j < r ∨ j = r ∧ i < c) → s.A i j = 0
  done : ∀ i j, j ≤ i → (i < r ∨ i = r ∧ j < c) →
    |A₀ i j - ∑ k ∈ range (j + 1), s.A i k * s.A j k| ≤ g * ∑ k ∈ range (j + 1), |s.A i k * s.A j k|
  pos : ∀ i, (i < r ∨ i = r ∧ i < c) → 0 < s.A i i

/-- Failure: the factorisation of some leading block, and a pivot that came out as `x`, which is not positive. -/
def CholStuckE (g : K) (A₀ : ℕ → ℕ → K) (n : ℕ) : Prop :=
  ∃ r < n, ∃ L : ℕ → ℕ → K, (∀ i < r, 0 < L i i) ∧ (∀ i j, i < j → j < r → L i j = 0) ∧
    (∀ i j, j ≤ i → i ≤ r → j < r →
      |A₀ i j - ∑ k ∈ range (j + 1), L i k * L j k| ≤ g * ∑ k ∈ range (j + 1), |L i k * L j k|) ∧
    ∃ x ≤ 0, |A₀ r r - ∑ k ∈ range r, L r k * L r k - x| ≤ g * (∑ k ∈ range r, |L r k * L r k| + |x|)

/-- The square of a rounded square root. -/
theorem sqrt_err {rnd : K → K} {u : K} (hn : Near rnd u) {s y : K} (hs : y * y = s) :
    |s - rnd y * rnd y - 0| ≤ gam u 2 * (|rnd y * rnd y| + |(0 : K)|) := by
  have h := hn.inv y
  have hu := hn.nonneg
  rw [sub_zero, abs_zero, add_zero, ← hs]
  have e : y * y - rnd y * rnd y = -((rnd y - y) * (2 * rnd y - (rnd y - y))) := by ring
  rw [e, abs_neg, abs_mul, abs_mul]
  have h1 : |2 * rnd y - (rnd y - y)| ≤ 2 * |rnd y| + u * |rnd y| := by
    refine (abs_sub _ _).trans ?_
    rw [abs_mul, abs_of_pos (by norm_num : (0 : K) < 2)]
    linarith
  calc |rnd y - y| * |2 * rnd y - (rnd y - y)| ≤ (u * |rnd y|) * (2 * |rnd y| + u * |rnd y|) :=
        mul_le_mul h h1 (abs_nonneg _) (mul_nonneg hu (abs_nonneg _))
    _ = gam u 2 * (|rnd y| * |rnd y|) := by
        unfold gam
        ring

theorem near_pos {rnd : K → K} {u : K} (hn : Near rnd u) (hu : u < 1) {x : K} (hx : 0 < x) : 0 < rnd x := by
  have h := hn.rel x
  rw [abs_of_pos hx] at h
  have := (abs_le.1 h).1
  nlinarith

theorem CholInvE.elem {rnd : K → K} {u g : K} (hn : Near rnd u) (hu1 : u < 1) (f : Bool) {sqrt : K → K}
    (hsq : ∀ x, 0 < x → 0 < sqrt x ∧ sqrt x * sqrt x = x) {A₀ : ℕ → ℕ → K} {n r c : ℕ} (hg : gam u (n + 1) ≤ g)
    (hr : r < n) (hc : c ≤ r) {s : CState K} (h : (s.ok = true ∧ CholInvE g A₀ r c s) ∨ (s.ok = false ∧ CholStuckE g A₀ n)) :
    let s' := cholElemF rnd f sqrt r c s
    (s'.ok = true ∧ CholInvE g A₀ r (c + 1) s') ∨ (s'.ok = false ∧ CholStuckE g A₀ n) := by
  intro s'
  have hu := hn.nonneg
  rcases h with ⟨hok, h⟩ | ⟨hok, h⟩
  swap
  · right
    refine ⟨?_, h⟩
    show (cholElemF rnd f sqrt r c s).ok = false
    unfold cholElemF
    by_cases hrc : r = c <;> simp [hrc, hok]
  have hch := chain_err hn f (fun k => s.A r k) (fun k => s.A c k) (s.A r c) c
  obtain ⟨x, hx⟩ : ∃ x, loop c (fun k x => subProd rnd f x (s.A r k) (s.A c k)) (s.A r c) = x := ⟨_, rfl⟩
  rw [hx, h.todo r c hc (Or.inr ⟨rfl, le_rfl⟩)] at hch
  have e : s' = if r = c then ⟨put s.A r c (rnd (sqrt x)), s.ok && decide (0 < x)⟩
      else ⟨put (put s.A c r 0) r c (rnd (x / s.A c c)), s.ok⟩ := by
    show cholElemF rnd f sqrt r c s = _
    unfold cholElemF
    simp only [hx]
  by_cases hrc : r = c
  · subst hrc
    rw [if_pos rfl] at e
    by_cases hp : 0 < x
    · left
      obtain ⟨p1, p2⟩ := hsq _ hp
      have hA : s'.A = put s.A r r (rnd (sqrt x)) := by rw [e]
      have same : ∀ i j, ¬ (i = r ∧ j = r) → s'.A i j = s.A i j := fun i j hij => by
        rw [hA, put_of_ne _ _ hij]
      refine ⟨by rw [e]; simp [hok, hp], ⟨fun i j hj hij => ?_, fun i j hj hij => ?_, fun i j hj hij => ?_, fun i hi => ?_⟩⟩
      · rw [same i j (by omega)]
        exact h.todo i j hj (by omega)
      · rw [same i j (by omega)]
        exact h.zero i j hj (by omega)
      · by_cases hir : i = r ∧ j = r
        · obtain ⟨rfl, rfl⟩ := hir
          have ek : ∀ k ∈ range j, s'.A j k * s'.A j k = s.A j k * s.A j k := fun k hk => by
            rw [same j k (by have := mem_range.1 hk; omega)]
          rw [sum_range_succ, sum_range_succ, sum_congr rfl ek, sum_congr rfl (fun k hk => congrArg abs (ek k hk)), hA, put_self]
          have := acc_step (gam_nonneg hu j) (gam_nonneg hu 2) (sum_nonneg fun _ _ => abs_nonneg _) hch (sqrt_err hn p2)
          rw [sub_zero, abs_zero, add_zero, show (1 + gam u j) * (1 + gam u 2) - 1 = gam u (j + 2) by rw [gam_add]; ring] at this
          refine this.trans (mul_le_mul_of_nonneg_right ((gam_mono hu (by omega)).trans hg) ?_)
          exact add_nonneg (sum_nonneg fun _ _ => abs_nonneg _) (abs_nonneg _)
        · have ek : ∀ k ∈ range (j + 1), s'.A i k * s'.A j k = s.A i k * s.A j k := fun k hk => by
            have := mem_range.1 hk
            rw [same i k (by omega), same j k (by omega)]
          rw [sum_congr rfl ek, sum_congr rfl (fun k hk => congrArg abs (ek k hk))]
          exact h.done i j hj (by omega)
      · by_cases hir : i = r
        · subst hir
          rw [hA, put_self]
          exact near_pos hn hu1 p1
        · rw [same i i (by omega)]
          exact h.pos i (by omega)
    · right
      refine ⟨by rw [e]; simp [hp], r, hr, s.A, fun i hi => h.pos i (Or.inl hi), fun i j hij hj => h.zero i j hij (Or.inl hj),
        fun i j hj hi hjr => h.done i j hj (by omega), x, not_lt.1 hp, ?_⟩
      refine hch.trans (mul_le_mul_of_nonneg_right ((gam_mono hu (by omega)).trans hg) ?_)
      exact add_nonneg (sum_nonneg fun _ _ => abs_nonneg _) (abs_nonneg _)
  · left
    rw [if_neg hrc] at e
    have hcr : c < r := by omega
    have hA : s'.A = put (put s.A c r 0) r c (rnd (x / s.A c c)) := by rw [e]
    have same : ∀ i j, ¬ (i = r ∧ j = c) → ¬ (i = c ∧ j = r) → s'.A i j = s.A i j := fun i j h1 h2 => by
      rw [hA, put_of_ne _ _ h1, put_of_ne _ _ h2]
    have hz : s'.A c r = 0 := by
      rw [hA, put_of_ne _ _ (by omega), put_self]
    have hv : s'.A r c = rnd (x / s.A c c) := by rw [hA, put_self]
    have hcc := h.pos c (Or.inl hcr)
    refine ⟨by rw [e]; exact hok, ⟨fun i j hj hij => ?_, fun i j hj hij => ?_, fun i j hj hij => ?_, fun i hi => ?_⟩⟩
    · rw [same i j (by omega) (by omega)]
      exact h.todo i j hj (by omega)
    · by_cases h1 : i = c ∧ j = r
      · rw [h1.1, h1.2, hz]
      · rw [same i j (by omega) h1]
        exact h.zero i j hj (by omega)
    · by_cases hir : i = r ∧ j = c
      · obtain ⟨rfl, rfl⟩ := hir
        have ek : ∀ k ∈ range j, s'.A i k * s'.A j k = s.A i k * s.A j k := fun k hk => by
          have := mem_range.1 hk
          rw [same i k (by omega) (by omega), same j k (by omega) (by omega)]
        rw [sum_range_succ, sum_range_succ, sum_congr rfl ek, sum_congr rfl (fun k hk => congrArg abs (ek k hk)), hv,
          same j j (by omega) (by omega)]
        have := acc_step (gam_nonneg hu j) hu (sum_nonneg fun _ _ => abs_nonneg _) hch (div_err hn hcc.ne')
        rw [sub_zero, abs_zero, add_zero, gam_succ] at this
        refine this.trans (mul_le_mul_of_nonneg_right ((gam_mono hu (by omega)).trans hg) ?_)
        exact add_nonneg (sum_nonneg fun _ _ => abs_nonneg _) (abs_nonneg _)
      · have ek : ∀ k ∈ range (j + 1), s'.A i k * s'.A j k = s.A i k * s.A j k := fun k hk => by
          have := mem_range.1 hk
          rw [same i k (by omega) (by omega), same j k (by omega) (by omega)]
        rw [sum_congr rfl ek, sum_congr rfl (fun k hk => congrArg abs (ek k hk))]
        exact h.done i j hj (by omega)
    · rw [same i i (by omega) (by omega)]
      exact h.pos i (by omega)

theorem chol_invE {rnd : K → K} {u : K} (hn : Near rnd u) (hu1 : u < 1) (f : Bool) {sqrt : K → K}
    (hsq : ∀ x, 0 < x → 0 < sqrt x ∧ sqrt x * sqrt x = x) (A : ℕ → ℕ → K) (n : ℕ) :
    ((choleskyF rnd f sqrt A n).ok = true ∧ CholInvE (gam u (n + 1)) A n 0 (choleskyF rnd f sqrt A n)) ∨
      ((choleskyF rnd f sqrt A n).ok = false ∧ CholStuckE (gam u (n + 1)) A n) := by
  refine loop_inv (n := n) (f := cholRowF rnd f sqrt) (s := ⟨A, true⟩)
    (fun r s => (s.ok = true ∧ CholInvE (gam u (n + 1)) A r 0 s) ∨ (s.ok = false ∧ CholStuckE (gam u (n + 1)) A n))
    (Or.inl ⟨rfl, fun _ _ _ _ => rfl, fun _ _ _ _ => by omega, fun _ _ _ _ => by omega, fun _ _ => by omega⟩) ?_
  intro r hr s hs
  have := loop_inv (n := r + 1) (f := cholElemF rnd f sqrt r) (s := s)
    (fun c s => (s.ok = true ∧ CholInvE (gam u (n + 1)) A r c s) ∨ (s.ok = false ∧ CholStuckE (gam u (n + 1)) A n)) hs
    (fun c hc s h => CholInvE.elem hn hu1 f hsq le_rfl hr (by omega) h)
  show ((cholRowF rnd f sqrt r s).ok = true ∧ _) ∨ _
  rcases this with ⟨h1, h2⟩ | h
  · refine Or.inl ⟨h1, fun i j hj hij => h2.todo i j hj ?_, fun i j hj hij => h2.zero i j hj ?_,
      fun i j hj hij => h2.done i j hj ?_, fun i hi => h2.pos i ?_⟩ <;> omega
  · exact Or.inr h

/-! ### Failure -/

/-- A matrix is positive definite only if its principal submatrices are. -/
theorem PosDef.sub {n m : ℕ} {M : Matrix (Fin n) (Fin n) K} (h : PosDef M) {f : Fin m → Fin n} (hf : Function.Injective f) :
    PosDef (M.submatrix f f) := by
  intro x hx
  have key : ∀ y : Fin n → K, ∑ i, (∑ a, if f a = i then x a else 0) * y i = ∑ a, x a * y (f a) := fun y => by
    simp only [sum_mul, ite_mul, zero_mul]
    rw [sum_comm]
    exact sum_congr rfl fun a _ => by rw [sum_ite_eq univ (f a), if_pos (mem_univ _)]
  have := h (fun i => ∑ a, if f a = i then x a else 0) (fun h0 => hx (by
    funext a
    have := congrFun h0 (f a)
    rw [sum_eq_single a (fun b _ hb => if_neg (fun h => hb (hf h))) (fun h => absurd (mem_univ _) h), if_pos rfl] at this
    exact this))
  simp only [dotProduct, Matrix.mulVec] at this ⊢
  rw [key] at this
  simp only [mul_comm (M _ _)] at this
  simp only [key] at this
  simpa only [Matrix.submatrix_apply, mul_comm (x _) (M _ _)] using this

/-- An error of two parts. -/
theorem split_err {e g P Q : K} (hg : 0 ≤ g) (hQ : 0 ≤ Q) (h : |e| ≤ g * (P + Q)) (hP : 0 ≤ P) :
    ∃ e' e'', e = e' + e'' ∧ |e'| ≤ g * P ∧ |e''| ≤ g * Q := by
  have hgQ := mul_nonneg hg hQ
  have hgP := mul_nonneg hg hP
  obtain ⟨h1, h2⟩ := abs_le.1 h
  rcases le_total e (g * Q) with a | a
  · rcases le_total (-(g * Q)) e with b | b
    · exact ⟨0, e, by ring, by simpa using hgP, abs_le.2 ⟨b, a⟩⟩
    · refine ⟨e + g * Q, -(g * Q), by ring, abs_le.2 ⟨by linarith, by linarith⟩, ?_⟩
      rw [abs_neg, abs_of_nonneg hgQ]
  · refine ⟨e - g * Q, g * Q, by ring, abs_le.2 ⟨by linarith, by linarith⟩, ?_⟩
    rw [abs_of_nonneg hgQ]

/-- A row that is too long for its diagonal element. -/
theorem long_row {n r m : ℕ} (hr : r < n) (hm : m ≤ r) {A L : ℕ → ℕ → K} {l : ℕ → K} (hpos : ∀ i < m, 0 < L i i)
    (hz : ∀ i j, i < j → j < m → L i j = 0) (hf : ∀ i j, j ≤ i → i < m → ∑ k ∈ range (j + 1), L i k * L j k = A i j)
    (hl : ∀ j < m, ∑ k ∈ range (j + 1), l k * L j k = A r j) (hd : A r r ≤ ∑ k ∈ range m, l k * l k) :
    ¬ PosDef (view (symm A) n n) := by
  intro hp
  set F : ℕ → ℕ := fun i => if i < m then i else r with hF
  have hFn : ∀ i, F i < n := fun i => by simp only [hF]; split_ifs <;> omega
  have hinj : Function.Injective (fun i : Fin (m + 1) => (⟨F i, hFn i⟩ : Fin n)) := by
    intro i j hij
    simp only [hF, Fin.mk.injEq] at hij
    ext
    split_ifs at hij <;> omega
  refine stuck_not_posDef (A := fun i j => A (F i) (F j)) (n := m + 1) ?_ ?_
  · refine ⟨m, Nat.lt_succ_self m, fun i k => if i < m then L i k else l k, fun i hi => ?_, fun i j hij hj => ?_, fun i j hj hi => ?_,
      fun j hj => ?_, ?_⟩
    · simp only [if_pos hi]
      exact hpos i hi
    · simp only [if_pos (show i < m by omega)]
      exact hz i j hij hj
    · simp only [hF, if_pos hi, if_pos (show j < m by omega)]
      exact hf i j hj hi
    · simp only [hF, if_pos hj, lt_irrefl, if_false]
      exact hl j hj
    · simp only [hF, lt_irrefl, if_false]
      linarith
  · have := hp.sub hinj
    have e : (view (symm A) n n).submatrix (fun i : Fin (m + 1) => (⟨F i, hFn i⟩ : Fin n)) (fun i : Fin (m + 1) => ⟨F i, hFn i⟩) =
        view (symm fun i j => A (F i) (F j)) (m + 1) (m + 1) := by
      ext i j
      simp only [view, symm, Matrix.submatrix_apply, Matrix.of_apply]
      refine if_congr ?_ rfl rfl
      simp only [hF]
      split_ifs <;> omega
    rwa [e] at this

theorem err_bound {g a b e : K} (hg : 0 ≤ g) (hg1 : g < 1) (t : ℕ) (x y : ℕ → K) (he : |e| ≤ g * ∑ k ∈ range t, |x k * y k|)
    (hx : (1 - g) * ∑ k ∈ range t, x k * x k ≤ a) (hy : (1 - g) * ∑ k ∈ range t, y k * y k ≤ b) :
    ((1 - g) * e) ^ 2 ≤ (2 * g) ^ 2 * (a * b) := by
  have h1 : (0 : K) ≤ 1 - g := by linarith
  have hX : 0 ≤ ∑ k ∈ range t, x k * x k := sum_nonneg fun _ _ => mul_self_nonneg _
  have hY : 0 ≤ ∑ k ∈ range t, y k * y k := sum_nonneg fun _ _ => mul_self_nonneg _
  have cs : (∑ k ∈ range t, |x k * y k|) ^ 2 ≤ (∑ k ∈ range t, x k * x k) * ∑ k ∈ range t, y k * y k := by
    have := sum_mul_sq_le_sq_mul_sq (range t) (fun k => |x k|) (fun k => |y k|)
    simpa only [← abs_mul, sq, abs_mul_self] using this
  have hab : ((1 - g) * ∑ k ∈ range t, x k * x k) * ((1 - g) * ∑ k ∈ range t, y k * y k) ≤ a * b :=
    mul_le_mul hx hy (mul_nonneg h1 hY) ((mul_nonneg h1 hX).trans hx)
  have he2 : e ^ 2 ≤ (g * ∑ k ∈ range t, |x k * y k|) ^ 2 := by
    rw [← sq_abs e]
    exact pow_le_pow_left₀ (abs_nonneg _) he 2
  have hab0 : 0 ≤ a * b := (mul_nonneg (mul_nonneg h1 hX) (mul_nonneg h1 hY)).trans hab
  calc ((1 - g) * e) ^ 2 = (1 - g) ^ 2 * e ^ 2 := by ring
    _ ≤ (1 - g) ^ 2 * (g ^ 2 * ((∑ k ∈ range t, x k * x k) * ∑ k ∈ range t, y k * y k)) := by
        refine mul_le_mul_of_nonneg_left (he2.trans ?_) (sq_nonneg _)
        rw [mul_pow]
        exact mul_le_mul_of_nonneg_left cs (sq_nonneg _)
    _ = g ^ 2 * (((1 - g) * ∑ k ∈ range t, x k * x k) * ((1 - g) * ∑ k ∈ range t, y k * y k)) := by ring
    _ ≤ g ^ 2 * (a * b) := mul_le_mul_of_nonneg_left hab (sq_nonneg _)
    _ ≤ (2 * g) ^ 2 * (a * b) := by
        refine mul_le_mul_of_nonneg_right ?_ hab0
        nlinarith [sq_nonneg g]

/-- The length of a finished row. -/
theorem row_len {g a : K} (t s : ℕ) (hts : t ≤ s) (hg1 : g < 1) (x : ℕ → K)
    (h : |a - ∑ k ∈ range s, x k * x k| ≤ g * ∑ k ∈ range s, |x k * x k|) : (1 - g) * ∑ k ∈ range t, x k * x k ≤ a := by
  have e : ∑ k ∈ range s, |x k * x k| = ∑ k ∈ range s, x k * x k := sum_congr rfl fun k _ => abs_of_nonneg (mul_self_nonneg _)
  rw [e] at h
  have h1 := (abs_le.1 h).1
  have h2 : ∑ k ∈ range t, x k * x k ≤ ∑ k ∈ range s, x k * x k :=
    sum_le_sum_of_subset_of_nonneg (range_mono hts) fun _ _ _ => mul_self_nonneg _
  nlinarith

theorem near_aux {g : K} (hg : 0 ≤ g) (hg1 : g < 1) {n r m : ℕ} (hr : r < n) (hm : m ≤ r) {A L : ℕ → ℕ → K} {l : ℕ → K} {d : K}
    (hA : ∀ i < n, 0 < A i i) (hpos : ∀ i < m, 0 < L i i) (hz : ∀ i j, i < j → j < m → L i j = 0)
    (hf : ∀ i j, j ≤ i → i < m → |A i j - ∑ k ∈ range (j + 1), L i k * L j k| ≤ g * ∑ k ∈ range (j + 1), |L i k * L j k|)
    (hl : ∀ j < m, ∃ t ≤ j + 1, |A r j - ∑ k ∈ range (j + 1), l k * L j k| ≤ g * ∑ k ∈ range t, |L r k * L j k| ∧
      ∑ k ∈ range t, L r k * L r k ≤ A r r)
    (hd : d ≤ ∑ k ∈ range m, l k * l k) (hd' : |d - A r r| ≤ 2 * g * A r r) :
    ∃ E : Matrix (Fin n) (Fin n) K, (∀ i j, E i j = E j i) ∧ (∀ i j, ((1 - g) * E i j) ^ 2 ≤ (2 * g) ^ 2 * (A i i * A j j)) ∧
      ¬ PosDef (view (symm A) n n + E) := by
  set A' : ℕ → ℕ → K := fun i j => if i < m then ∑ k ∈ range (j + 1), L i k * L j k else
    if i = r ∧ j < m then ∑ k ∈ range (j + 1), l k * L j k else if i = r ∧ j = r then d else A i j with hA'
  have h1 : (0 : K) ≤ 1 - g := by linarith
  have len : ∀ i < m, ∀ t ≤ i + 1, (1 - g) * ∑ k ∈ range t, L i k * L i k ≤ A i i := fun i hi t ht =>
    row_len t (i + 1) ht hg1 (fun k => L i k) (hf i i le_rfl hi)
  have bound : ∀ i j, j ≤ i → i < n → ((1 - g) * (A' i j - A i j)) ^ 2 ≤ (2 * g) ^ 2 * (A i i * A j j) := by
    intro i j hj hi
    have trivial : ((1 - g) * (A i j - A i j)) ^ 2 ≤ (2 * g) ^ 2 * (A i i * A j j) := by
      rw [sub_self, mul_zero, zero_pow two_ne_zero]
      exact mul_nonneg (sq_nonneg _) (mul_nonneg (hA i hi).le (hA j (by omega)).le)
    simp only [hA']
    by_cases c1 : i < m
    · rw [if_pos c1]
      exact err_bound hg hg1 (j + 1) (fun k => L i k) (fun k => L j k) (by rw [abs_sub_comm]; exact hf i j hj c1)
        (len i c1 _ (by omega)) (len j (by omega) _ le_rfl)
    · rw [if_neg c1]
      by_cases c2 : i = r ∧ j < m
      · rw [if_pos c2]
        obtain ⟨rfl, hjm⟩ := c2
        obtain ⟨t, ht, e1, e2⟩ := hl j hjm
        refine err_bound hg hg1 t (fun k => L i k) (fun k => L j k) (by rw [abs_sub_comm]; exact e1) ?_ (len j hjm _ ht)
        have : 0 ≤ ∑ k ∈ range t, L i k * L i k := sum_nonneg fun _ _ => mul_self_nonneg _
        nlinarith
      · rw [if_neg c2]
        by_cases c3 : i = r ∧ j = r
        · rw [if_pos c3]
          obtain ⟨rfl, rfl⟩ := c3
          have ha := hA j hi
          have : |(1 - g) * (d - A j j)| ≤ 2 * g * A j j := by
            rw [abs_mul, abs_of_nonneg h1]
            have := mul_nonneg hg (abs_nonneg (d - A j j))
            linarith
          rw [← sq_abs]
          calc |(1 - g) * (d - A j j)| ^ 2 ≤ (2 * g * A j j) ^ 2 := pow_le_pow_left₀ (abs_nonneg _) this 2
            _ = (2 * g) ^ 2 * (A j j * A j j) := by ring
        · rw [if_neg c3]
          exact trivial
  refine ⟨view (symm A') n n - view (symm A) n n, fun i j => ?_, fun i j => ?_, ?_⟩
  · have sy : ∀ B : ℕ → ℕ → K, view (symm B) n n i j = view (symm B) n n j i := fun B => by
      simp only [view, symm, Matrix.of_apply]
      rcases lt_trichotomy (i : ℕ) j with h | h | h
      · rw [if_neg (by omega), if_pos (by omega)]
      · rw [Fin.ext h]
      · rw [if_pos (by omega), if_neg (by omega)]
    rw [Matrix.sub_apply, Matrix.sub_apply, sy, sy]
  · simp only [Matrix.sub_apply, view, symm, Matrix.of_apply]
    by_cases hij : (j : ℕ) ≤ i
    · rw [if_pos hij, if_pos hij]
      exact bound i j hij i.2
    · rw [if_neg hij, if_neg hij, mul_comm (A i i)]
      exact bound j i (by omega) j.2
  · rw [add_sub_cancel]
    refine long_row (l := l) hr hm hpos hz (fun i j _ hi => ?_) (fun j hj => ?_) ?_
    · simp only [hA', if_pos hi]
    · simp only [hA', if_neg (show ¬ r < m by omega), true_and, if_pos hj]
    · simp only [hA', if_neg (show ¬ r < m by omega), and_false, if_false, true_and, if_true]
      exact hd

theorem stuck_near {g : K} (hg : 0 ≤ g) (hg1 : g < 1) {A : ℕ → ℕ → K} {n : ℕ} (hA : ∀ i < n, 0 < A i i) (h : CholStuckE g A n) :
    ∃ E : Matrix (Fin n) (Fin n) K, (∀ i j, E i j = E j i) ∧ (∀ i j, ((1 - g) * E i j) ^ 2 ≤ (2 * g) ^ 2 * (A i i * A j j)) ∧
      ¬ PosDef (view (symm A) n n + E) := by
  obtain ⟨r, hr, L, hpos, hz, hf, x, hx, hd⟩ := h
  have ha := hA r hr
  have eabs : ∀ t, ∑ k ∈ range t, |L r k * L r k| = ∑ k ∈ range t, L r k * L r k := fun t =>
    sum_congr rfl fun k _ => abs_of_nonneg (mul_self_nonneg _)
  have smono : ∀ s t, s ≤ t → ∑ k ∈ range s, L r k * L r k ≤ ∑ k ∈ range t, L r k * L r k := fun s t hst =>
    sum_le_sum_of_subset_of_nonneg (range_mono hst) fun _ _ _ => mul_self_nonneg _
  by_cases hq : ∑ k ∈ range r, L r k * L r k < A r r
  · refine near_aux hg hg1 hr le_rfl (l := fun k => L r k) (d := ∑ k ∈ range r, L r k * L r k) hA hpos hz
      (fun i j hj hi => hf i j hj hi.le (by omega)) (fun j hj => ⟨j + 1, le_rfl, hf r j hj.le le_rfl hj, ?_⟩) le_rfl ?_
    · exact (smono _ _ hj).trans hq.le
    · rw [eabs, abs_of_nonpos hx] at hd
      have h1 := (abs_le.1 hd).2
      have h0 : 0 ≤ ∑ k ∈ range r, L r k * L r k := sum_nonneg fun _ _ => mul_self_nonneg _
      rw [abs_sub_comm, abs_of_pos (by linarith)]
      nlinarith
  · -- the first place where the row is too long
    have hex : ∃ t, A r r ≤ ∑ k ∈ range t, L r k * L r k := ⟨r, not_lt.1 hq⟩
    classical
    obtain ⟨t, ht, hmin⟩ : ∃ t, A r r ≤ ∑ k ∈ range t, L r k * L r k ∧ ∀ s < t, ∑ k ∈ range s, L r k * L r k < A r r :=
      ⟨Nat.find hex, Nat.find_spec hex, fun s hs => not_le.1 (Nat.find_min hex hs)⟩
    have htr : t ≤ r := by
      by_contra hc
      exact hq (hmin r (by omega))
    obtain ⟨j, rfl⟩ : ∃ j, t = j + 1 := by
      cases t with
      | zero => rw [sum_range_zero] at ht; linarith
      | succ j => exact ⟨j, rfl⟩
    have hjj := hpos j (by omega)
    have he := hf r j (by omega) le_rfl (by omega)
    rw [sum_range_succ, sum_range_succ, ← sub_sub] at he
    obtain ⟨e', e'', h1, h2, h3⟩ := split_err hg (abs_nonneg _) he (sum_nonneg fun _ _ => abs_nonneg _)
    obtain ⟨η, hη, hη'⟩ : ∃ η, |η| ≤ g ∧ e'' = η * (L r j * L j j) := by
      by_cases h0 : L r j * L j j = 0
      · refine ⟨0, by simpa using hg, ?_⟩
        rw [h0, abs_zero, mul_zero] at h3
        rw [zero_mul]
        exact abs_eq_zero.1 (le_antisymm h3 (abs_nonneg _))
      · refine ⟨e'' / (L r j * L j j), ?_, (div_mul_cancel₀ _ h0).symm⟩
        rw [abs_div, div_le_iff₀ (abs_pos.2 h0)]
        exact h3
    have hlow : ∀ k < j, (if k = j then (1 + η) * L r j else L r k) = L r k := fun k hk => if_neg (by omega)
    refine near_aux hg hg1 hr htr (l := fun k => if k = j then (1 + η) * L r j else L r k) (d := (1 - g) ^ 2 * A r r) hA
      (fun i hi => hpos i (by omega)) (fun i k hik hk => hz i k hik (by omega)) (fun i k hk hi => hf i k hk (by omega) (by omega))
      (fun k hk => ?_) ?_ ?_
    · by_cases hkj : k = j
      · subst hkj
        refine ⟨k, by omega, ?_, (hmin k (by omega)).le⟩
        rw [sum_range_succ, if_pos rfl]
        rw [sum_congr rfl (fun i hi => by rw [hlow i (mem_range.1 hi)])]
        have : A r k - (∑ i ∈ range k, L r i * L k i + (1 + η) * L r k * L k k) = e' := by
          rw [hη'] at h1
          linarith
        rw [this]
        exact h2
      · refine ⟨k + 1, le_rfl, ?_, (hmin (k + 1) (by omega)).le⟩
        rw [sum_congr rfl (fun i hi => by rw [hlow i (by have := mem_range.1 hi; omega)])]
        exact hf r k (by omega) le_rfl (by omega)
    · rw [sum_range_succ, if_pos rfl, sum_congr rfl (fun i hi => by rw [hlow i (mem_range.1 hi)])]
      rw [sum_range_succ] at ht
      have h0 : 0 ≤ ∑ k ∈ range j, L r k * L r k := sum_nonneg fun _ _ => mul_self_nonneg _
      have h1g : (1 - g) ^ 2 ≤ 1 := by nlinarith
      have h2g : (1 - g) ^ 2 ≤ (1 + η) ^ 2 := by
        have := (abs_le.1 hη).1
        exact pow_le_pow_left₀ (by linarith) (by linarith) 2
      have hs : 0 ≤ L r j * L r j := mul_self_nonneg _
      calc (1 - g) ^ 2 * A r r ≤ (1 - g) ^ 2 * (∑ k ∈ range j, L r k * L r k + L r j * L r j) :=
            mul_le_mul_of_nonneg_left ht (sq_nonneg _)
        _ = (1 - g) ^ 2 * ∑ k ∈ range j, L r k * L r k + (1 - g) ^ 2 * (L r j * L r j) := mul_add _ _ _
        _ ≤ 1 * ∑ k ∈ range j, L r k * L r k + (1 + η) ^ 2 * (L r j * L r j) :=
            add_le_add (mul_le_mul_of_nonneg_right h1g h0) (mul_le_mul_of_nonneg_right h2g hs)
        _ = _ := by ring
    · rw [show (1 - g) ^ 2 * A r r - A r r = -((2 * g - g ^ 2) * A r r) by ring, abs_neg, abs_of_nonneg]
      · nlinarith [mul_nonneg (sq_nonneg g) ha.le]
      · exact mul_nonneg (by nlinarith) ha.le

end Geomc.LU
