import Verif.Mtx.Lemmas
import Mathlib.LinearAlgebra.Matrix.Notation
import Mathlib.Tactic.NormNum

/-! # C25: matrix products -/

namespace Geomc.Mtx

variable {K : Type}

/-! ### Helper lemmas -/

theorem forN_none {S : Type} {n : ℕ} {f : ℕ → S → Option S} {s : S} {i : ℕ} (hi : i < n)
    (h : ∀ s, f i s = none) : forN n f s = none := by
  induction n with
  | zero => omega
  | succ n ih =>
    rw [forN_succ]
    rcases Nat.lt_succ_iff_lt_or_eq.mp hi with h' | rfl
    · rw [ih h']; rfl
    · cases forN i f s with
      | none => rfl
      | some s => exact h s

theorem forN_congr {S : Type} {n : ℕ} {f g : ℕ → S → Option S} {s : S}
    (h : ∀ i < n, ∀ s, f i s = g i s) : forN n f s = forN n g s := by
  induction n with
  | zero => rfl
  | succ n ih =>
    rw [forN_succ, forN_succ, ih (fun i hi => h i (by omega))]
    cases forN n g s with
    | none => rfl
    | some s => exact h n (by omega) s

theorem Perm.at_eq {n : ℕ} (a : ℕ → ℕ) {i : ℕ} (h : i < n) : Perm.at n a i = some (a i) := if_pos h

/-- A single loop over the diagonal of a diagonal destination. -/
theorem writesDiag (d : Diag) (n : ℕ) (step : ℕ → Mem K → Option (Mem K)) (g : ℕ → K) (m : Mem K)
    (hn : n = min d.rows d.cols)
    (hval : ∀ i < n, ∀ m' : Mem K, (∀ x, (∀ j < n, j ≠ i → x ≠ d.base + j) → m' x = m x) →
      step i m' = some (Function.update m' (d.base + i) (g i))) :
    ∃ m', forN n step m = some m' ∧ (∀ i < n, m' (d.base + i) = g i) ∧ ∀ x ∉ d.range, m' x = m x := by
  obtain ⟨m', e, h1, h2⟩ := writes (List.range n) (fun i => d.base + i) step g m
    (List.nodup_map_iff_inj_on List.nodup_range |>.2 (fun i _ j _ h => by simpa using h))
    (fun i hi m' hm' => hval i (List.mem_range.1 hi) m' (fun x hx => hm' x (fun j hj => hx j (List.mem_range.1 hj))))
  refine ⟨m', e, fun i hi => h1 i (List.mem_range.2 hi), fun x hx => h2 x (fun i hi he => hx ?_)⟩
  have := List.mem_range.1 hi
  exact ⟨by omega, by omega⟩

/-- A single loop over the diagonal elements of a flat destination. -/
theorem writesOnDiag (d : Flat) (n : ℕ) (step : ℕ → Mem K → Option (Mem K)) (g : ℕ → K) (m : Mem K)
    (hr : n ≤ d.rows) (hc : n ≤ d.cols)
    (hval : ∀ i < n, ∀ m' : Mem K, (∀ x, x ∉ d.range → m' x = m x) →
      step i m' = some (Function.update m' (d.base + d.off i i) (g i))) :
    ∃ m', forN n step m = some m' ∧ (∀ i < n, m' (d.base + d.off i i) = g i) ∧
      (∀ r < d.rows, ∀ c < d.cols, (r ≠ c ∨ n ≤ r) → m' (d.base + d.off r c) = m (d.base + d.off r c)) ∧
      ∀ x ∉ d.range, m' x = m x := by
  obtain ⟨m', e, h1, h2⟩ := writes (List.range n) (fun i => d.base + d.off i i) step g m
    (List.nodup_map_iff_inj_on List.nodup_range |>.2 (fun i hi j hj h => by
      have hi := List.mem_range.1 hi
      have hj := List.mem_range.1 hj
      exact (d.off_inj (by omega) (by omega) (by omega) (by omega)
        (show d.off i i = d.off j j by simpa using h)).1))
    (fun i hi m' hm' => hval i (List.mem_range.1 hi) m' (fun x hx => hm' x (fun j hj _ he => hx (by
      have hj := List.mem_range.1 hj
      rw [he]
      exact d.mem_range (by omega) (by omega)))))
  refine ⟨m', e, fun i hi => h1 i (List.mem_range.2 hi), fun r hr' c hc' hne => h2 _ (fun i hi he => ?_),
    fun x hx => h2 x (fun i hi he => hx ?_)⟩
  · have hi := List.mem_range.1 hi
    have := d.off_inj hr' hc' (by omega : i < d.rows) (by omega : i < d.cols) (by simpa using he)
    omega
  · have hi := List.mem_range.1 hi
    rw [he]
    exact d.mem_range (by omega) (by omega)

theorem Diag.rd_eq (v : Diag) (m : Mem K) {i : ℕ} (hi : i < min v.rows v.cols) :
    v.rd m i = some (m (v.base + i)) := if_pos hi

theorem Diag.wr_eq (v : Diag) (m : Mem K) {i : ℕ} (hi : i < min v.rows v.cols) (x : K) :
    v.wr m i x = some (Function.update m (v.base + i) x) := if_pos hi

theorem Diag.rd_indep [Zero K] {v : Diag} {D : Set ℕ} (h : Indep (v.src : Src K) D) {m m' : Mem K}
    (hm : ∀ x, x ∉ D → m' x = m x) : v.rd m' = v.rd m := by
  funext i
  have := congrFun (congrFun (h m' m hm) i) i
  simpa [Diag.src, Diag.get] using this

/-- A diagonal source shows its diagonal. -/
theorem Diag.shows_nat [CommRing K] {v : Diag} {m : Mem K} {p q : ℕ} {A : Matrix (Fin p) (Fin q) K}
    (h : Shows v.src m A) {r c : ℕ} (hr : r < p) (hc : c < q) :
    nat A r c = if r = c then m (v.base + r) else 0 := by
  obtain ⟨h1, h2, -⟩ := id h
  have := h.get hr hc
  simp only [Diag.src] at h1 h2 this
  simp only [Diag.get] at this
  split_ifs at this ⊢ with hrc
  · rw [v.rd_eq m (by omega)] at this
    exact (Option.some.inj this).symm
  · exact (Option.some.inj this).symm

/-- Both arrays are permutations of `0..n-1`, inverse to each other. -/
def Perm.Valid (p : Perm) : Prop :=
  ∀ i < p.n, p.src i < p.n ∧ p.dst i < p.n ∧ p.dst (p.src i) = i ∧ p.src (p.dst i) = i

theorem Perm.shows_nat [CommRing K] {v : Perm} {m : Mem K} {p q : ℕ} {A : Matrix (Fin p) (Fin q) K}
    (h : Shows v.asSrc m A) {r c : ℕ} (hr : r < p) (hc : c < q) :
    nat A r c = if v.src r = c then 1 else 0 := by
  have h1 : v.n = p := h.1
  have := h.get hr hc
  simp only [Perm.asSrc, Perm.get] at this
  rw [if_pos (by omega)] at this
  exact (Option.some.inj this).symm

theorem Perm.src_eq_iff {v : Perm} (hv : v.Valid) {i j : ℕ} (hi : i < v.n) (hj : j < v.n) :
    v.src i = j ↔ i = v.dst j := by
  obtain ⟨-, -, h3, -⟩ := hv i hi
  obtain ⟨-, -, -, h4⟩ := hv j hj
  constructor
  · rintro rfl; exact h3.symm
  · rintro rfl; exact h4

/-! ### The property theorems -/

/-- **C25**, the generic product of any two readable matrices (general, diagonal, permutation, or a column
vector on the right) into a flat matrix: if neither operand's contents live in the destination, every
element of the result is the sum over `k` of `a(i,k) b(k,j)`, and nothing else is written. -/
theorem C25_mul [Ring K] {p q s : ℕ} {d : Flat} {a b : Src K} {m : Mem K}
    {A : Matrix (Fin p) (Fin q) K} {B : Matrix (Fin q) (Fin s) K} (hA : Shows a m A) (hB : Shows b m B)
    (hp : d.rows = p) (hs : d.cols = s) (ia : Indep a d.range) (ib : Indep b d.range) :
    ∃ m', mul d a b m = some m' ∧ Shows d.src m' (A * B) ∧ ∀ x ∉ d.range, m' x = m x := by
  obtain ⟨m', e, h1, h2⟩ := writes2 d
    (fun r c m => (do let s ← inner a b m a.cols r c 0; d.set m r c s)) (fun r c => ∑ k ∈ Finset.range q,
      nat A r k * nat B k c) m (by
      intro r hr c hc m' hm'
      have e := inner_eq a b m' a.cols r c 0 (nat A r) (fun k => nat B k c)
        (fun k hk => by rw [indep_of_others ia hm']; exact hA.get (by omega) (by have := hA.2.1; omega))
        (fun k hk => by rw [indep_of_others ib hm']; exact hB.get (by have := hA.2.1; omega) (by omega))
      rw [e, hA.2.1]
      simp [d.set_eq m' hr hc])
  rw [hp, hs] at e
  refine ⟨m', ?_, Flat.shows_of hp hs h1 (fun i j => nat_mul A B i j), h2⟩
  unfold mul
  rw [hA.1, hB.2.1]
  exact e

/-- **C25**, `mul_acc`: the product is added to what the destination held. -/
theorem C25_mul_acc [Ring K] {p q s : ℕ} {d : Flat} {a b : Src K} {m : Mem K}
    {A : Matrix (Fin p) (Fin q) K} {B : Matrix (Fin q) (Fin s) K} {C : Matrix (Fin p) (Fin s) K}
    (hA : Shows a m A) (hB : Shows b m B) (hC : Shows d.src m C)
    (ia : Indep a d.range) (ib : Indep b d.range) :
    ∃ m', mulAcc d a b m = some m' ∧ Shows d.src m' (C + A * B) ∧ ∀ x ∉ d.range, m' x = m x := by
  have hp : d.rows = p := hC.1
  have hs : d.cols = s := hC.2.1
  obtain ⟨m', e, h1, h2⟩ := writes2 d
    (fun r c m => (do let x ← d.get m r c; let s ← inner a b m a.cols r c x; d.set m r c s))
    (fun r c => nat C r c + ∑ k ∈ Finset.range q, nat A r k * nat B k c) m (by
      intro r hr c hc m' hm'
      have e := inner_eq a b m' a.cols r c (nat C r c) (nat A r) (fun k => nat B k c)
        (fun k hk => by rw [indep_of_others ia hm']; exact hA.get (by omega) (by have := hA.2.1; omega))
        (fun k hk => by rw [indep_of_others ib hm']; exact hB.get (by have := hA.2.1; omega) (by omega))
      have e' : d.get m' r c = some (nat C r c) := by
        rw [d.get_indep hr hc hm']
        exact hC.get (by omega) (by omega)
      rw [e']
      simp only [Option.bind_eq_bind, Option.bind_some]
      rw [e, hA.2.1]
      simp [d.set_eq m' hr hc])
  rw [hp, hs] at e
  refine ⟨m', ?_, Flat.shows_of hp hs h1 (fun i j => by rw [nat_fin, nat_mul]; rfl), h2⟩
  unfold mulAcc
  rw [hA.1, hB.2.1]
  exact e

/-- **C25**, a row vector times a matrix.  The vector may share storage with the destination. -/
theorem C25_vec_mul [CommRing K] {q s : ℕ} {d v : Flat} {a : Src K} {m : Mem K}
    {V : Matrix (Fin 1) (Fin q) K} {A : Matrix (Fin q) (Fin s) K} (hV : Shows v.src m V) (hA : Shows a m A)
    (hp : d.rows = 1) (hs : d.cols = s) (ia : Indep a d.range) :
    ∃ m', vecMul false d v a m = some m' ∧ Shows d.src m' (V * A) ∧ ∀ x ∉ d.range, m' x = m x := by
  have hq : v.cols = q := hV.2.1
  have key : ∀ (n : ℕ) (m' : Mem K) (c : ℕ), n ≤ q → (∀ r < q, a.get m' r c = some (nat A r c)) →
      (List.range n).foldlM (fun s r => do
        let x ← a.get m' r c
        let y ← v.get m 0 r
        some (s + x * y)) (0 : K) = some (∑ k ∈ Finset.range n, nat V 0 k * nat A k c) := by
    intro n m' c hn ha
    induction n with
    | zero => simp
    | succ n ih =>
      have hv : v.get m 0 n = some (nat V 0 n) := hV.get (by omega) (by omega)
      rw [List.range_succ, List.foldlM_append, ih (by omega), Finset.sum_range_succ]
      simp [ha n (by omega), hv, mul_comm]
  obtain ⟨m', e, h1, h2⟩ := writes2' d (fun c r m' => (do
      let s ← (List.range v.cols).foldlM (fun s r => do
        let x ← a.get m' r c
        let y ← v.get m 0 r
        some (s + x * y)) (0 : K)
      d.set m' 0 c s)) (fun r c => ∑ k ∈ Finset.range q, nat V r k * nat A k c) m (by
    intro r hr c hc m' hm'
    have hr0 : r = 0 := by omega
    subst hr0
    rw [hq, key q m' c le_rfl (fun k hk => by
      rw [indep_of_others ia hm']; exact hA.get hk (by omega))]
    simp [d.set_eq m' hr hc])
  rw [hp, hs] at e
  refine ⟨m', ?_, Flat.shows_of hp hs h1 (fun i j => nat_mul V A i j), h2⟩
  unfold vecMul
  rw [hA.2.1]
  simpa [forN] using e

/-- **C25**, a row vector times a matrix, accumulated. -/
theorem C25_vec_mul_acc [CommRing K] {q s : ℕ} {d v : Flat} {a : Src K} {m : Mem K}
    {V : Matrix (Fin 1) (Fin q) K} {A : Matrix (Fin q) (Fin s) K} {C : Matrix (Fin 1) (Fin s) K}
    (hV : Shows v.src m V) (hA : Shows a m A) (hC : Shows d.src m C) (ia : Indep a d.range) :
    ∃ m', vecMul true d v a m = some m' ∧ Shows d.src m' (C + V * A) ∧ ∀ x ∉ d.range, m' x = m x := by
  have hp : d.rows = 1 := hC.1
  have hs : d.cols = s := hC.2.1
  have hq : v.cols = q := hV.2.1
  have key : ∀ (n : ℕ) (m' : Mem K) (c : ℕ) (x₀ : K), n ≤ q → (∀ r < q, a.get m' r c = some (nat A r c)) →
      (List.range n).foldlM (fun s r => do
        let x ← a.get m' r c
        let y ← v.get m 0 r
        some (s + x * y)) x₀ = some (x₀ + ∑ k ∈ Finset.range n, nat V 0 k * nat A k c) := by
    intro n m' c x₀ hn ha
    induction n with
    | zero => simp
    | succ n ih =>
      have hv : v.get m 0 n = some (nat V 0 n) := hV.get (by omega) (by omega)
      rw [List.range_succ, List.foldlM_append, ih (by omega), Finset.sum_range_succ]
      simp [ha n (by omega), hv, mul_comm, add_assoc]
  obtain ⟨m', e, h1, h2⟩ := writes2' d (fun c r m' => (do
      let x₀ ← d.get m' 0 c
      let s ← (List.range v.cols).foldlM (fun s r => do
        let x ← a.get m' r c
        let y ← v.get m 0 r
        some (s + x * y)) x₀
      d.set m' 0 c s)) (fun r c => nat C r c + ∑ k ∈ Finset.range q, nat V r k * nat A k c) m (by
    intro r hr c hc m' hm'
    have hr0 : r = 0 := by omega
    subst hr0
    have e' : d.get m' 0 c = some (nat C 0 c) := by
      rw [d.get_indep hr hc hm']
      exact hC.get (by omega) (by omega)
    rw [e']
    simp only [Option.bind_eq_bind, Option.bind_some] at key ⊢
    rw [hq, key q m' c _ le_rfl (fun k hk => by
      rw [indep_of_others ia hm']; exact hA.get hk (by omega))]
    simp [d.set_eq m' hr hc])
  rw [hp, hs] at e
  refine ⟨m', ?_, Flat.shows_of hp hs h1 (fun i j => by rw [nat_fin, nat_mul]; rfl), h2⟩
  unfold vecMul
  rw [hA.2.1]
  simpa [forN] using e

/-- **C25**, a matrix times a diagonal matrix with no more columns than rows.  The destination may be the left
operand itself, as in `m *= d`. -/
theorem C25_mtx_diag_partial [CommRing K] {p q s : ℕ} {d : Flat} {a : Src K} {b : Diag} {m : Mem K}
    {A : Matrix (Fin p) (Fin q) K} {B : Matrix (Fin q) (Fin s) K} (hA : Shows a m A)
    (hB : Shows b.src m B) (hsq : s ≤ q) (hp : d.rows = p) (hs : d.cols = s) (ia : a = d.src ∨ Indep a d.range)
    (ib : Indep (b.src : Src K) d.range) :
    ∃ m', mulDiag d a b m = some m' ∧ Shows d.src m' (A * B) ∧ ∀ x ∉ d.range, m' x = m x := by
  have hbr : b.rows = q := hB.1
  have hbc : b.cols = s := hB.2.1
  obtain ⟨m', e, h1, h2⟩ := writes2' d
    (fun c r m => (do let p ← b.rd m c; let x ← a.get m r c; d.set m r c (p * x)))
    (fun r c => ∑ k ∈ Finset.range q, nat A r k * nat B k c) m (by
      intro r hr c hc m' hm'
      have hx : ∀ x, x ∉ d.range → m' x = m x := fun x hx => hm' x (fun r' hr' c' hc' _ he =>
        hx (he ▸ d.mem_range hr' hc'))
      rw [Diag.rd_indep ib hx, cell_of_others ia hr hc hm', b.rd_eq m (by omega),
        hA.get (by omega) (by omega : c < q)]
      have : ∑ k ∈ Finset.range q, nat A r k * nat B k c = m (b.base + c) * nat A r c := by
        rw [Finset.sum_eq_single c]
        · rw [Diag.shows_nat hB (by omega) (by omega), if_pos rfl, mul_comm]
        · intro k hk hne
          rw [Diag.shows_nat hB (by simpa using hk) (by omega), if_neg hne, mul_zero]
        · intro h
          exact absurd (Finset.mem_range.2 (by omega)) h
      rw [this]
      simp [d.set_eq m' hr hc])
  rw [hp, hs] at e
  refine ⟨m', ?_, Flat.shows_of hp hs h1 (fun i j => nat_mul A B i j), h2⟩
  unfold mulDiag
  rw [hbc, hA.1]
  exact e

/-- **C25**, refuted for a matrix times a diagonal matrix with more columns than rows: the diagonal is read
past its end, for every operand with a row. -/
theorem C25_mtx_diag_refuted [CommRing K] (d : Flat) (a : Src K) (b : Diag) (m : Mem K)
    (h : b.rows < b.cols) (ha : 0 < a.rows) : mulDiag d a b m = none := by
  unfold mulDiag
  refine forN_none h (fun m => forN_none ha (fun m => ?_))
  have : b.rd m b.rows = none := if_neg (by omega)
  rw [this]
  rfl

/-- **C25**, `diag * mtx` for square operands: the right operand is never read; the result is the *square of
the diagonal matrix*. -/
theorem C25_diag_mtx_square [CommRing K] {n : ℕ} {d : Flat} {a : Diag} {b : Src K} {m : Mem K}
    {A B : Matrix (Fin n) (Fin n) K} (hA : Shows a.src m A) (hB : Shows b m B) (hr : d.rows = n)
    (hc : d.cols = n) (ia : Indep (a.src : Src K) d.range) :
    ∃ m', diagMul d a b m = some m' ∧ Shows d.src m' (A * A) ∧ ∀ x ∉ d.range, m' x = m x := by
  have har : a.rows = n := hA.1
  have hac : a.cols = n := hA.2.1
  obtain ⟨m', e, h1, h2⟩ := writes2 d
    (fun r c m => (do let p ← a.rd m r; let x ← a.get m r c; d.set m r c (p * x)))
    (fun r c => ∑ k ∈ Finset.range n, nat A r k * nat A k c) m (by
      intro r hr' c hc' m' hm'
      have hx : ∀ x, x ∉ d.range → m' x = m x := fun x hx => hm' x (fun r' hr' c' hc' _ he =>
        hx (he ▸ d.mem_range hr' hc'))
      have e2 : a.get m' r c = some (nat A r c) := by
        have := indep_of_others ia hm'
        simp only [Diag.src] at this
        rw [this]
        exact hA.get (by omega) (by omega)
      rw [Diag.rd_indep ia hx, e2, a.rd_eq m (by omega)]
      have : ∑ k ∈ Finset.range n, nat A r k * nat A k c = m (a.base + r) * nat A r c := by
        rw [Finset.sum_eq_single r]
        · rw [Diag.shows_nat hA (by omega) (by omega : r < n), if_pos rfl]
        · intro k hk hne
          rw [Diag.shows_nat hA (by omega) (by simpa using hk : k < n), if_neg (Ne.symm hne), zero_mul]
        · intro h
          exact absurd (Finset.mem_range.2 (by omega)) h
      rw [this]
      simp [d.set_eq m' hr' hc'])
  rw [hr, hc] at e
  refine ⟨m', ?_, Flat.shows_of hr hc h1 (fun i j => nat_mul A A i j), h2⟩
  unfold diagMul
  rw [hac, hB.1]
  exact e

/-- **C25**, refuted for `diag * mtx` with more columns than rows in the diagonal operand: undefined. -/
theorem C25_diag_mtx_wide_refuted [CommRing K] (d : Flat) (a : Diag) (b : Src K) (m : Mem K)
    (h : a.rows < a.cols) (hb : b.rows = a.cols) : diagMul d a b m = none := by
  unfold diagMul
  refine forN_none (i := a.rows) (by omega) (fun m => forN_none (i := 0) (by omega) (fun m => ?_))
  have : a.rd m a.rows = none := if_neg (by omega)
  rw [this]
  rfl

/-- **C25**, refuted for `diag * mtx`: `diag(2) * (3)` gives 4, not 6. -/
theorem C25_diag_mtx_refuted :
    ∃ (d : Flat) (a : Diag) (b : Flat) (m m' : Mem ℤ) (A B : Matrix (Fin 1) (Fin 1) ℤ),
      Shows a.src m A ∧ Shows b.src m B ∧ d.rows = 1 ∧ d.cols = 1 ∧ Indep (a.src : Src ℤ) d.range ∧
      Indep (b.src : Src ℤ) d.range ∧ diagMul d a b.src m = some m' ∧ ¬ Shows d.src m' (A * B) := by
  refine ⟨⟨0, 1, 1, true⟩, ⟨1, 1, 1⟩, ⟨2, 1, 1, true⟩, fun x => if x = 1 then 2 else 3,
    Function.update (fun x => if x = 1 then 2 else 3) 0 4, !![2], !![3], ?_, ?_, rfl, rfl,
    Diag.indep _ _ ?_, Flat.indep _ _ ?_, ?_, ?_⟩
  · refine ⟨rfl, rfl, ?_⟩; decide
  · refine ⟨rfl, rfl, ?_⟩; decide
  · refine Set.disjoint_left.2 (fun x hx hy => ?_)
    simp only [Diag.range, Flat.range, Set.mem_setOf_eq] at hx hy
    omega
  · refine Set.disjoint_left.2 (fun x hx hy => ?_)
    simp only [Flat.range, Set.mem_setOf_eq] at hx hy
    omega
  · rfl
  · intro h
    have := h.2.2 0 0
    revert this
    decide

/-- **C25**, the product of two diagonal matrices into a diagonal one is correct when the left operand has no
more rows than columns, and no more rows than the right operand has columns; `acc` adds. -/
theorem C25_diag_diag_partial [CommRing K] {p q s : ℕ} {d a b : Diag} {m : Mem K}
    {A : Matrix (Fin p) (Fin q) K} {B : Matrix (Fin q) (Fin s) K} {C : Matrix (Fin p) (Fin s) K}
    (hA : Shows a.src m A) (hB : Shows b.src m B) (hC : Shows d.src m C) (hpq : p ≤ q) (hps : p ≤ s)
    (ia : Indep (a.src : Src K) d.range) (ib : Indep (b.src : Src K) d.range) (acc : Bool) :
    ∃ m', diagDiag acc d a b m = some m' ∧ Shows d.src m' ((if acc then C else 0) + A * B) ∧
      ∀ x ∉ d.range, m' x = m x := by
  have hdr : d.rows = p := hC.1
  have hdc : d.cols = s := hC.2.1
  have har : a.rows = p := hA.1
  have hac : a.cols = q := hA.2.1
  have hbr : b.rows = q := hB.1
  have hbc : b.cols = s := hB.2.1
  have sumEq : ∀ (i : Fin p) (j : Fin s), (A * B) i j =
      if (i : ℕ) = j then m (a.base + i) * m (b.base + i) else 0 := by
    intro i j
    rw [← nat_mul, Finset.sum_eq_single (i : ℕ)]
    · rw [Diag.shows_nat hA i.2 (by omega), Diag.shows_nat hB (by omega) j.2, if_pos rfl]
      split_ifs <;> simp
    · intro k hk hne
      rw [Diag.shows_nat hA i.2 (by simpa using hk), if_neg (Ne.symm hne), zero_mul]
    · intro h
      exact absurd (Finset.mem_range.2 (by omega)) h
  obtain ⟨m', e, h1, h2⟩ := writesDiag d p (fun i m => (do
      let x₀ ← if acc then d.rd m i else some 0
      let x ← a.rd m i
      let y ← b.rd m i
      d.wr m i (x₀ + x * y))) (fun i => (if acc then m (d.base + i) else 0) + m (a.base + i) * m (b.base + i)) m
    (by omega) (by
      intro i hi m' hm'
      have hx : ∀ x, x ∉ d.range → m' x = m x := fun x hx => hm' x (fun j hj _ he =>
        hx (by rw [he]; exact ⟨by omega, by omega⟩))
      rw [Diag.rd_indep ia hx, Diag.rd_indep ib hx, a.rd_eq m (by omega), b.rd_eq m (by omega),
        d.rd_eq m' (by omega), hm' (d.base + i) (fun j _ hne => by omega)]
      cases acc <;> simp [d.wr_eq m' (show i < min d.rows d.cols by omega)])
  refine ⟨m', by unfold diagDiag; rw [har]; exact e, ⟨hdr, hdc, fun i j => ?_⟩, h2⟩
  have hCij := hC.2.2 i j
  simp only [Diag.src, Diag.get] at hCij ⊢
  rw [Matrix.add_apply, sumEq]
  split_ifs at hCij ⊢ with hij hacc
  · rw [d.rd_eq m (by omega)] at hCij
    rw [d.rd_eq m' (by omega), h1 _ (by omega)]
    simp [hacc, Option.some.inj hCij]
  · rw [d.rd_eq m' (by omega), h1 _ (by omega)]
    simp [hacc]
  · rw [← Option.some.inj hCij]
    simp
  · simp

/-- **C25**, the product of two diagonal matrices into a general matrix, same shapes. -/
theorem C25_diag_diag_general_partial [CommRing K] {p q s : ℕ} {d : Flat} {a b : Diag} {m : Mem K}
    {A : Matrix (Fin p) (Fin q) K} {B : Matrix (Fin q) (Fin s) K}
    (hA : Shows a.src m A) (hB : Shows b.src m B) (hp : d.rows = p) (hs : d.cols = s) (hpq : p ≤ q)
    (hps : p ≤ s) (ia : Indep (a.src : Src K) d.range) (ib : Indep (b.src : Src K) d.range) :
    ∃ m', diagDiagTo d a b m = some m' ∧ Shows d.src m' (A * B) ∧ ∀ x ∉ d.range, m' x = m x := by
  have har : a.rows = p := hA.1
  have hac : a.cols = q := hA.2.1
  have hbr : b.rows = q := hB.1
  have hbc : b.cols = s := hB.2.1
  have hz : ∀ x, x ∉ d.range → d.setZero m x = m x := fun x hx => if_neg hx
  obtain ⟨m', e, h1, h3, h2⟩ := writesOnDiag d p (fun i m => (do
      let x ← a.rd m i
      let y ← b.rd m i
      d.set m i i (x * y))) (fun i => m (a.base + i) * m (b.base + i)) (d.setZero m) (by omega) (by omega) (by
      intro i hi m' hm'
      have hx : ∀ x, x ∉ d.range → m' x = m x := fun x hx => (hm' x hx).trans (hz x hx)
      rw [Diag.rd_indep ia hx, Diag.rd_indep ib hx, a.rd_eq m (by omega), b.rd_eq m (by omega)]
      simp [d.set_eq m' (show i < d.rows by omega) (show i < d.cols by omega)])
  refine ⟨m', by unfold diagDiagTo; rw [har]; exact e, ⟨hp, hs, fun i j => ?_⟩,
    fun x hx => (h2 x hx).trans (hz x hx)⟩
  have hi : (i : ℕ) < d.rows := by omega
  have hj : (j : ℕ) < d.cols := by omega
  show d.get m' i j = _
  rw [d.get_eq m' hi hj, ← nat_mul, Finset.sum_eq_single (i : ℕ)]
  · rw [Diag.shows_nat hA i.2 (by omega), Diag.shows_nat hB (by omega) j.2, if_pos rfl]
    by_cases hij : (i : ℕ) = j
    · rw [if_pos hij, ← hij, h1 _ i.2]
    · rw [if_neg hij, mul_zero, h3 _ hi _ hj (Or.inl hij)]
      exact congrArg some (if_pos (d.mem_range hi hj))
  · intro k hk hne
    rw [Diag.shows_nat hA i.2 (by simpa using hk), if_neg (Ne.symm hne), zero_mul]
  · intro h
    exact absurd (Finset.mem_range.2 (by omega)) h

/-- **C25**, refuted for diagonal times diagonal when the left operand has more rows than columns, or the right
one fewer columns than the left has rows: a diagonal is read past its end. -/
theorem C25_diag_diag_refuted [CommRing K] (d a b : Diag) (d' : Flat) (acc : Bool) (m : Mem K)
    (h : a.cols < a.rows ∨ b.cols < a.rows ∨ b.rows < a.rows) :
    diagDiag acc d a b m = none ∧ diagDiagTo d' a b m = none := by
  have key : ∃ i < a.rows, (∀ m : Mem K, a.rd m i = none) ∨ ∀ m : Mem K, b.rd m i = none := by
    rcases h with h | h | h
    · exact ⟨a.cols, h, Or.inl (fun m => if_neg (by omega))⟩
    · exact ⟨b.cols, h, Or.inr (fun m => if_neg (by omega))⟩
    · exact ⟨b.rows, h, Or.inr (fun m => if_neg (by omega))⟩
  obtain ⟨i, hi, hn⟩ := key
  constructor
  · refine forN_none hi (fun m => ?_)
    rcases hn with hn | hn
    · rw [hn]
      cases acc <;> cases d.rd m i <;> rfl
    · rw [hn]
      cases acc <;> cases d.rd m i <;> cases a.rd m i <;> rfl
  · refine forN_none hi (fun m => ?_)
    rcases hn with hn | hn
    · rw [hn]; rfl
    · rw [hn]
      cases a.rd m i <;> rfl

/-- **C25**, a matrix times a permutation. -/
theorem C25_mtx_perm [CommRing K] {p n : ℕ} {d : Flat} {a : Src K} {b : Perm} {m : Mem K}
    {A : Matrix (Fin p) (Fin n) K} {P : Matrix (Fin n) (Fin n) K} (hb : b.Valid) (hA : Shows a m A)
    (hP : Shows b.asSrc m P) (hp : d.rows = p) (hn : d.cols = n) (ia : Indep a d.range) :
    ∃ m', mulPerm d a b m = some m' ∧ Shows d.src m' (A * P) ∧ ∀ x ∉ d.range, m' x = m x := by
  have hbn : b.n = n := hP.1
  obtain ⟨m', e, h1, h2⟩ := writes2' d
    (fun c r m => (do let x ← a.get m r (b.dst c); d.set m r c x))
    (fun r c => ∑ k ∈ Finset.range n, nat A r k * nat P k c) m (by
      intro r hr c hc m' hm'
      obtain ⟨-, hd, -, -⟩ := hb c (by omega)
      rw [indep_of_others ia hm', hA.get (by omega) (by omega : b.dst c < n)]
      have : ∑ k ∈ Finset.range n, nat A r k * nat P k c = nat A r (b.dst c) := by
        rw [Finset.sum_eq_single (b.dst c)]
        · rw [Perm.shows_nat hP (by omega) (by omega),
            if_pos ((Perm.src_eq_iff hb (by omega) (by omega)).2 rfl), mul_one]
        · intro k hk hne
          have hk : k < n := by simpa using hk
          rw [Perm.shows_nat hP hk (by omega),
            if_neg (fun h => hne ((Perm.src_eq_iff hb (by omega) (by omega)).1 h)), mul_zero]
        · intro h
          exact absurd (Finset.mem_range.2 (by omega)) h
      rw [this]
      simp [d.set_eq m' hr hc])
  rw [hp, hn] at e
  refine ⟨m', ?_, Flat.shows_of hp hn h1 (fun i j => nat_mul A P i j), h2⟩
  unfold mulPerm
  rw [hbn, hA.1, ← e]
  refine forN_congr (fun c hc m => ?_)
  rw [Perm.at_eq _ (by omega)]
  rfl

/-- **C25**, a permutation times a matrix. -/
theorem C25_perm_mtx [CommRing K] {n s : ℕ} {d : Flat} {a : Perm} {b : Src K} {m : Mem K}
    {P : Matrix (Fin n) (Fin n) K} {B : Matrix (Fin n) (Fin s) K} (ha : a.Valid) (hP : Shows a.asSrc m P)
    (hB : Shows b m B) (hn : d.rows = n) (hs : d.cols = s) (ib : Indep b d.range) :
    ∃ m', permMul d a b m = some m' ∧ Shows d.src m' (P * B) ∧ ∀ x ∉ d.range, m' x = m x := by
  have han : a.n = n := hP.1
  obtain ⟨m', e, h1, h2⟩ := writes2 d
    (fun r c m => (do let x ← b.get m (a.src r) c; d.set m r c x))
    (fun r c => ∑ k ∈ Finset.range n, nat P r k * nat B k c) m (by
      intro r hr c hc m' hm'
      obtain ⟨hd, -, -, -⟩ := ha r (by omega)
      rw [indep_of_others ib hm', hB.get (by omega : a.src r < n) (by omega)]
      have : ∑ k ∈ Finset.range n, nat P r k * nat B k c = nat B (a.src r) c := by
        rw [Finset.sum_eq_single (a.src r)]
        · rw [Perm.shows_nat hP (by omega) (by omega), if_pos rfl, one_mul]
        · intro k hk hne
          have hk : k < n := by simpa using hk
          rw [Perm.shows_nat hP (by omega) hk, if_neg (Ne.symm hne), zero_mul]
        · intro h
          exact absurd (Finset.mem_range.2 (by omega)) h
      rw [this]
      simp [d.set_eq m' hr hc])
  rw [hn, hs] at e
  refine ⟨m', ?_, Flat.shows_of hn hs h1 (fun i j => nat_mul P B i j), h2⟩
  unfold permMul
  rw [han, hB.2.1, ← e]
  refine forN_congr (fun c hc m => ?_)
  rw [Perm.at_eq _ (by omega)]
  rfl

/-- **C25**, a permutation times a column vector, which may share storage with the destination. -/
theorem C25_perm_vec [CommRing K] {n : ℕ} {d v : Flat} {a : Perm} {m : Mem K}
    {P : Matrix (Fin n) (Fin n) K} {V : Matrix (Fin n) (Fin 1) K} (ha : a.Valid) (hP : Shows a.asSrc m P)
    (hV : Shows v.src m V) (hn : d.rows = n) (hs : d.cols = 1) :
    ∃ m', permVec d a v m = some m' ∧ Shows d.src m' (P * V) ∧ ∀ x ∉ d.range, m' x = m x := by
  have han : a.n = n := hP.1
  have hvn : v.rows = n := hV.1
  obtain ⟨m', e, h1, h2⟩ := writes2 d
    (fun r c m' => (do let x ← v.get m (a.src r) 0; d.set m' r 0 x))
    (fun r c => ∑ k ∈ Finset.range n, nat P r k * nat V k c) m (by
      intro r hr c hc m' hm'
      obtain rfl : c = 0 := by omega
      obtain ⟨hd, -, -, -⟩ := ha r (by omega)
      have hv : v.get m (a.src r) 0 = some (nat V (a.src r) 0) := hV.get (by omega) (by omega)
      have : ∑ k ∈ Finset.range n, nat P r k * nat V k 0 = nat V (a.src r) 0 := by
        rw [Finset.sum_eq_single (a.src r)]
        · rw [Perm.shows_nat hP (by omega) (by omega), if_pos rfl, one_mul]
        · intro k hk hne
          have hk : k < n := by simpa using hk
          rw [Perm.shows_nat hP (by omega) hk, if_neg (Ne.symm hne), zero_mul]
        · intro h
          exact absurd (Finset.mem_range.2 (by omega)) h
      rw [this, hv]
      simp [d.set_eq m' hr hc])
  rw [hn, hs] at e
  refine ⟨m', ?_, Flat.shows_of hn hs h1 (fun i j => nat_mul P V i j), h2⟩
  unfold permVec
  rw [hvn, ← e]
  refine forN_congr (fun c hc m'' => ?_)
  rw [Perm.at_eq _ (by omega)]
  simp [forN]

/-- **C25**, a row vector times a permutation. -/
theorem C25_vec_perm [CommRing K] {n : ℕ} {d v : Flat} {b : Perm} {m : Mem K}
    {V : Matrix (Fin 1) (Fin n) K} {P : Matrix (Fin n) (Fin n) K} (hb : b.Valid) (hV : Shows v.src m V)
    (hP : Shows b.asSrc m P) (hr : d.rows = 1) (hn : d.cols = n) (iv : Disjoint v.range d.range) :
    ∃ m', vecPerm d v b m = some m' ∧ Shows d.src m' (V * P) ∧ ∀ x ∉ d.range, m' x = m x := by
  obtain ⟨m', e, h1, h2⟩ := C25_mtx_perm hb hV hP hr hn (v.indep _ iv)
  refine ⟨m', ?_, h1, h2⟩
  have hvc : v.cols = n := hV.2.1
  have hbn : b.n = n := hP.1
  have hvr : v.rows = 1 := hV.1
  rw [← e]
  unfold vecPerm mulPerm
  rw [hvc, hbn]
  refine forN_congr (fun c hc m'' => ?_)
  rw [Perm.at_eq _ (by omega)]
  simp [forN, Flat.src, hvr]

/-- **C25**, a permutation times a permutation, into a permutation of the same size. -/
theorem C25_perm_perm [CommRing K] {n : ℕ} {d a b : Perm} {m : Mem K} {A B : Matrix (Fin n) (Fin n) K}
    (ha : a.Valid) (hb : b.Valid) (hA : Shows a.asSrc m A) (hB : Shows b.asSrc m B) (hd : d.n = n) :
    ∃ d', permPerm d a b = some d' ∧ d'.Valid ∧ Shows d'.asSrc m (A * B) := by
  have han : a.n = n := hA.1
  have hbn : b.n = n := hB.1
  obtain ⟨d', e, hn, h⟩ := forN_inv (n := a.n) (s := d) (f := fun i d => (do
      let j ← Perm.at a.n a.src i
      let s ← Perm.at b.n b.src j
      let j' ← Perm.at b.n b.dst i
      let t ← Perm.at a.n a.dst j'
      if i < d.n then
        some { d with src := Function.update d.src i s, dst := Function.update d.dst i t }
      else none))
    (fun i d' => d'.n = n ∧ ∀ k < i, d'.src k = b.src (a.src k) ∧ d'.dst k = a.dst (b.dst k))
    ⟨hd, by omega⟩ (by
      rintro i hi s ⟨hs, hk⟩
      rw [Perm.at_eq _ hi, Perm.at_eq b.dst (by omega : i < b.n)]
      simp only [Option.bind_eq_bind, Option.bind_some]
      rw [Perm.at_eq b.src (by have := (ha i hi).1; omega : a.src i < b.n),
        Perm.at_eq a.dst (by have := (hb i (by omega)).2.1; omega : b.dst i < a.n)]
      simp only [Option.bind_some, if_pos (by omega : i < s.n)]
      refine ⟨_, rfl, hs, fun k hk' => ?_⟩
      rcases Nat.lt_succ_iff_lt_or_eq.mp hk' with h | rfl
      · simpa [Function.update_of_ne (by omega : k ≠ i)] using hk k h
      · simp)
  have hv : d'.Valid := by
    intro i hi
    obtain ⟨h1, h2⟩ := h i (by omega)
    obtain ⟨a1, a2, a3, a4⟩ := ha i (by omega)
    obtain ⟨b1, b2, b3, b4⟩ := hb i (by omega)
    obtain ⟨c1, c2, c3, c4⟩ := hb (a.src i) (by omega)
    obtain ⟨e1, e2, e3, e4⟩ := ha (b.dst i) (by omega)
    obtain ⟨-, f2⟩ := h (b.src (a.src i)) (by omega)
    obtain ⟨g1, -⟩ := h (a.dst (b.dst i)) (by omega)
    refine ⟨by omega, by omega, ?_, ?_⟩
    · rw [h1, f2, c3, a3]
    · rw [h2, g1, e4, b4]
  refine ⟨d', e, hv, hn, hn, fun i j => ?_⟩
  obtain ⟨a1, -, -, -⟩ := ha i (by omega)
  have hi : (i : ℕ) < d'.n := by omega
  show d'.get m i j = _
  rw [Perm.get, if_pos hi, (h i (by omega)).1, ← nat_mul, Finset.sum_eq_single (a.src i)]
  · rw [Perm.shows_nat hA i.2 (by omega), if_pos rfl, one_mul, Perm.shows_nat hB (by omega) j.2]
  · intro k hk hne
    have hk : k < n := by simpa using hk
    rw [Perm.shows_nat hA i.2 hk, if_neg (Ne.symm hne), zero_mul]
  · intro h
    exact absurd (Finset.mem_range.2 (by omega)) h

/-- **C25**, a permutation times a permutation into a general matrix gives the *transpose* of the product. -/
theorem C25_perm_perm_general [CommRing K] {n : ℕ} {d : Flat} {a b : Perm} {m : Mem K}
    {A B : Matrix (Fin n) (Fin n) K} (ha : a.Valid) (hb : b.Valid) (hA : Shows a.asSrc m A)
    (hB : Shows b.asSrc m B) (hr : d.rows = n) (hc : d.cols = n) :
    ∃ m', permPermTo d a b m = some m' ∧ Shows d.src m' (A * B).transpose ∧
      ∀ x ∉ d.range, m' x = m x := by
  have han : a.n = n := hA.1
  have hbn : b.n = n := hB.1
  have hz : ∀ x, x ∉ d.range → d.setZero m x = m x := fun x hx => if_neg hx
  have hlt : ∀ i < n, a.dst (b.dst i) < n := fun i hi => by
    have h1 := (hb i (by omega)).2.1
    have := (ha (b.dst i) (by omega)).2.1
    omega
  obtain ⟨m', e, h1, h2⟩ := writes (List.range n) (fun i => d.base + d.off i (a.dst (b.dst i)))
    (fun i m => (do
      let j ← Perm.at b.n b.dst i
      let k ← Perm.at a.n a.dst j
      d.set m i k 1)) (fun _ => (1 : K)) (d.setZero m)
    (List.nodup_map_iff_inj_on List.nodup_range |>.2 (fun i hi j hj h => by
      have hi := List.mem_range.1 hi
      have hj := List.mem_range.1 hj
      have h3 := hlt i hi
      have h4 := hlt j hj
      exact (d.off_inj (c := a.dst (b.dst i)) (c' := a.dst (b.dst j)) (by omega) (by omega) (by omega)
        (by omega) (by simpa using h)).1))
    (fun i hi m' _ => by
      have hi := List.mem_range.1 hi
      rw [Perm.at_eq _ (by omega)]
      simp only [Option.bind_eq_bind, Option.bind_some]
      rw [Perm.at_eq _ (by have := (hb i (by omega)).2.1; omega)]
      simp [d.set_eq m' (by omega : i < d.rows) (by have := hlt i hi; omega : a.dst (b.dst i) < d.cols)])
  refine ⟨m', by unfold permPermTo; rw [han] at e ⊢; exact e, ⟨hr, hc, fun i j => ?_⟩,
    fun x hx => (h2 x (fun i hi he => hx ?_)).trans (hz x hx)⟩
  · have hi : (i : ℕ) < d.rows := by omega
    have hj : (j : ℕ) < d.cols := by omega
    obtain ⟨a1, -, a3, -⟩ := ha j (by omega)
    have hval : (A * B) j i = if b.src (a.src j) = i then 1 else 0 := by
      rw [← nat_mul, Finset.sum_eq_single (a.src j)]
      · rw [Perm.shows_nat hA j.2 (by omega), if_pos rfl, one_mul, Perm.shows_nat hB (by omega) i.2]
      · intro k hk hne
        have hk : k < n := by simpa using hk
        rw [Perm.shows_nat hA j.2 hk, if_neg (Ne.symm hne), zero_mul]
      · intro h
        exact absurd (Finset.mem_range.2 (by omega)) h
    show d.get m' i j = _
    rw [d.get_eq m' hi hj, Matrix.transpose_apply, hval]
    have hiff : b.src (a.src j) = i ↔ (j : ℕ) = a.dst (b.dst i) := by
      rw [Perm.src_eq_iff hb (by omega) (by omega),
        Perm.src_eq_iff ha (by omega) (by have := (hb i (by omega)).2.1; omega)]
    by_cases hij : (j : ℕ) = a.dst (b.dst i)
    · rw [if_pos (hiff.2 hij), hij]
      exact congrArg some (h1 i (List.mem_range.2 i.2))
    · rw [if_neg (fun h => hij (hiff.1 h)), h2]
      · exact congrArg some (if_pos (d.mem_range hi hj))
      · intro k hk he
        have hk := List.mem_range.1 hk
        have hlk := hlt k hk
        have := d.off_inj hi hj (by omega : k < d.rows) (by omega : a.dst (b.dst k) < d.cols)
          (by simpa using he)
        apply hij
        rw [this.2, ← this.1]
  · have hi := List.mem_range.1 hi
    rw [he]
    exact d.mem_range (by omega) (by have := hlt i hi; omega)

/-- **C25**, refuted for permutation times permutation into a general matrix: a 3-cycle times the identity. -/
theorem C25_perm_perm_refuted :
    ∃ (d : Flat) (a b : Perm) (m m' : Mem ℤ) (A B : Matrix (Fin 3) (Fin 3) ℤ), a.Valid ∧ b.Valid ∧
      Shows a.asSrc m A ∧ Shows b.asSrc m B ∧ d.rows = 3 ∧ d.cols = 3 ∧
      permPermTo d a b m = some m' ∧ ¬ Shows d.src m' (A * B) := by
  let a : Perm := ⟨3, fun i => (i + 1) % 3, fun i => (i + 2) % 3, 0⟩
  let b : Perm := ⟨3, id, id, 1⟩
  have ha : a.Valid := by
    intro i (hi : i < 3)
    show (i + 1) % 3 < 3 ∧ (i + 2) % 3 < 3 ∧ ((i + 1) % 3 + 2) % 3 = i ∧ ((i + 2) % 3 + 1) % 3 = i
    omega
  have hb : b.Valid := by
    intro i (hi : i < 3)
    exact ⟨hi, hi, rfl, rfl⟩
  have hA : Shows a.asSrc (fun _ => (0 : ℤ)) !![0, 1, 0; 0, 0, 1; 1, 0, 0] := ⟨rfl, rfl, by decide⟩
  have hB : Shows b.asSrc (fun _ => (0 : ℤ)) (1 : Matrix (Fin 3) (Fin 3) ℤ) := ⟨rfl, rfl, by decide⟩
  obtain ⟨m', e, h, -⟩ := C25_perm_perm_general (d := ⟨0, 3, 3, true⟩) ha hb hA hB rfl rfl
  refine ⟨_, a, b, _, m', _, _, ha, hb, hA, hB, rfl, rfl, e, fun h' => ?_⟩
  have h1 := h.2.2 0 1
  have h2 := h'.2.2 0 1
  rw [h1] at h2
  revert h2
  decide

/-! ### Concrete instances -/

/-- A row-major 2×2 times a column-major 2×2, at addresses 0 and 4, into 8. -/
example : (mul (⟨8, 2, 2, true⟩ : Flat) (⟨0, 2, 2, true⟩ : Flat).src (⟨4, 2, 2, false⟩ : Flat).src
    (fun x => (x : ℤ))).map (fun m => [m 8, m 9, m 10, m 11]) = some [5, 7, 23, 33] := by decide

/-- A diagonal operand on the right. -/
example : (mulDiag (⟨8, 2, 2, true⟩ : Flat) (⟨0, 2, 2, true⟩ : Flat).src (⟨4, 2, 2⟩ : Diag)
    (fun x => (x : ℤ))).map (fun m => [m 8, m 9, m 10, m 11]) = some [0, 5, 8, 15] := by decide

/-- A permutation operand on the left. -/
example : (permMul (⟨8, 2, 2, true⟩ : Flat) ⟨2, fun i => 1 - i, fun i => 1 - i, 0⟩
    (⟨0, 2, 2, true⟩ : Flat).src (fun x => (x : ℤ))).map (fun m => [m 8, m 9, m 10, m 11])
      = some [2, 3, 0, 1] := by decide

end Geomc.Mtx
