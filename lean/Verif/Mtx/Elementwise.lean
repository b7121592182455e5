import Verif.Mtx.Products
import Mathlib.Algebra.Field.Rat

/-! # C26 and C27: elementwise operations, transposition, comparison, identity -/

namespace Geomc.Mtx

variable {K : Type}

/-! ### Helper lemmas -/

/-- The memory of `d` after transposing the positions in `S`. -/
def Swapped (d : Flat) (m m' : Mem K) (S : ℕ → ℕ → Prop) : Prop :=
  (∀ i < d.rows, ∀ j < d.rows, (S i j → m' (d.base + d.off i j) = m (d.base + d.off j i)) ∧
    (¬ S i j → m' (d.base + d.off i j) = m (d.base + d.off i j))) ∧ ∀ x ∉ d.range, m' x = m x

theorem swap_step (d : Flat) (hsq : d.rows = d.cols) {m m' : Mem K} {S : ℕ → ℕ → Prop}
    (h : Swapped d m m' S) {r c : ℕ} (hr : r < d.rows) (hc : c < d.rows) (hne : r ≠ c) (h1 : ¬ S r c)
    (h2 : ¬ S c r) :
    ∃ m'', d.swap m' r c = some m'' ∧
      Swapped d m m'' (fun i j => S i j ∨ (i = r ∧ j = c) ∨ (i = c ∧ j = r)) := by
  have hr' : r < d.cols := by omega
  have hc' : c < d.cols := by omega
  refine ⟨_, by
    unfold Flat.swap
    rw [d.get_eq m' hr hc', d.get_eq m' hc hr']
    simp only [Option.bind_eq_bind, Option.bind_some]
    rw [d.set_eq m' hr hc']
    simp only [Option.bind_some]
    rw [d.set_eq _ hc hr'], ?_, ?_⟩
  · intro i hi j hj
    have hj' : j < d.cols := by omega
    by_cases e1 : i = c ∧ j = r
    · obtain ⟨rfl, rfl⟩ := e1
      rw [Function.update_self]
      exact ⟨fun _ => (h.1 j hr i hi).2 h1, fun hn => absurd (Or.inr (Or.inr ⟨rfl, rfl⟩)) hn⟩
    · have n1 : d.base + d.off i j ≠ d.base + d.off c r := fun he =>
        e1 (d.off_inj hi hj' hc hr' (by omega))
      rw [Function.update_of_ne n1]
      by_cases e2 : i = r ∧ j = c
      · obtain ⟨rfl, rfl⟩ := e2
        rw [Function.update_self]
        exact ⟨fun _ => (h.1 j hj i hi).2 h2, fun hn => absurd (Or.inr (Or.inl ⟨rfl, rfl⟩)) hn⟩
      · have n2 : d.base + d.off i j ≠ d.base + d.off r c := fun he =>
          e2 (d.off_inj hi hj' hr hc' (by omega))
        rw [Function.update_of_ne n2]
        refine ⟨fun hs => (h.1 i hi j hj).1 ?_, fun hs => (h.1 i hi j hj).2 (fun h' => hs (Or.inl h'))⟩
        rcases hs with hs | hs | hs
        · exact hs
        · exact absurd hs e2
        · exact absurd hs e1
  · intro x hx
    rw [Function.update_of_ne (by rintro rfl; exact hx (d.mem_range hc hr')),
      Function.update_of_ne (by rintro rfl; exact hx (d.mem_range hr hc'))]
    exact h.2 x hx

theorem Swapped.congr {d : Flat} {m m' : Mem K} {S T : ℕ → ℕ → Prop} (h : Swapped d m m' S)
    (e : ∀ i < d.rows, ∀ j < d.rows, i ≠ j → (S i j ↔ T i j)) : Swapped d m m' T := by
  refine ⟨fun i hi j hj => ?_, h.2⟩
  by_cases hij : i = j
  · subst hij
    have := h.1 i hi i hi
    by_cases hs : S i i
    · exact ⟨fun _ => this.1 hs, fun _ => this.1 hs⟩
    · exact ⟨fun _ => this.2 hs, fun _ => this.2 hs⟩
  · have := h.1 i hi j hj
    rw [← e i hi j hj hij]
    exact this

theorem eqLoop_true [DecidableEq K] {x y : ℕ → Option K} {f g : ℕ → K} {l : List ℕ}
    (hx : ∀ i ∈ l, x i = some (f i)) (hy : ∀ i ∈ l, y i = some (g i)) :
    eqLoop x y l = some (decide (∀ i ∈ l, f i = g i)) := by
  induction l with
  | nil => simp [eqLoop]
  | cons i l ih =>
    rw [eqLoop, hx i (by simp), hy i (by simp)]
    simp only [Option.bind_eq_bind, Option.bind_some]
    rw [ih (fun j hj => hx j (by simp [hj])) (fun j hj => hy j (by simp [hj]))]
    by_cases h : f i = g i <;> simp [h]

theorem Flat.off_transpose (d : Flat) (i j : ℕ) : d.asTranspose.off i j = d.off j i := by
  obtain ⟨_, _, _, l⟩ := d
  cases l <;> rfl

/-! ### C26 -/

/-- **C26**, the row-major elementwise loop, for any operation: the result holds `f(a(i,j), b(i,j))`, also when
the destination is one (or both) of the operands. -/
theorem C26_zip [CommRing K] (f : K → K → K) {p q : ℕ} {d : Flat} {a b : Src K} {m : Mem K}
    {A B : Matrix (Fin p) (Fin q) K} (hA : Shows a m A) (hB : Shows b m B) (hp : d.rows = p)
    (hq : d.cols = q) (ia : a = d.src ∨ Indep a d.range) (ib : b = d.src ∨ Indep b d.range) :
    ∃ m', zipWith f d a b m = some m' ∧ Shows d.src m' (Matrix.of fun i j => f (A i j) (B i j)) ∧
      ∀ x ∉ d.range, m' x = m x := by
  obtain ⟨m', e, h1, h2⟩ := writes2 d
    (fun r c m => (do let x ← a.get m r c; let y ← b.get m r c; d.set m r c (f x y)))
    (fun r c => f (nat A r c) (nat B r c)) m (by
      intro r hr c hc m' hm'
      rw [cell_of_others ia hr hc hm', cell_of_others ib hr hc hm', hA.get (by omega) (by omega),
        hB.get (by omega) (by omega)]
      simp [d.set_eq m' hr hc])
  exact ⟨m', e, Flat.shows_of hp hq h1 (fun i j => by rw [nat_fin, nat_fin]; rfl), h2⟩

/-- **C26**, `add`. -/
theorem C26_add [CommRing K] {p q : ℕ} {d : Flat} {a b : Src K} {m : Mem K}
    {A B : Matrix (Fin p) (Fin q) K} (hA : Shows a m A) (hB : Shows b m B) (hp : d.rows = p)
    (hq : d.cols = q) (ia : a = d.src ∨ Indep a d.range) (ib : b = d.src ∨ Indep b d.range) :
    ∃ m', zipWith (· + ·) d a b m = some m' ∧ Shows d.src m' (A + B) ∧ ∀ x ∉ d.range, m' x = m x :=
  C26_zip (· + ·) hA hB hp hq ia ib

/-- **C26**, `sub`. -/
theorem C26_sub [CommRing K] {p q : ℕ} {d : Flat} {a b : Src K} {m : Mem K}
    {A B : Matrix (Fin p) (Fin q) K} (hA : Shows a m A) (hB : Shows b m B) (hp : d.rows = p)
    (hq : d.cols = q) (ia : a = d.src ∨ Indep a d.range) (ib : b = d.src ∨ Indep b d.range) :
    ∃ m', zipWith (· - ·) d a b m = some m' ∧ Shows d.src m' (A - B) ∧ ∀ x ∉ d.range, m' x = m x :=
  C26_zip (· - ·) hA hB hp hq ia ib

/-- **C26**, `scale`. -/
theorem C26_scale [CommRing K] (k : K) {p q : ℕ} {d : Flat} {a : Src K} {m : Mem K}
    {A : Matrix (Fin p) (Fin q) K} (hA : Shows a m A) (hp : d.rows = p) (hq : d.cols = q)
    (ia : a = d.src ∨ Indep a d.range) :
    ∃ m', scale k d a m = some m' ∧ Shows d.src m' (k • A) ∧ ∀ x ∉ d.range, m' x = m x := by
  obtain ⟨m', e, h1, h2⟩ := writes2 d
    (fun r c m => (do let x ← a.get m r c; d.set m r c (k * x)))
    (fun r c => k * nat A r c) m (by
      intro r hr c hc m' hm'
      rw [cell_of_others ia hr hc hm', hA.get (by omega) (by omega)]
      simp [d.set_eq m' hr hc])
  rw [hp, hq] at e
  refine ⟨m', ?_, Flat.shows_of hp hq h1 (fun i j => by rw [nat_fin]; rfl), h2⟩
  unfold scale
  rw [hA.1, hA.2.1]
  exact e

/-- **C26**, `m *= k`. -/
theorem C26_scale_in [CommRing K] (k : K) {p q : ℕ} {d : Flat} {m : Mem K} {A : Matrix (Fin p) (Fin q) K}
    (hA : Shows d.src m A) :
    ∃ m', d.scaleIn k m = some m' ∧ Shows d.src m' (k • A) ∧ ∀ x ∉ d.range, m' x = m x := by
  obtain ⟨m', e, h1, h2⟩ := writes (List.range (d.rows * d.cols)) (fun i => d.base + i)
    (fun i m => some (Function.update m (d.base + i) (m (d.base + i) * k)))
    (fun i => m (d.base + i) * k) m
    (List.nodup_map_iff_inj_on List.nodup_range |>.2 (fun i _ j _ h => by simpa using h))
    (fun i hi m' hm' => by rw [hm' (d.base + i) (fun j _ hne => by omega)])
  refine ⟨m', e, ⟨hA.1, hA.2.1, fun i j => ?_⟩, fun x hx => h2 x (fun i hi he => hx ?_)⟩
  · have hi : (i : ℕ) < d.rows := by have : d.rows = p := hA.1; omega
    have hj : (j : ℕ) < d.cols := by have : d.cols = q := hA.2.1; omega
    have h3 : d.get m i j = some (A i j) := hA.2.2 i j
    show d.get m' i j = _
    rw [d.get_eq m hi hj] at h3
    rw [d.get_eq m' hi hj, h1 _ (List.mem_range.2 (d.off_lt hi hj)), Option.some.inj h3, mul_comm]
    rfl
  · have := List.mem_range.1 hi
    exact ⟨by omega, by omega⟩

/-- **C26**, diagonal `add`/`sub` (any operation with `f 0 0 = 0`) into a diagonal matrix, in place or not. -/
theorem C26_diag_zip [CommRing K] (f : K → K → K) (hf : f 0 0 = 0) {p q : ℕ} {d a b : Diag} {m : Mem K}
    {A B : Matrix (Fin p) (Fin q) K} (hA : Shows a.src m A) (hB : Shows b.src m B) (hp : d.rows = p)
    (hq : d.cols = q) (ia : a = d ∨ Indep (a.src : Src K) d.range)
    (ib : b = d ∨ Indep (b.src : Src K) d.range) :
    ∃ m', zipDiag f d a b m = some m' ∧ Shows d.src m' (Matrix.of fun i j => f (A i j) (B i j)) ∧
      ∀ x ∉ d.range, m' x = m x := by
  have har : a.rows = p := hA.1
  have hac : a.cols = q := hA.2.1
  have hbr : b.rows = p := hB.1
  have hbc : b.cols = q := hB.2.1
  obtain ⟨m', e, h1, h2⟩ := writesDiag d (min p q)
    (fun i m => (do let x ← a.rd m i; let y ← b.rd m i; d.wr m i (f x y)))
    (fun i => f (m (a.base + i)) (m (b.base + i))) m (by omega) (by
      intro i hi m' hm'
      have hx : ∀ x, x ∉ d.range → m' x = m x := fun x hx => hm' x (fun j hj _ he =>
        hx (by rw [he]; exact ⟨by omega, by omega⟩))
      have hd : ∀ v : Diag, v.rows = p → v.cols = q → (v = d ∨ Indep (v.src : Src K) d.range) →
          v.rd m' i = some (m (v.base + i)) := by
        intro v hr hc hv
        rcases hv with rfl | hv
        · rw [v.rd_eq m' (by omega), hm' (v.base + i) (fun j _ hne => by omega)]
        · rw [Diag.rd_indep hv hx, v.rd_eq m (by omega)]
      rw [hd a har hac ia, hd b hbr hbc ib]
      simp [d.wr_eq m' (show i < min d.rows d.cols by omega)])
  refine ⟨m', by unfold zipDiag; rw [har, hac]; exact e, ⟨hp, hq, fun i j => ?_⟩, h2⟩
  have e1 := Diag.shows_nat hA i.2 j.2
  have e2 := Diag.shows_nat hB i.2 j.2
  rw [nat_fin] at e1 e2
  simp only [Diag.src, Diag.get, Matrix.of_apply, e1, e2]
  split_ifs with hij
  · rw [d.rd_eq m' (by omega), h1 _ (by omega)]
  · rw [hf]

/-- **C26**, diagonal `add`/`sub` into a general matrix. -/
theorem C26_diag_zip_general [CommRing K] (f : K → K → K) (hf : f 0 0 = 0) {p q : ℕ} {d : Flat} {a b : Diag}
    {m : Mem K} {A B : Matrix (Fin p) (Fin q) K} (hA : Shows a.src m A) (hB : Shows b.src m B)
    (hp : d.rows = p) (hq : d.cols = q) (ia : Indep (a.src : Src K) d.range)
    (ib : Indep (b.src : Src K) d.range) :
    ∃ m', zipDiagTo f d a b m = some m' ∧ Shows d.src m' (Matrix.of fun i j => f (A i j) (B i j)) ∧
      ∀ x ∉ d.range, m' x = m x := by
  have har : a.rows = p := hA.1
  have hac : a.cols = q := hA.2.1
  have hbr : b.rows = p := hB.1
  have hbc : b.cols = q := hB.2.1
  have hz : ∀ x, x ∉ d.range → d.setZero m x = m x := fun x hx => if_neg hx
  obtain ⟨m', e, h1, h3, h2⟩ := writesOnDiag d (min p q) (fun i m => (do
      let x ← a.rd m i
      let y ← b.rd m i
      d.set m i i (f x y))) (fun i => f (m (a.base + i)) (m (b.base + i))) (d.setZero m) (by omega)
      (by omega) (by
      intro i hi m' hm'
      have hx : ∀ x, x ∉ d.range → m' x = m x := fun x hx => (hm' x hx).trans (hz x hx)
      rw [Diag.rd_indep ia hx, Diag.rd_indep ib hx, a.rd_eq m (by omega), b.rd_eq m (by omega)]
      simp [d.set_eq m' (show i < d.rows by omega) (show i < d.cols by omega)])
  refine ⟨m', by unfold zipDiagTo; rw [har, hac]; exact e, ⟨hp, hq, fun i j => ?_⟩,
    fun x hx => (h2 x hx).trans (hz x hx)⟩
  have hi : (i : ℕ) < d.rows := by omega
  have hj : (j : ℕ) < d.cols := by omega
  have e1 := Diag.shows_nat hA i.2 j.2
  have e2 := Diag.shows_nat hB i.2 j.2
  rw [nat_fin] at e1 e2
  show d.get m' i j = _
  simp only [Matrix.of_apply, e1, e2]
  rw [d.get_eq m' hi hj]
  split_ifs with hij
  · rw [← hij, h1 _ (by omega)]
  · rw [h3 _ hi _ hj (Or.inl hij), hf]
    exact congrArg some (if_pos (d.mem_range hi hj))

/-- **C26**, `scale` of a diagonal matrix is the diagonal loop with both operands the same. -/
theorem C26_diag_scale [CommRing K] (k : K) {p q : ℕ} {d a : Diag} {m : Mem K}
    {A : Matrix (Fin p) (Fin q) K} (hA : Shows a.src m A) (hp : d.rows = p) (hq : d.cols = q)
    (ia : a = d ∨ Indep (a.src : Src K) d.range) :
    ∃ m', scaleDiag k d a m = some m' ∧ Shows d.src m' (k • A) ∧ ∀ x ∉ d.range, m' x = m x := by
  obtain ⟨m', e, h1, h2⟩ := C26_diag_zip (fun x _ => k * x) (mul_zero k) hA hA hp hq ia ia
  refine ⟨m', ?_, h1, h2⟩
  rw [← e]
  refine forN_congr (fun i hi m => ?_)
  cases h : a.rd m i <;> simp

/-- **C26**, `scale` of a diagonal matrix into a general one. -/
theorem C26_diag_scale_general [CommRing K] (k : K) {p q : ℕ} {d : Flat} {a : Diag} {m : Mem K}
    {A : Matrix (Fin p) (Fin q) K} (hA : Shows a.src m A) (hp : d.rows = p) (hq : d.cols = q)
    (ia : Indep (a.src : Src K) d.range) :
    ∃ m', scaleDiagTo k d a m = some m' ∧ Shows d.src m' (k • A) ∧ ∀ x ∉ d.range, m' x = m x := by
  obtain ⟨m', e, h1, h2⟩ := C26_diag_zip_general (fun x _ => k * x) (mul_zero k) hA hA hp hq ia ia
  refine ⟨m', ?_, h1, h2⟩
  rw [← e]
  refine forN_congr (fun i hi m => ?_)
  cases h : a.rd m i <;> simp

/-- **C26**, transposition by copying any matrix into separate storage. -/
theorem C26_transpose_copy [CommRing K] {p q : ℕ} {d : Flat} {a : Src K} {m : Mem K}
    {A : Matrix (Fin p) (Fin q) K} (hA : Shows a m A) (hq : d.rows = q) (hp : d.cols = p)
    (ia : Indep a d.range) :
    ∃ m', copyTxpose d a m = some m' ∧ Shows d.src m' A.transpose ∧ ∀ x ∉ d.range, m' x = m x := by
  obtain ⟨m', e, h1, h2⟩ := writes2' d
    (fun c r m => (do let x ← a.get m c r; d.set m r c x)) (fun r c => nat A c r) m (by
      intro r hr c hc m' hm'
      rw [indep_of_others ia hm', hA.get (by omega) (by omega)]
      simp [d.set_eq m' hr hc])
  exact ⟨m', e, Flat.shows_of hq hp h1 (fun i j => by rw [nat_fin]; rfl), h2⟩

/-- **C26**, the same with the loops of the flat-to-flat overload. -/
theorem C26_transpose_flat [CommRing K] {p q : ℕ} {d a : Flat} {m : Mem K}
    {A : Matrix (Fin p) (Fin q) K} (hA : Shows a.src m A) (hq : d.rows = q) (hp : d.cols = p)
    (ia : Disjoint a.range d.range) :
    ∃ m', txposeCopy d a m = some m' ∧ Shows d.src m' A.transpose ∧ ∀ x ∉ d.range, m' x = m x := by
  have hap : a.rows = p := hA.1
  have haq : a.cols = q := hA.2.1
  obtain ⟨m', e, h1, h2⟩ := writes2' d
    (fun c r m => (do let x ← a.get m c r; d.set m r c x)) (fun r c => nat A c r) m (by
      intro r hr c hc m' hm'
      have h3 := indep_of_others (a.indep d.range ia) hm'
      simp only [Flat.src] at h3
      have h4 : a.get m c r = some (nat A c r) := hA.get (by omega) (by omega)
      rw [h3, h4]
      simp [d.set_eq m' hr hc])
  rw [hp, hq] at e
  refine ⟨m', ?_, Flat.shows_of hq hp h1 (fun i j => by rw [nat_fin]; rfl), h2⟩
  unfold txposeCopy
  rw [hap, haq]
  exact e

/-- **C26**, in-place transposition of a square matrix. -/
theorem C26_transpose_in_place {n : ℕ} {d : Flat} {m : Mem K} {A : Matrix (Fin n) (Fin n) K}
    (hA : Shows d.src m A) :
    ∃ m', txposeInPlace d m = some m' ∧ Shows d.src m' A.transpose ∧ ∀ x ∉ d.range, m' x = m x := by
  have hr : d.rows = n := hA.1
  have hc : d.cols = n := hA.2.1
  obtain ⟨m', e, h⟩ := forN_inv (n := d.rows) (f := fun r m => forN r (fun c m => d.swap m r c) m) (s := m)
    (fun r m' => Swapped d m m' (fun i j => i < r ∧ j < r))
    ⟨fun i _ j _ => ⟨fun h => by omega, fun _ => rfl⟩, fun _ _ => rfl⟩
    (by
      intro r hr' m₁ h₁
      obtain ⟨m₂, e₂, h₂⟩ := forN_inv (n := r) (f := fun c m => d.swap m r c) (s := m₁)
        (fun c m' => Swapped d m m' (fun i j => (i < r ∧ j < r) ∨ (i = r ∧ j < c) ∨ (j = r ∧ i < c)))
        (h₁.congr (fun i _ j _ _ => by omega))
        (by
          intro c hc' m₃ h₃
          obtain ⟨m₄, e₄, h₄⟩ := swap_step d (by omega) h₃ hr' (by omega : c < d.rows) (by omega)
            (by omega) (by omega)
          exact ⟨m₄, e₄, h₄.congr (fun i _ j _ _ => by omega)⟩)
      exact ⟨m₂, e₂, h₂.congr (fun i _ j _ _ => by omega)⟩)
  refine ⟨m', e, ⟨hr, hc, fun i j => ?_⟩, h.2⟩
  have h3 : d.get m j i = some (A j i) := hA.2.2 j i
  rw [d.get_eq m (by omega) (by omega)] at h3
  show d.get m' i j = _
  rw [d.get_eq m' (by omega) (by omega), (h.1 i (by omega) j (by omega)).1 (by omega), h3]
  rfl

/-- **C26**, `transpose_square_matrix`. -/
theorem C26_transpose_square {n : ℕ} {d : Flat} {m : Mem K} {A : Matrix (Fin n) (Fin n) K}
    (hA : Shows d.src m A) :
    ∃ m', txposeSquare d m = some m' ∧ Shows d.src m' A.transpose ∧ ∀ x ∉ d.range, m' x = m x := by
  have hr : d.rows = n := hA.1
  have hc : d.cols = n := hA.2.1
  obtain ⟨m', e, h⟩ := forN_inv (n := d.rows)
    (f := fun i m => forN (d.rows - (i + 1)) (fun k m => d.swap m i (i + 1 + k)) m) (s := m)
    (fun r m' => Swapped d m m' (fun i j => i < r ∨ j < r))
    ⟨fun i _ j _ => ⟨fun h => by omega, fun _ => rfl⟩, fun _ _ => rfl⟩
    (by
      intro r hr' m₁ h₁
      obtain ⟨m₂, e₂, h₂⟩ := forN_inv (n := d.rows - (r + 1)) (f := fun k m => d.swap m r (r + 1 + k)) (s := m₁)
        (fun c m' => Swapped d m m' (fun i j => (i < r ∨ j < r) ∨ (i = r ∧ j < r + 1 + c) ∨
          (j = r ∧ i < r + 1 + c)))
        (h₁.congr (fun i _ j _ _ => by omega))
        (by
          intro c hc' m₃ h₃
          obtain ⟨m₄, e₄, h₄⟩ := swap_step d (by omega) h₃ hr' (by omega : r + 1 + c < d.rows) (by omega)
            (by omega) (by omega)
          exact ⟨m₄, e₄, h₄.congr (fun i _ j _ _ => by omega)⟩)
      exact ⟨m₂, e₂, h₂.congr (fun i _ j _ _ => by omega)⟩)
  refine ⟨m', e, ⟨hr, hc, fun i j => ?_⟩, h.2⟩
  have h3 : d.get m j i = some (A j i) := hA.2.2 j i
  rw [d.get_eq m (by omega) (by omega)] at h3
  show d.get m' i j = _
  rw [d.get_eq m' (by omega) (by omega), (h.1 i (by omega) j (by omega)).1 (by omega), h3]
  rfl

/-- **C26**, the transposed view `as_transpose()` of a matrix, without copying. -/
theorem C26_transpose_view {p q : ℕ} {d : Flat} {m : Mem K} {A : Matrix (Fin p) (Fin q) K}
    (hA : Shows d.src m A) : Shows d.asTranspose.src m A.transpose ∧ d.asTranspose.range = d.range := by
  refine ⟨⟨hA.2.1, hA.1, fun i j => ?_⟩, by ext x; simp [Flat.range, Flat.asTranspose, Nat.mul_comm]⟩
  have h := hA.2.2 j i
  rw [Matrix.transpose_apply, ← h]
  simp only [Flat.src, Flat.get, d.off_transpose]
  simp only [Flat.asTranspose, Nat.mul_comm d.cols]

/-- **C26**, transposition of a diagonal matrix, in place or not. -/
theorem C26_transpose_diag [CommRing K] {p q : ℕ} {d a : Diag} {m : Mem K} {A : Matrix (Fin p) (Fin q) K}
    (hA : Shows a.src m A) (hq : d.rows = q) (hp : d.cols = p)
    (ia : a.base = d.base ∨ Indep (a.src : Src K) d.range) :
    ∃ m', diagTxpose d a m = some m' ∧ Shows d.src m' A.transpose ∧ ∀ x ∉ d.range, m' x = m x := by
  have har : a.rows = p := hA.1
  have hac : a.cols = q := hA.2.1
  obtain ⟨m', e, h1, h2⟩ := writesDiag d (min p q)
    (fun i m => (do let x ← a.rd m i; d.wr m i x)) (fun i => m (a.base + i)) m (by omega) (by
      intro i hi m' hm'
      have hx : ∀ x, x ∉ d.range → m' x = m x := fun x hx => hm' x (fun j hj _ he =>
        hx (by rw [he]; exact ⟨by omega, by omega⟩))
      have : a.rd m' i = some (m (a.base + i)) := by
        rcases ia with h | h
        · rw [a.rd_eq m' (by omega), hm' (a.base + i) (fun j _ hne => by omega)]
        · rw [Diag.rd_indep h hx, a.rd_eq m (by omega)]
      rw [this]
      simp [d.wr_eq m' (show i < min d.rows d.cols by omega)])
  refine ⟨m', by unfold diagTxpose; rw [har, hac]; exact e, ⟨hq, hp, fun i j => ?_⟩, h2⟩
  have e1 := Diag.shows_nat hA j.2 i.2
  rw [nat_fin] at e1
  simp only [Diag.src, Diag.get, Matrix.transpose_apply, e1]
  by_cases hij : (i : ℕ) = j
  · rw [if_pos hij, if_pos hij.symm, d.rd_eq m' (by omega), h1 _ (by omega), hij]
  · rw [if_neg hij, if_neg (Ne.symm hij)]

/-- **C26**, comparison through iterators decides equality of the elements. -/
theorem C26_eq [CommRing K] [DecidableEq K] {p q : ℕ} {a b : Src K} {m : Mem K}
    {A B : Matrix (Fin p) (Fin q) K} (hA : Shows a m A) (hB : Shows b m B) :
    opEq a.rows a.cols b.rows b.cols (mtxEqual a b m) = some (decide (A = B)) := by
  rw [opEq, if_neg (by rw [hA.1, hA.2.1, hB.1, hB.2.1]; simp), mtxEqual, hA.1, hA.2.1, hB.2.1,
    eqLoop_true (f := fun i => nat A (i / q) (i % q)) (g := fun i => nat B (i / q) (i % q))]
  · congr 1
    rw [decide_eq_decide]
    constructor
    · intro h
      ext i j
      have hlt : (i : ℕ) * q + j < p * q := by
        calc (i : ℕ) * q + j < i * q + q := by omega
          _ = (i + 1) * q := by ring
          _ ≤ p * q := Nat.mul_le_mul_right _ i.2
      have := h _ (List.mem_range.2 hlt)
      have hq : 0 < q := by omega
      rw [Nat.add_comm, Nat.add_mul_div_right _ _ hq, Nat.div_eq_of_lt j.2, Nat.add_mul_mod_self_right,
        Nat.mod_eq_of_lt j.2, Nat.zero_add, nat_fin, nat_fin] at this
      exact this
    · rintro rfl i _
      rfl
  · intro i hi
    have hi := List.mem_range.1 hi
    have hq : 0 < q := Nat.pos_of_ne_zero (by rintro rfl; simp at hi)
    exact hA.get ((Nat.div_lt_iff_lt_mul hq).2 hi) (Nat.mod_lt _ hq)
  · intro i hi
    have hi := List.mem_range.1 hi
    have hq : 0 < q := Nat.pos_of_ne_zero (by rintro rfl; simp at hi)
    exact hB.get ((Nat.div_lt_iff_lt_mul hq).2 hi) (Nat.mod_lt _ hq)

/-- **C26**, matrices of different dimensions compare unequal. -/
theorem C26_eq_dims (ra ca rb cb : ℕ) (e : Option Bool) (h : (ra, ca) ≠ (rb, cb)) :
    opEq ra ca rb cb e = some false := by
  refine if_pos ?_
  by_contra hn
  push Not at hn
  exact h (by rw [hn.1, hn.2])

/-- **C26**, the bare-array comparison of two flat matrices of one layout. -/
theorem C26_eq_flat [DecidableEq K] {p q : ℕ} {a b : Flat} {m : Mem K}
    {A B : Matrix (Fin p) (Fin q) K} (hA : Shows a.src m A) (hB : Shows b.src m B)
    (hl : a.rowMajor = b.rowMajor) :
    opEq a.rows a.cols b.rows b.cols (flatEqual a b m) = some (decide (A = B)) := by
  have har : a.rows = p := hA.1
  have hac : a.cols = q := hA.2.1
  have hbr : b.rows = p := hB.1
  have hbc : b.cols = q := hB.2.1
  have hoff : ∀ r c, b.off r c = a.off r c := by
    intro r c
    simp [Flat.off, hl, har, hac, hbr, hbc]
  rw [opEq, if_neg (by rw [har, hac, hbr, hbc]; simp), flatEqual,
    eqLoop_true (f := fun i => m (a.base + i)) (g := fun i => m (b.base + i))]
  · congr 1
    rw [decide_eq_decide]
    constructor
    · intro h
      ext i j
      have h1 : a.get m i j = some (A i j) := hA.2.2 i j
      have h2 : b.get m i j = some (B i j) := hB.2.2 i j
      have hi : (i : ℕ) < a.rows := by omega
      have hj : (j : ℕ) < a.cols := by omega
      rw [a.get_eq m hi hj] at h1
      rw [b.get_eq m (by omega) (by omega), hoff] at h2
      have := h _ (List.mem_range.2 (a.off_lt hi hj))
      rw [Option.some.inj h1, Option.some.inj h2] at this
      exact this
    · rintro rfl i hi
      have hi := List.mem_range.1 hi
      obtain ⟨r, hr, c, hc, rfl⟩ := a.off_surj hi
      have h1 : a.get m r c = some (A ⟨r, by omega⟩ ⟨c, by omega⟩) := hA.2.2 ⟨r, by omega⟩ ⟨c, by omega⟩
      have h2 : b.get m r c = some (A ⟨r, by omega⟩ ⟨c, by omega⟩) := hB.2.2 ⟨r, by omega⟩ ⟨c, by omega⟩
      rw [a.get_eq m hr hc] at h1
      rw [b.get_eq m (by omega) (by omega), hoff] at h2
      exact Option.some.inj (h1.trans h2.symm)
  · intro i _
    rfl
  · intro i hi
    have hi := List.mem_range.1 hi
    rw [har, hac] at hi
    rw [hbr, hbc, if_pos hi]

/-- **C26**, comparison of diagonal matrices. -/
theorem C26_eq_diag [CommRing K] [DecidableEq K] {p q : ℕ} {a b : Diag} {m : Mem K}
    {A B : Matrix (Fin p) (Fin q) K} (hA : Shows a.src m A) (hB : Shows b.src m B) :
    opEq a.rows a.cols b.rows b.cols (diagEqual a b m) = some (decide (A = B)) := by
  have har : a.rows = p := hA.1
  have hac : a.cols = q := hA.2.1
  have hbr : b.rows = p := hB.1
  have hbc : b.cols = q := hB.2.1
  rw [opEq, if_neg (by rw [har, hac, hbr, hbc]; simp), diagEqual,
    eqLoop_true (f := fun i => m (a.base + i)) (g := fun i => m (b.base + i))]
  · congr 1
    rw [decide_eq_decide]
    constructor
    · intro h
      ext i j
      have e1 := Diag.shows_nat hA i.2 j.2
      have e2 := Diag.shows_nat hB i.2 j.2
      rw [nat_fin] at e1 e2
      rw [e1, e2]
      split_ifs with hij
      · exact h i (List.mem_range.2 (by omega))
      · rfl
    · rintro rfl i hi
      have hi := List.mem_range.1 hi
      have e1 := Diag.shows_nat hA (by omega : i < p) (by omega : i < q)
      have e2 := Diag.shows_nat hB (by omega : i < p) (by omega : i < q)
      rw [if_pos rfl] at e1 e2
      exact e1.symm.trans e2
  · intro i hi
    have hi := List.mem_range.1 hi
    exact a.rd_eq m hi
  · intro i hi
    have hi := List.mem_range.1 hi
    exact b.rd_eq m (by omega)

/-- **C26**, comparison of permutation matrices. -/
theorem C26_eq_perm [CommRing K] [Nontrivial K] {n : ℕ} {a b : Perm} {m : Mem K}
    {A B : Matrix (Fin n) (Fin n) K} (ha : a.Valid) (hA : Shows a.asSrc m A)
    (hB : Shows b.asSrc m B) :
    ∃ e, opEq a.n a.n b.n b.n (permEqual a b) = some e ∧ (e = true ↔ A = B) := by
  have han : a.n = n := hA.1
  have hbn : b.n = n := hB.1
  refine ⟨decide (∀ i ∈ List.range a.n, a.src i = b.src i), ?_, ?_⟩
  · rw [opEq, if_neg (by rw [han, hbn]; simp), permEqual, eqLoop_true (f := a.src) (g := b.src)]
    · intro i hi
      exact Perm.at_eq _ (List.mem_range.1 hi)
    · intro i hi
      have := List.mem_range.1 hi
      exact Perm.at_eq _ (by omega)
  · rw [decide_eq_true_iff]
    constructor
    · intro h
      ext i j
      have e1 := Perm.shows_nat hA i.2 j.2
      have e2 := Perm.shows_nat hB i.2 j.2
      rw [nat_fin] at e1 e2
      rw [e1, e2, h i (List.mem_range.2 (by omega))]
    · rintro rfl i hi
      have hi := List.mem_range.1 hi
      have hs := (ha i hi).1
      have e1 := Perm.shows_nat hA (by omega : i < n) (by omega : a.src i < n)
      have e2 := Perm.shows_nat hB (by omega : i < n) (by omega : a.src i < n)
      rw [e1, if_pos rfl] at e2
      by_contra hne
      rw [if_neg (Ne.symm hne)] at e2
      exact one_ne_zero e2

/-! ### C27 -/

theorem idLoop_eq [One K] (v : Flat) (i : ℕ) (m : Mem K) (x : ℕ) :
    ((∃ k, x = v.base + i + k * (v.cols + 1)) ∧ x < v.base + v.rows * v.cols → v.idLoop i m x = 1) ∧
    (¬ ((∃ k, x = v.base + i + k * (v.cols + 1)) ∧ x < v.base + v.rows * v.cols) → v.idLoop i m x = m x) := by
  induction h : v.rows * v.cols - i using Nat.strong_induction_on generalizing i m with
  | _ n ih =>
    rw [Flat.idLoop]
    split
    · rename_i hlt
      have := ih _ (by omega) (i + (v.cols + 1)) (Function.update m (v.base + i) 1) rfl
      have hiff : ((∃ k, x = v.base + i + k * (v.cols + 1)) ↔
          x = v.base + i ∨ ∃ k, x = v.base + (i + (v.cols + 1)) + k * (v.cols + 1)) := by
        constructor
        · rintro ⟨k, rfl⟩
          cases k with
          | zero => exact Or.inl (by ring)
          | succ k => exact Or.inr ⟨k, by ring⟩
        · rintro (rfl | ⟨k, rfl⟩)
          · exact ⟨0, by ring⟩
          · exact ⟨k + 1, by ring⟩
      rw [hiff]
      constructor
      · rintro ⟨h1, h2⟩
        by_cases hk : ∃ k, x = v.base + (i + (v.cols + 1)) + k * (v.cols + 1)
        · exact this.1 ⟨hk, h2⟩
        · rw [this.2 (fun h => hk h.1)]
          rcases h1 with rfl | h1
          · simp
          · exact absurd h1 hk
      · intro hn
        have h1 : ¬ ((∃ k, x = v.base + (i + (v.cols + 1)) + k * (v.cols + 1)) ∧
            x < v.base + v.rows * v.cols) := fun h => hn ⟨Or.inr h.1, h.2⟩
        rw [this.2 h1, Function.update_of_ne]
        rintro rfl
        exact hn ⟨Or.inl rfl, by omega⟩
    · rename_i hge
      refine ⟨?_, fun _ => rfl⟩
      rintro ⟨⟨k, rfl⟩, h2⟩
      omega

/-- **C27**: `set_identity` writes only inside the matrix, for every shape and layout. -/
theorem C27_frame [Zero K] [One K] (v : Flat) (m : Mem K) (x : ℕ) (hx : x ∉ v.range) :
    v.setIdentity m x = m x := by
  rw [Flat.setIdentity, (idLoop_eq v 0 (v.setZero m) x).2]
  · exact if_neg hx
  · rintro ⟨⟨k, hk⟩, h⟩
    exact hx ⟨by omega, h⟩

theorem setIdentity_elem [MonoidWithZero K] (v : Flat) (m : Mem K) {r c : ℕ} (hr : r < v.rows)
    (hc : c < v.cols) :
    ((∃ k, v.off r c = k * (v.cols + 1)) → v.get (v.setIdentity m) r c = some 1) ∧
    (¬ (∃ k, v.off r c = k * (v.cols + 1)) → v.get (v.setIdentity m) r c = some 0) := by
  have hlt := v.off_lt hr hc
  rw [v.get_eq _ hr hc, Flat.setIdentity]
  have := idLoop_eq v 0 (v.setZero m) (v.base + v.off r c)
  constructor
  · rintro ⟨k, hk⟩
    rw [this.1 ⟨⟨k, by omega⟩, by omega⟩]
  · intro h
    rw [this.2 (fun h' => h (by obtain ⟨⟨k, hk⟩, -⟩ := h'; exact ⟨k, by omega⟩))]
    exact congrArg some (if_pos (v.mem_range hr hc))

/-- **C27**, exactly the shapes for which `set_identity` yields ones on the diagonal and zeros elsewhere: row
major, at most one more row than columns; column major, square or trivial. -/
theorem C27_iff [CommRing K] [Nontrivial K] (v : Flat) (m : Mem K) :
    Shows v.src (v.setIdentity m)
        (Matrix.of fun (i : Fin v.rows) (j : Fin v.cols) => if (i : ℕ) = j then (1 : K) else 0) ↔
      (v.cols = 0 ∨ if v.rowMajor then v.rows ≤ v.cols + 1
        else v.rows = v.cols ∨ v.rows ≤ 1 ∨ (v.cols = 1 ∧ v.rows = 2)) := by
  have key : Shows v.src (v.setIdentity m)
        (Matrix.of fun (i : Fin v.rows) (j : Fin v.cols) => if (i : ℕ) = j then (1 : K) else 0) ↔
      ∀ r < v.rows, ∀ c < v.cols, ((∃ k, v.off r c = k * (v.cols + 1)) ↔ r = c) := by
    constructor
    · intro h r hr c hc
      have h1 := h.2.2 ⟨r, hr⟩ ⟨c, hc⟩
      have h2 := setIdentity_elem v m hr hc
      change v.get (v.setIdentity m) r c = some (if r = c then 1 else 0) at h1
      constructor
      · intro hk
        rw [h2.1 hk] at h1
        by_contra hne
        rw [if_neg hne] at h1
        exact one_ne_zero (Option.some.inj h1)
      · rintro rfl
        by_contra hk
        rw [h2.2 hk, if_pos rfl] at h1
        exact zero_ne_one (Option.some.inj h1)
    · intro h
      refine ⟨rfl, rfl, fun i j => ?_⟩
      have h2 := setIdentity_elem v m i.2 j.2
      show v.get (v.setIdentity m) i j = some (if (i : ℕ) = j then 1 else 0)
      split_ifs with hij
      · exact h2.1 ((h i i.2 j j.2).2 hij)
      · exact h2.2 (fun hk => hij ((h i i.2 j j.2).1 hk))
  rw [key]
  obtain ⟨base, R, C, lay⟩ := v
  cases lay with
  | true =>
    simp only [Flat.off, if_true]
    constructor
    · intro h
      by_contra hn
      push Not at hn
      obtain ⟨h0, h1⟩ := hn
      have := (h (C + 1) (by omega) 0 (by omega)).1 ⟨C, by ring⟩
      omega
    · intro h r hr c hc
      have h : R ≤ C + 1 := by omega
      constructor
      · rintro ⟨k, hk⟩
        have hkC : k < C := by
          by_contra hge
          have h1 : C * (C + 1) ≤ k * (C + 1) := Nat.mul_le_mul_right _ (by omega)
          have h2 : r * C + c < C * C + C := by
            have : r * C ≤ C * C := Nat.mul_le_mul_right _ (by omega)
            omega
          have h3 : C * (C + 1) = C * C + C := by ring
          omega
        have := div_mod_inj (a := r) (a' := k) hc hkC (by rw [hk]; ring)
        omega
      · rintro rfl
        exact ⟨r, by ring⟩
  | false =>
    simp only [Flat.off, Bool.false_eq_true, if_false]
    constructor
    · intro h
      by_contra hn
      push Not at hn
      obtain ⟨h0, h1, h2, h3⟩ := hn
      by_cases hC : C = 1
      · subst hC
        have := (h 2 (by have := h3 rfl; omega) 0 (by omega)).1 ⟨1, by ring⟩
        omega
      · have hlt : C + 1 < R * C := by
          have : 2 * C ≤ R * C := Nat.mul_le_mul_right _ (by omega)
          omega
        obtain ⟨r, hr, c, hc, he⟩ := (⟨0, R, C, false⟩ : Flat).off_surj hlt
        simp only [Flat.off, Bool.false_eq_true, if_false] at he hr hc
        have hrc := (h r hr c hc).1 ⟨1, by omega⟩
        subst hrc
        obtain ⟨k, hk⟩ := (h 1 (by omega) 1 (by omega)).2 rfl
        have hr1 : 1 ≤ r := by
          by_contra hz
          have : r = 0 := by omega
          subst this
          omega
        have hk1 : 1 ≤ k := by
          by_contra hz
          have : k = 0 := by omega
          subst this
          omega
        have e1 : 1 * R ≤ r * R := Nat.mul_le_mul_right _ hr1
        have e2 : 1 * (C + 1) ≤ k * (C + 1) := Nat.mul_le_mul_right _ hk1
        omega
    · rintro (h | rfl | h | ⟨rfl, rfl⟩) r hr c hc
      · omega
      · constructor
        · rintro ⟨k, hk⟩
          have hkC : k < R := by
            by_contra hge
            have h1 : R * (R + 1) ≤ k * (R + 1) := Nat.mul_le_mul_right _ (by omega)
            have h2 : (c + 1) * R ≤ R * R := Nat.mul_le_mul_right _ (by omega)
            have h3 : R * (R + 1) = R * R + R := by ring
            have h4 : (c + 1) * R = c * R + R := by ring
            omega
          have := div_mod_inj (a := c) (a' := k) hr hkC (by rw [hk]; ring)
          omega
        · rintro rfl
          exact ⟨r, by ring⟩
      · have hr0 : r = 0 := by omega
        have hR : R = 1 := by omega
        subst hr0 hR
        constructor
        · rintro ⟨k, hk⟩
          have : k = 0 := by
            by_contra hz
            have : 1 * (C + 1) ≤ k * (C + 1) := Nat.mul_le_mul_right _ (by omega)
            omega
          subst this
          omega
        · rintro rfl
          exact ⟨0, by ring⟩
      · have hc0 : c = 0 := by omega
        subst hc0
        constructor
        · rintro ⟨k, hk⟩
          omega
        · rintro rfl
          exact ⟨0, by ring⟩

/-- **C27**, square matrices of either layout. -/
theorem C27_square [CommRing K] [Nontrivial K] (v : Flat) (h : v.rows = v.cols) (m : Mem K) :
    Shows v.src (v.setIdentity m)
      (Matrix.of fun (i : Fin v.rows) (j : Fin v.cols) => if (i : ℕ) = j then (1 : K) else 0) := by
  rw [C27_iff]
  right
  split <;> omega

/-- **C27**, refuted: a row-major 3×1 and a column-major 2×3 matrix. -/
theorem C27_refuted [CommRing K] [Nontrivial K] (m : Mem K) :
    ¬ Shows (⟨0, 3, 1, true⟩ : Flat).src ((⟨0, 3, 1, true⟩ : Flat).setIdentity m)
      (Matrix.of fun (i : Fin 3) (j : Fin 1) => if (i : ℕ) = j then (1 : K) else 0) ∧
    ¬ Shows (⟨0, 2, 3, false⟩ : Flat).src ((⟨0, 2, 3, false⟩ : Flat).setIdentity m)
      (Matrix.of fun (i : Fin 2) (j : Fin 3) => if (i : ℕ) = j then (1 : K) else 0) := by
  constructor
  · exact fun h => absurd ((C27_iff (⟨0, 3, 1, true⟩ : Flat) m).1 h) (by simp)
  · exact fun h => absurd ((C27_iff (⟨0, 2, 3, false⟩ : Flat) m).1 h) (by simp)

/-- **C27**, diagonal matrices: every shape. -/
theorem C27_diag [CommRing K] (v : Diag) (m : Mem K) :
    Shows v.src (v.fill 1 m)
        (Matrix.of fun (i : Fin v.rows) (j : Fin v.cols) => if (i : ℕ) = j then (1 : K) else 0) ∧
      ∀ x ∉ v.range, v.fill 1 m x = m x := by
  refine ⟨⟨rfl, rfl, fun i j => ?_⟩, fun x hx => if_neg hx⟩
  simp only [Diag.src, Diag.get, Matrix.of_apply]
  split_ifs with h
  · rw [v.rd_eq _ (by omega)]
    exact congrArg some (if_pos ⟨by omega, by omega⟩)
  · rfl

/-! ### Concrete instances -/

example : ((txposeInPlace (⟨0, 3, 3, true⟩ : Flat) (fun x => (x : ℤ))).map
    (fun m => (List.range 9).map m)) = some [0, 3, 6, 1, 4, 7, 2, 5, 8] := by decide

example : (zipWith (· - ·) (⟨0, 2, 2, true⟩ : Flat) (⟨0, 2, 2, true⟩ : Flat).src
    (⟨4, 2, 2, false⟩ : Flat).src (fun x => (x : ℤ))).map (fun m => (List.range 4).map m)
      = some [-4, -5, -3, -4] := by decide

example : mtxEqual (⟨0, 2, 2, true⟩ : Flat).src (⟨0, 2, 2, false⟩ : Flat).src (fun x => (x : ℤ))
    = some false := by decide

end Geomc.Mtx
