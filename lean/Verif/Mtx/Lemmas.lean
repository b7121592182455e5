import Verif.Mtx.Model
import Mathlib.Algebra.BigOperators.Fin
import Mathlib.Data.Matrix.Mul
import Mathlib.Data.List.ProdSigma
import Mathlib.Tactic.Ring
import Mathlib.Tactic.Linarith

/-! # Loop and storage lemmas for the matrix model -/

namespace Geomc.Mtx

variable {K S : Type}

theorem forN_zero (f : ℕ → S → Option S) (s : S) : forN 0 f s = some s := rfl

theorem forN_succ (n : ℕ) (f : ℕ → S → Option S) (s : S) :
    forN (n + 1) f s = (forN n f s).bind (f n) := by
  simp [forN, List.range_succ, List.foldlM_append]

/-- Loop rule. -/
theorem forN_inv {n : ℕ} {f : ℕ → S → Option S} {s : S} (P : ℕ → S → Prop) (h0 : P 0 s)
    (hs : ∀ i < n, ∀ s, P i s → ∃ s', f i s = some s' ∧ P (i + 1) s') :
    ∃ s', forN n f s = some s' ∧ P n s' := by
  induction n with
  | zero => exact ⟨s, rfl, h0⟩
  | succ n ih =>
    obtain ⟨s', e, h⟩ := ih (fun i hi => hs i (by omega))
    obtain ⟨s'', e', h'⟩ := hs n (by omega) s' h
    exact ⟨s'', by rw [forN_succ, e]; exact e', h'⟩

/-- Two nested loops are one loop over the pairs. -/
theorem forN_forN (R C : ℕ) (f : ℕ → ℕ → S → Option S) (s : S) :
    forN R (fun r s => forN C (f r) s) s
      = (List.range R ×ˢ List.range C).foldlM (fun s p => f p.1 p.2 s) s := by
  induction R generalizing s with
  | zero => rfl
  | succ R ih =>
    rw [forN_succ, ih, List.range_succ]
    simp only [SProd.sprod, List.product]
    rw [List.flatMap_append, List.foldlM_append]
    simp only [List.flatMap_cons, List.flatMap_nil, List.append_nil, List.foldlM_map]
    rfl

theorem forN_eq (n : ℕ) (f : ℕ → S → Option S) (s : S) :
    forN n f s = (List.range n).foldlM (fun s i => f i s) s := rfl

/-- A loop which writes `g i` at distinct addresses `addr i`, each value depending only on memory that the
other iterations leave alone. -/
theorem writes {ι : Type} (l : List ι) (addr : ι → ℕ) (step : ι → Mem K → Option (Mem K)) (g : ι → K)
    (m : Mem K) (hnd : (l.map addr).Nodup)
    (hval : ∀ i ∈ l, ∀ m' : Mem K, (∀ x, (∀ j ∈ l, j ≠ i → x ≠ addr j) → m' x = m x) →
      step i m' = some (Function.update m' (addr i) (g i))) :
    ∃ m', l.foldlM (fun s i => step i s) m = some m' ∧ (∀ i ∈ l, m' (addr i) = g i) ∧
      ∀ x, (∀ i ∈ l, x ≠ addr i) → m' x = m x := by
  suffices H : ∀ (l₁ l₂ : List ι) (m₁ : Mem K), l = l₁ ++ l₂ → (∀ i ∈ l₁, m₁ (addr i) = g i) →
      (∀ x, (∀ i ∈ l₁, x ≠ addr i) → m₁ x = m x) →
      ∃ m', l₂.foldlM (fun s i => step i s) m₁ = some m' ∧ (∀ i ∈ l, m' (addr i) = g i) ∧
        ∀ x, (∀ i ∈ l, x ≠ addr i) → m' x = m x from
    H [] l m rfl (by simp) (by simp)
  intro l₁ l₂
  induction l₂ generalizing l₁ with
  | nil =>
    intro m₁ hl h1 h2
    refine ⟨m₁, rfl, ?_, ?_⟩ <;> simpa [hl] using ‹_›
  | cons i l₂ ih =>
    intro m₁ hl h1 h2
    have hi : i ∈ l := by simp [hl]
    rw [hl, List.map_append, List.map_cons, List.nodup_append] at hnd
    obtain ⟨-, hnd2, hd⟩ := hnd
    have hd1 : ∀ j ∈ l₁, addr j ≠ addr i := fun j hj =>
      hd (addr j) (List.mem_map_of_mem hj) (addr i) (by simp)
    have := hval i hi m₁ (fun x hx => h2 x (fun j hj => by
      refine hx j (by simp [hl, hj]) ?_
      rintro rfl
      exact hd1 j hj rfl))
    rw [List.foldlM_cons, this]
    refine ih (l₁ ++ [i]) _ (by simp [hl]) ?_ ?_
    · intro j hj
      simp only [List.mem_append, List.mem_singleton] at hj
      rcases hj with hj | rfl
      · rw [Function.update_of_ne (hd1 j hj)]
        exact h1 j hj
      · simp
    · intro x hx
      rw [Function.update_of_ne (hx i (by simp))]
      exact h2 x (fun j hj => hx j (by simp [hj]))

/-! ### Flat views -/

/-- The addresses of a flat matrix. -/
def Flat.range (v : Flat) : Set ℕ := {x | v.base ≤ x ∧ x < v.base + v.rows * v.cols}

/-- The addresses of a diagonal matrix. -/
def Diag.range (v : Diag) : Set ℕ := {x | v.base ≤ x ∧ x < v.base + min v.rows v.cols}

theorem Flat.off_lt (v : Flat) {r c : ℕ} (hr : r < v.rows) (hc : c < v.cols) :
    v.off r c < v.rows * v.cols := by
  unfold Flat.off
  split
  · calc r * v.cols + c < r * v.cols + v.cols := by omega
      _ = (r + 1) * v.cols := by ring
      _ ≤ v.rows * v.cols := Nat.mul_le_mul_right _ hr
  · calc c * v.rows + r < c * v.rows + v.rows := by omega
      _ = (c + 1) * v.rows := by ring
      _ ≤ v.cols * v.rows := Nat.mul_le_mul_right _ hc
      _ = _ := by ring

theorem div_mod_inj {n a b a' b' : ℕ} (hb : b < n) (hb' : b' < n) (h : a * n + b = a' * n + b') :
    a = a' ∧ b = b' := by
  have hn : 0 < n := by omega
  have h1 : (a * n + b) / n = (a' * n + b') / n := by rw [h]
  have h2 : (a * n + b) % n = (a' * n + b') % n := by rw [h]
  rw [Nat.add_comm (a * n), Nat.add_comm (a' * n), Nat.add_mul_div_right _ _ hn,
    Nat.add_mul_div_right _ _ hn, Nat.div_eq_of_lt hb, Nat.div_eq_of_lt hb'] at h1
  rw [Nat.add_comm (a * n), Nat.add_comm (a' * n), Nat.add_mul_mod_self_right,
    Nat.add_mul_mod_self_right, Nat.mod_eq_of_lt hb, Nat.mod_eq_of_lt hb'] at h2
  omega

theorem Flat.off_inj (v : Flat) {r c r' c' : ℕ} (hr : r < v.rows) (hc : c < v.cols) (hr' : r' < v.rows)
    (hc' : c' < v.cols) (h : v.off r c = v.off r' c') : r = r' ∧ c = c' := by
  unfold Flat.off at h
  split at h
  · exact div_mod_inj hc hc' h
  · exact (div_mod_inj hr hr' h).symm

/-- Every address of the matrix is the address of an element. -/
theorem Flat.off_surj (v : Flat) {i : ℕ} (hi : i < v.rows * v.cols) :
    ∃ r < v.rows, ∃ c < v.cols, v.off r c = i := by
  have hrc : 0 < v.rows * v.cols := by omega
  have h0 := Nat.pos_of_mul_pos_right hrc
  have h1 := Nat.pos_of_mul_pos_left hrc
  unfold Flat.off
  split
  · exact ⟨i / v.cols, by rw [Nat.div_lt_iff_lt_mul ‹_›]; exact hi, i % v.cols, Nat.mod_lt _ ‹_›, by
      rw [Nat.mul_comm]; exact Nat.div_add_mod _ _⟩
  · exact ⟨i % v.rows, Nat.mod_lt _ ‹_›, i / v.rows, by
      rw [Nat.div_lt_iff_lt_mul ‹_›, Nat.mul_comm]; exact hi, by
      rw [Nat.mul_comm]; exact Nat.div_add_mod _ _⟩

theorem Flat.get_eq (v : Flat) (m : Mem K) {r c : ℕ} (hr : r < v.rows) (hc : c < v.cols) :
    v.get m r c = some (m (v.base + v.off r c)) := if_pos (v.off_lt hr hc)

theorem Flat.set_eq (v : Flat) (m : Mem K) {r c : ℕ} (hr : r < v.rows) (hc : c < v.cols) (x : K) :
    v.set m r c x = some (Function.update m (v.base + v.off r c) x) := if_pos (v.off_lt hr hc)

theorem Flat.mem_range (v : Flat) {r c : ℕ} (hr : r < v.rows) (hc : c < v.cols) :
    v.base + v.off r c ∈ v.range := ⟨by omega, by have := v.off_lt hr hc; omega⟩

/-- The contents of `s` do not depend on the memory in `D`. -/
def Indep (s : Src K) (D : Set ℕ) : Prop :=
  ∀ m m' : Mem K, (∀ x, x ∉ D → m x = m' x) → s.get m = s.get m'

theorem Flat.indep (v : Flat) (D : Set ℕ) (h : Disjoint v.range D) : Indep (v.src : Src K) D := by
  intro m m' hm
  funext r c
  simp only [Flat.src, Flat.get]
  split
  · rename_i hlt
    rw [hm]
    intro hx
    exact Set.disjoint_left.mp h (show v.base + v.off r c ∈ v.range from ⟨by omega, by omega⟩) hx
  · rfl

theorem Diag.indep [Zero K] (v : Diag) (D : Set ℕ) (h : Disjoint v.range D) :
    Indep (v.src : Src K) D := by
  intro m m' hm
  funext r c
  simp only [Diag.src, Diag.get, Diag.rd]
  split_ifs with h1 h2
  · rw [hm]
    intro hx
    exact Set.disjoint_left.mp h (show v.base + r ∈ v.range from ⟨by omega, by omega⟩) hx
  · rfl
  · rfl

theorem Perm.indep [Zero K] [One K] (p : Perm) (D : Set ℕ) : Indep (p.asSrc : Src K) D :=
  fun _ _ _ => rfl

/-- `s` is a `p × q` matrix with elements `A`. -/
def Shows (s : Src K) (m : Mem K) {p q : ℕ} (A : Matrix (Fin p) (Fin q) K) : Prop :=
  s.rows = p ∧ s.cols = q ∧ ∀ (i : Fin p) (j : Fin q), s.get m i j = some (A i j)

/-- Every flat matrix shows some matrix. -/
theorem Flat.shows (v : Flat) (m : Mem K) :
    Shows v.src m (fun (i : Fin v.rows) (j : Fin v.cols) => m (v.base + v.off i j)) :=
  ⟨rfl, rfl, fun i j => v.get_eq m i.2 j.2⟩

theorem Indep.shows {s : Src K} {D : Set ℕ} (hs : Indep s D) {m m' : Mem K} {p q : ℕ}
    {A : Matrix (Fin p) (Fin q) K} (h : ∀ x, x ∉ D → m' x = m x) (hA : Shows s m A) : Shows s m' A :=
  ⟨hA.1, hA.2.1, by rw [hs m' m h]; exact hA.2.2⟩

/-- Double loop over the elements of a flat destination, rows outside. -/
theorem writes2 (d : Flat) (step : ℕ → ℕ → Mem K → Option (Mem K)) (g : ℕ → ℕ → K) (m : Mem K)
    (hval : ∀ r < d.rows, ∀ c < d.cols, ∀ m' : Mem K,
      (∀ x, (∀ r' < d.rows, ∀ c' < d.cols, (r', c') ≠ (r, c) → x ≠ d.base + d.off r' c') → m' x = m x) →
      step r c m' = some (Function.update m' (d.base + d.off r c) (g r c))) :
    ∃ m', forN d.rows (fun r m => forN d.cols (step r) m) m = some m' ∧
      (∀ r < d.rows, ∀ c < d.cols, m' (d.base + d.off r c) = g r c) ∧ ∀ x ∉ d.range, m' x = m x := by
  rw [forN_forN]
  have hmem : ∀ p : ℕ × ℕ, p ∈ List.range d.rows ×ˢ List.range d.cols ↔ p.1 < d.rows ∧ p.2 < d.cols := by
    intro p
    exact (List.pair_mem_product (x := p.1) (y := p.2)).trans (by simp)
  obtain ⟨m', e, h1, h2⟩ := writes (List.range d.rows ×ˢ List.range d.cols)
    (fun p => d.base + d.off p.1 p.2) (fun p => step p.1 p.2) (fun p => g p.1 p.2) m
    (by
      refine (List.nodup_map_iff_inj_on (List.Nodup.product List.nodup_range List.nodup_range)).2 ?_
      intro p hp q hq h
      rw [hmem] at hp hq
      have := d.off_inj hp.1 hp.2 hq.1 hq.2 (by omega)
      exact Prod.ext this.1 this.2)
    (by
      intro p hp m' hm'
      rw [hmem] at hp
      refine hval p.1 hp.1 p.2 hp.2 m' (fun x hx => hm' x (fun q hq hne => ?_))
      rw [hmem] at hq
      exact hx q.1 hq.1 q.2 hq.2 hne)
  refine ⟨m', e, fun r hr c hc => h1 (r, c) ((hmem _).2 ⟨hr, hc⟩), fun x hx => h2 x (fun p hp he => hx ?_)⟩
  rw [hmem] at hp
  rw [he]
  exact d.mem_range hp.1 hp.2

/-- Double loop over the elements of a flat destination, columns outside. -/
theorem writes2' (d : Flat) (step : ℕ → ℕ → Mem K → Option (Mem K)) (g : ℕ → ℕ → K) (m : Mem K)
    (hval : ∀ r < d.rows, ∀ c < d.cols, ∀ m' : Mem K,
      (∀ x, (∀ r' < d.rows, ∀ c' < d.cols, (r', c') ≠ (r, c) → x ≠ d.base + d.off r' c') → m' x = m x) →
      step c r m' = some (Function.update m' (d.base + d.off r c) (g r c))) :
    ∃ m', forN d.cols (fun c m => forN d.rows (step c) m) m = some m' ∧
      (∀ r < d.rows, ∀ c < d.cols, m' (d.base + d.off r c) = g r c) ∧ ∀ x ∉ d.range, m' x = m x := by
  have hoff : ∀ r c, (⟨d.base, d.cols, d.rows, !d.rowMajor⟩ : Flat).off c r = d.off r c := by
    intro r c
    unfold Flat.off
    cases d.rowMajor <;> simp
  obtain ⟨m', e, h1, h2⟩ := writes2 ⟨d.base, d.cols, d.rows, !d.rowMajor⟩ step (fun c r => g r c) m
    (by
      intro c hc r hr m' hm'
      rw [hoff]
      refine hval r hr c hc m' (fun x hx => hm' x (fun c' hc' r' hr' hne => ?_))
      rw [hoff]
      exact hx r' hr' c' hc' (fun h => hne (by rw [Prod.mk.injEq] at h ⊢; exact h.symm)))
  refine ⟨m', e, fun r hr c hc => by rw [← hoff]; exact h1 c hc r hr, fun x hx => h2 x (fun h => hx ?_)⟩
  obtain ⟨ha, hb⟩ := h
  exact ⟨ha, by rw [Nat.mul_comm]; exact hb⟩

theorem Flat.get_indep (d : Flat) {m m' : Mem K} {r c : ℕ} (hr : r < d.rows) (hc : c < d.cols)
    (h : ∀ x, (∀ r' < d.rows, ∀ c' < d.cols, (r', c') ≠ (r, c) → x ≠ d.base + d.off r' c') → m' x = m x) :
    d.get m' r c = d.get m r c := by
  rw [d.get_eq m' hr hc, d.get_eq m hr hc, h]
  intro r' hr' c' hc' hne he
  have := d.off_inj hr hc hr' hc' (by omega)
  exact hne (by rw [this.1, this.2])

theorem indep_of_others {d : Flat} {s : Src K} (hs : Indep s d.range) {m m' : Mem K} {r c : ℕ}
    (h : ∀ x, (∀ r' < d.rows, ∀ c' < d.cols, (r', c') ≠ (r, c) → x ≠ d.base + d.off r' c') → m' x = m x) :
    s.get m' = s.get m :=
  hs m' m (fun x hx => h x (fun r' hr' c' hc' _ he => hx (he ▸ d.mem_range hr' hc')))

/-- The operand is the destination itself, or lives elsewhere: element `(r,c)` is still the old one. -/
theorem cell_of_others {d : Flat} {s : Src K} (hs : s = d.src ∨ Indep s d.range) {m m' : Mem K} {r c : ℕ}
    (hr : r < d.rows) (hc : c < d.cols)
    (h : ∀ x, (∀ r' < d.rows, ∀ c' < d.cols, (r', c') ≠ (r, c) → x ≠ d.base + d.off r' c') → m' x = m x) :
    s.get m' r c = s.get m r c := by
  rcases hs with rfl | hs
  · exact d.get_indep hr hc h
  · rw [indep_of_others hs h]

theorem inner_eq [Ring K] (a b : Src K) (m : Mem K) (n r c : ℕ) (init : K) (f g : ℕ → K)
    (ha : ∀ k < n, a.get m r k = some (f k)) (hb : ∀ k < n, b.get m k c = some (g k)) :
    inner a b m n r c init = some (init + ∑ k ∈ Finset.range n, f k * g k) := by
  induction n with
  | zero => simp [inner]
  | succ n ih =>
    have := ih (fun k hk => ha k (by omega)) (fun k hk => hb k (by omega))
    rw [inner] at this ⊢
    rw [List.range_succ, List.foldlM_append, this, Finset.sum_range_succ]
    simp [ha n (by omega), hb n (by omega), add_assoc]

/-- Reindexing a matrix by naturals. -/
def nat [Zero K] {p q : ℕ} (A : Matrix (Fin p) (Fin q) K) (i j : ℕ) : K :=
  if h : i < p ∧ j < q then A ⟨i, h.1⟩ ⟨j, h.2⟩ else 0

theorem nat_fin [Zero K] {p q : ℕ} (A : Matrix (Fin p) (Fin q) K) (i : Fin p) (j : Fin q) :
    nat A i j = A i j := by simp [nat, i.2, j.2]

theorem Shows.get [Zero K] {s : Src K} {m : Mem K} {p q : ℕ} {A : Matrix (Fin p) (Fin q) K}
    (h : Shows s m A) {r c : ℕ} (hr : r < p) (hc : c < q) : s.get m r c = some (nat A r c) := by
  have := h.2.2 ⟨r, hr⟩ ⟨c, hc⟩
  simpa [nat, hr, hc] using this

theorem nat_mul [Ring K] {p q s : ℕ} (A : Matrix (Fin p) (Fin q) K) (B : Matrix (Fin q) (Fin s) K)
    (i : Fin p) (j : Fin s) :
    ∑ k ∈ Finset.range q, nat A i k * nat B k j = (A * B) i j := by
  rw [Matrix.mul_apply, Finset.sum_range]
  exact Finset.sum_congr rfl (fun k _ => by rw [nat_fin, nat_fin])

/-- Assembling a `Shows` for a flat destination. -/
theorem Flat.shows_of {d : Flat} {m : Mem K} {p q : ℕ} (hp : d.rows = p) (hq : d.cols = q)
    {g : ℕ → ℕ → K} {A : Matrix (Fin p) (Fin q) K}
    (h : ∀ r < d.rows, ∀ c < d.cols, m (d.base + d.off r c) = g r c) (hg : ∀ (i : Fin p) (j : Fin q), g i j = A i j) :
    Shows d.src m A := by
  subst hp hq
  refine ⟨rfl, rfl, fun i j => ?_⟩
  show d.get m i j = _
  rw [d.get_eq m i.2 j.2, h _ i.2 _ j.2, hg]

end Geomc.Mtx
