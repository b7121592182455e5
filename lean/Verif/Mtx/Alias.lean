import Verif.Mtx.Elementwise

/-! # C28: destinations sharing storage with a source -/

namespace Geomc.Mtx

variable {K : Type}

/-! ### Helper lemmas -/

theorem copy_shows {p q : ℕ} {d a : Flat} {m : Mem K} {A : Matrix (Fin p) (Fin q) K}
    (hA : Shows a.src m A) (hp : d.rows = p) (hq : d.cols = q) (ia : Disjoint a.range d.range) :
    ∃ m', copy d a m = some m' ∧ Shows d.src m' A ∧ ∀ x ∉ d.range, m' x = m x := by
  have hap : a.rows = p := hA.1
  have haq : a.cols = q := hA.2.1
  have hget : ∀ {r c : ℕ} (hr : r < d.rows) (hc : c < d.cols),
      m (a.base + a.off r c) = A ⟨r, by omega⟩ ⟨c, by omega⟩ := by
    intro r c hr hc
    have h : a.get m r c = some (A ⟨r, by omega⟩ ⟨c, by omega⟩) := hA.2.2 ⟨r, by omega⟩ ⟨c, by omega⟩
    rw [a.get_eq m (by omega) (by omega)] at h
    exact Option.some.inj h
  have hout : ∀ i < a.rows * a.cols, a.base + i ∉ d.range := fun i hi h =>
    Set.disjoint_left.1 ia (⟨by omega, by omega⟩ : a.base + i ∈ a.range) h
  unfold copy
  split_ifs with hl
  · obtain ⟨m', e, h1, h2⟩ := writes (List.range (a.rows * a.cols)) (fun i => d.base + i)
      (fun i m => if i < d.rows * d.cols then some (Function.update m (d.base + i) (m (a.base + i))) else none)
      (fun i => m (a.base + i)) m
      (List.nodup_map_iff_inj_on List.nodup_range |>.2 (fun i _ j _ h => by simpa using h))
      (fun i hi m' hm' => by
        have hi := List.mem_range.1 hi
        rw [if_pos (by rw [hp, hq, ← hap, ← haq]; exact hi), hm' (a.base + i)]
        intro j hj _ he
        have hj := List.mem_range.1 hj
        refine hout i hi (he ▸ ⟨by omega, ?_⟩)
        rw [hp, hq, ← hap, ← haq]
        omega)
    refine ⟨m', e, ⟨hp, hq, fun i j => ?_⟩, fun x hx => h2 x (fun i hi he => hx ?_)⟩
    · have hoff : d.off i j = a.off i j := by simp [Flat.off, hl, hap, haq, hp, hq]
      show d.get m' i j = _
      rw [d.get_eq m' (by omega) (by omega), hoff,
        h1 _ (List.mem_range.2 (a.off_lt (by omega) (by omega))), hget (by omega) (by omega)]
    · have := List.mem_range.1 hi
      rw [hap, haq, ← hp, ← hq] at this
      exact ⟨by omega, by omega⟩
  · obtain ⟨m', e, h1, h2⟩ := writes2 d
      (fun r c m => (do let x ← a.get m r c; d.set m r c x)) (fun r c => m (a.base + a.off r c)) m (by
        intro r hr c hc m' hm'
        have h3 := indep_of_others (a.indep d.range ia) hm'
        simp only [Flat.src] at h3
        rw [h3, a.get_eq m (by omega) (by omega)]
        simp [d.set_eq m' hr hc])
    rw [hp, hq, ← hap, ← haq] at e
    refine ⟨m', e, ⟨hp, hq, fun i j => ?_⟩, h2⟩
    show d.get m' i j = _
    rw [d.get_eq m' (by omega) (by omega), h1 i (by omega) j (by omega), hget (by omega) (by omega)]

theorem copyAside_shows {p q : ℕ} {t : ℕ} {v : Flat} {m : Mem K} {A : Matrix (Fin p) (Fin q) K}
    (hA : Shows v.src m A) (hd : Disjoint v.range ({ v with base := t } : Flat).range) :
    ∃ m', copyAside t v m = some m' ∧ Shows ({ v with base := t } : Flat).src m' A ∧
      ∀ x ∉ ({ v with base := t } : Flat).range, m' x = m x := by
  obtain ⟨m', e, h1, h2⟩ := writes (List.range (v.rows * v.cols)) (fun i => t + i)
    (fun i m => some (Function.update m (t + i) (m (v.base + i)))) (fun i => m (v.base + i)) m
    (List.nodup_map_iff_inj_on List.nodup_range |>.2 (fun i _ j _ h => by simpa using h))
    (fun i hi m' hm' => by
      have hi := List.mem_range.1 hi
      rw [hm' (v.base + i)]
      intro j hj _ he
      have hj := List.mem_range.1 hj
      exact Set.disjoint_left.1 hd (⟨by omega, by omega⟩ : v.base + i ∈ v.range)
        (he ▸ ⟨by simp, by simpa using hj⟩))
  refine ⟨m', e, ⟨hA.1, hA.2.1, fun i j => ?_⟩, fun x hx => h2 x (fun i hi he => hx ?_)⟩
  · have hr : v.rows = p := hA.1
    have hc : v.cols = q := hA.2.1
    have h3 : v.get m i j = some (A i j) := hA.2.2 i j
    rw [v.get_eq m (by omega) (by omega)] at h3
    show ({ v with base := t } : Flat).get m' i j = _
    rw [Flat.get_eq _ m' (by simp; omega) (by simp; omega), ← h3]
    exact congrArg some (h1 _ (List.mem_range.2 (v.off_lt (by omega) (by omega))))
  · have := List.mem_range.1 hi
    rw [he]
    exact ⟨by simp, by simpa using this⟩

/-- With a non-empty destination the alias test is containment of the storage. -/
theorem aliases_iff (a b : Flat) (ha : 0 < a.rows * a.cols) : aliases a b = true ↔ a.range ⊆ b.range := by
  simp only [aliases, Bool.not_eq_true', Bool.or_eq_false_iff, decide_eq_false_iff_not]
  constructor
  · rintro ⟨h1, h2⟩ x ⟨hx1, hx2⟩
    exact ⟨by omega, by omega⟩
  · intro h
    have h1 : a.base ∈ b.range := h ⟨le_rfl, by omega⟩
    have h2 : a.base + (a.rows * a.cols - 1) ∈ b.range := h ⟨by omega, by omega⟩
    exact ⟨by have := h1.1; omega, by have := h2.2; omega⟩

theorem range_empty (a : Flat) (ha : a.rows * a.cols = 0) : a.range = ∅ := by
  ext x
  simp only [Flat.range, Set.mem_setOf_eq, Set.mem_empty_iff_false, iff_false]
  omega

/-! ### C28 -/

/-- **C28**, the part of it that holds for products: the destination lies inside one of the operands, or apart
from both.  The temporary (at `t`) is fresh storage. -/
theorem C28_mul_partial [CommRing K] {p n q t : ℕ} {d a b : Flat} {m : Mem K} {A : Matrix (Fin p) (Fin n) K}
    {B : Matrix (Fin n) (Fin q) K} (hA : Shows a.src m A) (hB : Shows b.src m B) (hp : d.rows = p)
    (hq : d.cols = q)
    (ho : d.range ⊆ a.range ∨ d.range ⊆ b.range ∨ (Disjoint a.range d.range ∧ Disjoint b.range d.range))
    (ta : Disjoint a.range (⟨t, p, q, true⟩ : Flat).range)
    (tb : Disjoint b.range (⟨t, p, q, true⟩ : Flat).range)
    (td : Disjoint (⟨t, p, q, true⟩ : Flat).range d.range) :
    ∃ m', mulInto t d a b m = some m' ∧ Shows d.src m' (A * B) ∧
      ∀ x ∉ d.range, x ∉ (⟨t, p, q, true⟩ : Flat).range → m' x = m x := by
  have hap : a.rows = p := hA.1
  have hbq : b.cols = q := hB.2.1
  unfold mulInto
  split_ifs with hal
  · rw [hap, hbq]
    obtain ⟨m₁, e₁, h₁, f₁⟩ := C25_mul (d := (⟨t, p, q, true⟩ : Flat)) hA hB rfl rfl (a.indep _ ta)
      (b.indep _ tb)
    obtain ⟨m₂, e₂, h₂, f₂⟩ := copy_shows h₁ hp hq td
    refine ⟨m₂, by simp only [e₁, Option.bind_eq_bind, Option.bind_some]; exact e₂, h₂, fun x hx ht => ?_⟩
    rw [f₂ x hx, f₁ x ht]
  · have hdis : Disjoint a.range d.range ∧ Disjoint b.range d.range := by
      by_cases h0 : 0 < d.rows * d.cols
      · simp only [Bool.or_eq_true, not_or] at hal
        rw [aliases_iff d a h0, aliases_iff d b h0] at hal
        rcases ho with h | h | h
        · exact absurd h hal.1
        · exact absurd h hal.2
        · exact h
      · rw [range_empty d (by omega)]
        exact ⟨Set.disjoint_empty _, Set.disjoint_empty _⟩
    obtain ⟨m', e, h, f⟩ := C25_mul hA hB hp hq (a.indep _ hdis.1) (b.indep _ hdis.2)
    exact ⟨m', e, h, fun x hx _ => f x hx⟩

/-- **C28** is false for a destination that overlaps an operand partially: a 1×2 row written one cell further
along, and a 1×2 destination around a 1×1 operand. -/
theorem C28_mul_refuted :
    (∃ (m : Mem ℤ) (t : ℕ) (d a b : Flat), (a.rows, a.cols, b.rows, b.cols, d.rows, d.cols) = (1, 2, 2, 2, 1, 2) ∧
      (mulInto t d a b m).bind (fun m' => d.get m' 0 1)
        ≠ (do some ((← a.get m 0 0) * (← b.get m 0 1) + (← a.get m 0 1) * (← b.get m 1 1)))) ∧
    (∃ (m : Mem ℤ) (t : ℕ) (d a b : Flat), (a.rows, a.cols, b.rows, b.cols, d.rows, d.cols) = (1, 1, 1, 2, 1, 2) ∧
      (mulInto t d a b m).bind (fun m' => d.get m' 0 1)
        ≠ (do some ((← a.get m 0 0) * (← b.get m 0 1)))) :=
  ⟨⟨fun x => x + 1, 100, ⟨1, 1, 2, true⟩, ⟨0, 1, 2, true⟩, ⟨10, 2, 2, true⟩, rfl, by decide⟩,
   ⟨fun x => x + 2, 100, ⟨0, 1, 2, true⟩, ⟨0, 1, 1, true⟩, ⟨10, 1, 2, true⟩, rfl, by decide⟩⟩

/-- **C28** is false for `mul_acc`, which has no alias test: the destination is the left operand. -/
theorem C28_mul_acc_refuted :
    ∃ (m : Mem ℤ) (a b : Flat), (a.rows, a.cols, b.rows, b.cols) = (1, 2, 2, 2) ∧
      (mulAcc a a.src b.src m).bind (fun m' => a.get m' 0 1)
        ≠ (do some ((← a.get m 0 1) +
            ((← a.get m 0 0) * (← b.get m 0 1) + (← a.get m 0 1) * (← b.get m 1 1)))) :=
  ⟨fun x => x + 1, ⟨0, 1, 2, true⟩, ⟨10, 2, 2, true⟩, rfl, by decide⟩

/-- **C28**, `m *= d` with a square diagonal matrix, in place. -/
theorem C28_mul_diag_in_place [CommRing K] {p n : ℕ} {v : Flat} {b : Diag} {m : Mem K}
    {A : Matrix (Fin p) (Fin n) K} {B : Matrix (Fin n) (Fin n) K} (hA : Shows v.src m A)
    (hB : Shows b.src m B) (hb : Disjoint b.range v.range) :
    ∃ m', mulDiag v v.src b m = some m' ∧ Shows v.src m' (A * B) ∧ ∀ x ∉ v.range, m' x = m x :=
  C25_mtx_diag_partial hA hB le_rfl hA.1 hA.2.1 (Or.inl rfl) (b.indep _ hb)

/-- **C28**, in-place sums, differences and multiples: the destination is either operand, or both. -/
theorem C28_elementwise_in_place [CommRing K] {p q : ℕ} {v : Flat} {b : Src K} {m : Mem K} (k : K)
    {A B : Matrix (Fin p) (Fin q) K} (hA : Shows v.src m A) (hB : Shows b m B)
    (hb : b = v.src ∨ Indep b v.range) :
    (∃ m', zipWith (· + ·) v v.src b m = some m' ∧ Shows v.src m' (A + B) ∧ ∀ x ∉ v.range, m' x = m x) ∧
    (∃ m', zipWith (· - ·) v v.src b m = some m' ∧ Shows v.src m' (A - B) ∧ ∀ x ∉ v.range, m' x = m x) ∧
    (∃ m', zipWith (· - ·) v b v.src m = some m' ∧ Shows v.src m' (B - A) ∧ ∀ x ∉ v.range, m' x = m x) ∧
    (∃ m', scale k v v.src m = some m' ∧ Shows v.src m' (k • A) ∧ ∀ x ∉ v.range, m' x = m x) :=
  ⟨C26_add hA hB hA.1 hA.2.1 (Or.inl rfl) hb, C26_sub hA hB hA.1 hA.2.1 (Or.inl rfl) hb,
   C26_sub hB hA hA.1 hA.2.1 hb (Or.inl rfl), C26_scale k hA hA.1 hA.2.1 (Or.inl rfl)⟩

/-- **C28** is false for elementwise operations with partial overlap, or into a view of the same storage with
the other layout. -/
theorem C28_elementwise_refuted :
    (∃ (m : Mem ℤ) (d a : Flat), (a.rows, a.cols, d.rows, d.cols) = (1, 2, 1, 2) ∧
      (scale 2 d a.src m).bind (fun m' => d.get m' 0 1) ≠ (a.get m 0 1).map (2 * ·)) ∧
    (∃ (m : Mem ℤ) (d a : Flat), (a.rows, a.cols, d.rows, d.cols) = (2, 2, 2, 2) ∧ a.base = d.base ∧
      (scale 2 d a.src m).bind (fun m' => d.get m' 1 0) ≠ (a.get m 1 0).map (2 * ·)) :=
  ⟨⟨fun x => x + 2, ⟨1, 1, 2, true⟩, ⟨0, 1, 2, true⟩, rfl, by decide⟩,
   ⟨fun x => x + 1, ⟨0, 2, 2, true⟩, ⟨0, 2, 2, false⟩, rfl, rfl, by decide⟩⟩

/-- **C28**, the part that holds for `transpose` between matrices of one type: in place, into part of the
source's storage, or apart from it. -/
theorem C28_transpose_partial [CommRing K] {p q t : ℕ} {same : Bool} {d v : Flat} {m : Mem K}
    {A : Matrix (Fin p) (Fin q) K} (hA : Shows v.src m A) (hq : d.rows = q) (hp : d.cols = p)
    (hs : same = true → d = v) (ho : d.range ⊆ v.range ∨ Disjoint v.range d.range)
    (tv : Disjoint v.range ({ v with base := t } : Flat).range)
    (td : Disjoint ({ v with base := t } : Flat).range d.range) :
    ∃ m', txposeSame same t d v m = some m' ∧ Shows d.src m' A.transpose ∧
      ∀ x ∉ d.range, x ∉ ({ v with base := t } : Flat).range → m' x = m x := by
  unfold txposeSame
  split_ifs with h1 h2
  · simp only [Bool.and_eq_true, beq_iff_eq] at h1
    have hdv := hs h1.1
    subst hdv
    have hpq : p = q := by
      have e1 : d.rows = p := hA.1
      omega
    subst hpq
    obtain ⟨m', e, h, f⟩ := C26_transpose_in_place hA
    exact ⟨m', e, h, fun x hx _ => f x hx⟩
  · obtain ⟨m₁, e₁, h₁, f₁⟩ := copyAside_shows hA tv
    obtain ⟨m₂, e₂, h₂, f₂⟩ := C26_transpose_flat h₁ hq hp td
    refine ⟨m₂, by simp only [e₁, Option.bind_eq_bind, Option.bind_some]; exact e₂, h₂, fun x hx ht => ?_⟩
    rw [f₂ x hx, f₁ x ht]
  · have hdis : Disjoint v.range d.range := by
      by_cases h0 : 0 < d.rows * d.cols
      · rw [aliases_iff d v h0] at h2
        rcases ho with h | h
        · exact absurd h h2
        · exact h
      · rw [range_empty d (by omega)]
        exact Set.disjoint_empty _
    obtain ⟨m', e, h, f⟩ := C26_transpose_flat hA hq hp hdis
    exact ⟨m', e, h, fun x hx _ => f x hx⟩

/-- **C28** is false for `transpose` with partial overlap. -/
theorem C28_transpose_refuted :
    ∃ (m : Mem ℤ) (t : ℕ) (d v : Flat), (v.rows, v.cols, d.rows, d.cols) = (1, 2, 2, 1) ∧
      (txposeSame false t d v m).bind (fun m' => d.get m' 1 0) ≠ v.get m 0 1 :=
  ⟨fun x => x + 1, 100, ⟨1, 2, 1, true⟩, ⟨0, 1, 2, true⟩, rfl, by decide⟩

/-- **C28**, `transpose` between matrices of different types in separate storage. -/
theorem C28_transpose_other_disjoint [CommRing K] {p q t : ℕ} {d v : Flat} {m : Mem K}
    {A : Matrix (Fin p) (Fin q) K} (hA : Shows v.src m A) (hq : d.rows = q) (hp : d.cols = p)
    (ho : Disjoint v.range d.range) (hne : 0 < d.rows * d.cols) :
    ∃ m', txposeOther t d v m = some m' ∧ Shows d.src m' A.transpose ∧ ∀ x ∉ d.range, m' x = m x := by
  have hal : aliases d v = false := by
    rw [← Bool.not_eq_true, aliases_iff d v hne]
    intro h
    have hx : d.base ∈ d.range := ⟨le_rfl, by omega⟩
    exact Set.disjoint_left.1 ho (h hx) hx
  unfold txposeOther
  rw [hal]
  exact C26_transpose_copy hA hq hp (v.indep _ ho)

/-- **C28**, `transpose` between matrices of different types which are the same storage with the two layouts
(so that nothing has to move), for every shape. -/
theorem C28_transpose_other_view [CommRing K] {p q t : ℕ} {v : Flat} {m : Mem K}
    {A : Matrix (Fin p) (Fin q) K} (hA : Shows v.src m A)
    (tv : Disjoint v.range (⟨t, v.cols, v.rows, v.rowMajor⟩ : Flat).range) :
    ∃ m', txposeOther t v.asTranspose v m = some m' ∧ Shows v.asTranspose.src m' A.transpose := by
  have hp : v.rows = p := hA.1
  have hq : v.cols = q := hA.2.1
  have hrange := (C26_transpose_view hA).2
  -- the last pass rewrites every cell with itself
  have last : ∀ m₁ : Mem K, Shows v.asTranspose.src m₁ A.transpose →
      ∃ m', copyTxpose v.asTranspose v.src m₁ = some m' ∧ Shows v.asTranspose.src m' A.transpose := by
    intro m₁ h₁
    obtain ⟨m', e, h, -⟩ := writes2' v.asTranspose
      (fun c r m => (do let x ← v.get m c r; v.asTranspose.set m r c x))
      (fun r c => m₁ (v.asTranspose.base + v.asTranspose.off r c)) m₁ (by
        intro r hr c hc m' hm'
        have h3 := v.asTranspose.get_indep hr hc hm'
        rw [v.asTranspose.get_eq _ hr hc, v.asTranspose.get_eq _ hr hc] at h3
        have h4 : v.get m' c r = some (m' (v.asTranspose.base + v.asTranspose.off r c)) := by
          rw [v.off_transpose]
          exact v.get_eq m' hc hr
        rw [h4, h3]
        simp [v.asTranspose.set_eq m' hr hc])
    refine ⟨m', e, hq, hp, fun i j => ?_⟩
    have h5 : v.asTranspose.get m₁ i j = some (A.transpose i j) := h₁.2.2 i j
    have hi : (i : ℕ) < v.asTranspose.rows := by show (i : ℕ) < v.cols; omega
    have hj : (j : ℕ) < v.asTranspose.cols := by show (j : ℕ) < v.rows; omega
    show v.asTranspose.get m' i j = _
    rw [v.asTranspose.get_eq _ hi hj] at h5 ⊢
    rw [h _ hi _ hj, h5]
  unfold txposeOther
  split_ifs with hal
  · obtain ⟨m₁, e₁, h₁, f₁⟩ := C26_transpose_copy (d := (⟨t, v.cols, v.rows, v.rowMajor⟩ : Flat)) hA hq hp
      (v.indep _ tv)
    obtain ⟨m₂, e₂, h₂, f₂⟩ := copy_shows (d := v.asTranspose) h₁ hq hp (by rw [hrange]; exact tv.symm)
    obtain ⟨m₃, e₃, h₃⟩ := last m₂ h₂
    refine ⟨m₃, ?_, h₃⟩
    simp only [e₁, Option.bind_eq_bind, Option.bind_some]
    rw [e₂]
    exact e₃
  · exact last m (C26_transpose_view hA).1

/-- **C28**, `transpose` between matrices of different types (a `WrapperMatrix` and a `SimpleMatrix`, say) which
view one square storage in one layout: the buffered result is overwritten by a direct pass, and the destination
ends with `m(max i j, min i j)`. -/
theorem C28_transpose_other_same [CommRing K] {n t : ℕ} {v : Flat} {m : Mem K} {A : Matrix (Fin n) (Fin n) K}
    (hA : Shows v.src m A) (tv : Disjoint v.range (⟨t, v.cols, v.rows, v.rowMajor⟩ : Flat).range) :
    ∃ m', txposeOther t v v m = some m' ∧
      Shows v.src m' (Matrix.of fun i j => A (max i j) (min i j)) := by
  have hr : v.rows = n := hA.1
  have hc : v.cols = n := hA.2.1
  -- the second pass, from any contents `B`
  have last : ∀ m₁ : Mem K, Shows v.src m₁ A.transpose →
      ∃ m', copyTxpose v v.src m₁ = some m' ∧
        Shows v.src m' (Matrix.of fun i j => A (max i j) (min i j)) := by
    intro m₁ h₁
    obtain ⟨m', e, h⟩ := forN_inv (n := v.cols)
      (f := fun c m => forN v.rows (fun r m => (do let x ← v.src.get m c r; v.set m r c x)) m) (s := m₁)
      (fun k m' => ∀ i < n, ∀ j < n, m' (v.base + v.off i j)
        = if j < k ∧ j ≤ i then m₁ (v.base + v.off j i) else m₁ (v.base + v.off i j))
      (fun i _ j _ => by rw [if_neg (by omega)])
      (by
        intro c hc' m₂ h₂
        obtain ⟨m₃, e₃, h₃⟩ := forN_inv (n := v.rows)
          (f := fun r m => (do let x ← v.src.get m c r; v.set m r c x)) (s := m₂)
          (fun k m' => ∀ i < n, ∀ j < n, m' (v.base + v.off i j)
            = if (j < c ∨ (j = c ∧ i < k)) ∧ j ≤ i then m₁ (v.base + v.off j i)
              else m₁ (v.base + v.off i j))
          (fun i hi j hj => by
            rw [h₂ i hi j hj]
            exact if_congr (by omega) rfl rfl)
          (by
            intro r hr' m₄ h₄
            have hg : v.src.get m₄ c r = some (if r < c then m₁ (v.base + v.off r c)
                else m₁ (v.base + v.off c r)) := by
              show v.get m₄ c r = _
              rw [v.get_eq _ (by omega) (by omega), h₄ c (by omega) r (by omega)]
              exact congrArg some (if_congr (by omega) rfl rfl)
            refine ⟨_, by
              rw [hg]
              simp only [Option.bind_eq_bind, Option.bind_some]
              exact v.set_eq m₄ hr' hc' _, fun i hi j hj => ?_⟩
            by_cases hij : i = r ∧ j = c
            · obtain ⟨rfl, rfl⟩ := hij
              rw [Function.update_self]
              by_cases hlt : i < j
              · rw [if_pos hlt, if_neg (by omega)]
              · rw [if_neg hlt, if_pos (by omega)]
            · rw [Function.update_of_ne, h₄ i hi j hj]
              · exact if_congr (by omega) rfl rfl
              · intro he
                exact hij (v.off_inj (by omega) (by omega) hr' hc' (by omega)))
        refine ⟨m₃, e₃, fun i hi j hj => ?_⟩
        rw [h₃ i hi j hj]
        exact if_congr (by omega) rfl rfl)
    refine ⟨m', e, hr, hc, fun i j => ?_⟩
    have hB : ∀ i j : Fin n, m₁ (v.base + v.off i j) = A j i := by
      intro i j
      have : v.get m₁ i j = some (A.transpose i j) := h₁.2.2 i j
      rw [v.get_eq _ (by omega) (by omega)] at this
      exact Option.some.inj this
    show v.get m' i j = _
    rw [v.get_eq _ (by omega) (by omega), h i i.2 j j.2, Matrix.of_apply]
    rcases le_or_gt j i with hij | hij
    · rw [if_pos ⟨by omega, hij⟩, hB, max_eq_left hij, min_eq_right hij]
    · rw [if_neg (by rintro ⟨-, h⟩; exact absurd hij (not_lt.2 h)), hB, max_eq_right hij.le,
        min_eq_left hij.le]
  unfold txposeOther
  rw [if_pos (by simp [aliases])]
  obtain ⟨m₁, e₁, h₁, f₁⟩ := C26_transpose_copy (d := (⟨t, v.cols, v.rows, v.rowMajor⟩ : Flat)) hA hc hr
    (v.indep _ tv)
  obtain ⟨m₂, e₂, h₂, f₂⟩ := copy_shows (d := v) h₁ hr hc tv.symm
  obtain ⟨m₃, e₃, h₃⟩ := last m₂ h₂
  refine ⟨m₃, ?_, h₃⟩
  simp only [e₁, Option.bind_eq_bind, Option.bind_some]
  rw [e₂]
  exact e₃

/-- **C28**, so such a transposition is right exactly for symmetric matrices. -/
theorem C28_transpose_other_iff [CommRing K] {n t : ℕ} {v : Flat} {m : Mem K} {A : Matrix (Fin n) (Fin n) K}
    (hA : Shows v.src m A) (tv : Disjoint v.range (⟨t, v.cols, v.rows, v.rowMajor⟩ : Flat).range) :
    (∃ m', txposeOther t v v m = some m' ∧ Shows v.src m' A.transpose) ↔ A.transpose = A := by
  obtain ⟨m₁, e₁, h₁⟩ := C28_transpose_other_same (t := t) hA tv
  constructor
  · rintro ⟨m', e, h⟩
    rw [e₁] at e
    obtain rfl := Option.some.inj e
    have key : ∀ i j : Fin n, A (max i j) (min i j) = A j i := fun i j =>
      Option.some.inj ((h₁.2.2 i j).symm.trans (h.2.2 i j))
    ext i j
    rw [Matrix.transpose_apply]
    rcases le_total i j with hij | hij
    · have := key j i
      rwa [max_eq_left hij, min_eq_right hij] at this
    · have := key i j
      rw [max_eq_left hij, min_eq_right hij] at this
      exact this.symm
  · intro hs
    refine ⟨m₁, e₁, h₁.1, h₁.2.1, fun i j => ?_⟩
    rw [h₁.2.2 i j, hs]
    congr 1
    have key : ∀ i j : Fin n, A j i = A i j := fun i j => congrFun (congrFun hs i) j
    rcases le_total i j with hij | hij
    · rw [Matrix.of_apply, max_eq_right hij, min_eq_left hij, key]
    · rw [Matrix.of_apply, max_eq_left hij, min_eq_right hij]

/-- **C28** refuted for `transpose` of a square matrix into a view of itself of another type. -/
theorem C28_transpose_other_refuted :
    ∃ (m : Mem ℤ) (t : ℕ) (v : Flat), (v.rows, v.cols) = (2, 2) ∧
      (txposeOther t v v m).bind (fun m' => v.get m' 1 0) ≠ v.get m 0 1 :=
  ⟨fun x => x, 100, ⟨0, 2, 2, true⟩, rfl, by decide⟩

/-! ### Concrete instances -/

example : (mulInto 100 (⟨0, 2, 2, true⟩ : Flat) ⟨0, 2, 2, true⟩ ⟨4, 2, 2, false⟩ (fun x => (x : ℤ))).map
    (fun m => (List.range 4).map m) = some [5, 7, 23, 33] := by decide

example : (txposeSame true 100 (⟨0, 2, 2, true⟩ : Flat) ⟨0, 2, 2, true⟩ (fun x => (x : ℤ))).map
    (fun m => (List.range 4).map m) = some [0, 2, 1, 3] := by decide

end Geomc.Mtx
