import Verif.Mtx.MakeModel
import Mathlib.Tactic.Linarith
import Mathlib.Tactic.Ring

/-! # C99: constructing a matrix -/

namespace Geomc.Make

variable {K : Type}

/-- Offsets of the elements of a matrix are inside and determine the element. -/
theorem off_lt (b : Bool) {rows cols r c : ℕ} (hr : r < rows) (hc : c < cols) : off b rows cols r c < rows * cols := by
  cases b
  · simp only [off, Bool.false_eq_true, if_false]
    calc c * rows + r < c * rows + rows := by omega
      _ = (c + 1) * rows := by ring
      _ ≤ cols * rows := Nat.mul_le_mul_right _ hc
      _ = rows * cols := Nat.mul_comm _ _
  · simp only [off, if_true]
    calc r * cols + c < r * cols + cols := by omega
      _ = (r + 1) * cols := by ring
      _ ≤ rows * cols := Nat.mul_le_mul_right _ hr

theorem pair_inj {n a b c d : ℕ} (hb : b < n) (hd : d < n) (h : a * n + b = c * n + d) : a = c ∧ b = d := by
  have hn : 0 < n := by omega
  have h1 : (a * n + b) / n = a := by rw [Nat.mul_comm, Nat.mul_add_div hn, Nat.div_eq_of_lt hb, Nat.add_zero]
  have h2 : (c * n + d) / n = c := by rw [Nat.mul_comm, Nat.mul_add_div hn, Nat.div_eq_of_lt hd, Nat.add_zero]
  have : a = c := by rw [← h1, ← h2, h]
  subst this; exact ⟨rfl, by omega⟩

theorem off_inj (b : Bool) {rows cols r c r' c' : ℕ} (hr : r < rows) (hc : c < cols) (hr' : r' < rows) (hc' : c' < cols)
    (h : off b rows cols r c = off b rows cols r' c') : r = r' ∧ c = c' := by
  cases b
  · simp only [off, Bool.false_eq_true, if_false] at h
    exact (pair_inj hr hr' h).symm
  · simp only [off, if_true] at h
    exact pair_inj hc hc' h

theorem put_length {s s' : List (Option K)} {i : ℕ} {x : K} (h : put s i x = some s') : s'.length = s.length := by
  unfold put at h
  by_cases hi : i < s.length
  · rw [if_pos hi] at h; cases h; simp
  · rw [if_neg hi] at h; cases h

/-- A sequence of writes to distinct places inside the array. -/
theorem writes (f : ℕ → ℕ) (g : ℕ → Option K) (x : ℕ → K) (n : ℕ) (hg : ∀ i < n, g i = some (x i)) (s : List (Option K))
    (hf : ∀ i < n, f i < s.length) (hinj : ∀ i < n, ∀ j < n, f i = f j → i = j) :
    ∃ s' : List (Option K), (List.range n).foldlM (fun s i => do let y ← g i; put s (f i) y) s = some s' ∧
      s'.length = s.length ∧ ∀ i < n, s'[f i]? = some (some (x i)) := by
  induction n with
  | zero => exact ⟨s, rfl, rfl, by omega⟩
  | succ n ih =>
    obtain ⟨s', h1, h2, h3⟩ := ih (fun i hi => hg i (by omega)) (fun i hi => hf i (by omega))
      (fun i hi j hj => hinj i (by omega) j (by omega))
    have hn : f n < s'.length := by rw [h2]; exact hf n (by omega)
    refine ⟨s'.set (f n) (some (x n)), ?_, by simp [h2], fun i hi => ?_⟩
    · rw [List.range_succ, List.foldlM_append, h1]
      simp [hg n (by omega), put, hn]
    · rw [List.getElem?_set]
      by_cases h : i = n
      · subst h; simp [hn]
      · rw [if_neg (fun e => h (hinj i hi n (by omega) e.symm)), h3 i (by omega)]

/-- The dimensions given agree with those of the type. -/
def Agree (R C r c : ℕ) : Prop := (R = 0 ∨ R = r) ∧ (C = 0 ∨ C = c)

theorem alloc_length {R C r c : ℕ} (h : Agree R C r c) : (alloc R C (r * c) : List (Option K)).length = r * c := by
  unfold alloc
  rw [List.length_replicate]
  by_cases h0 : R * C = 0
  · rw [if_pos h0]
  · rw [if_neg h0]
    have hR : R ≠ 0 := fun e => h0 (by rw [e, Nat.zero_mul])
    have hC : C ≠ 0 := fun e => h0 (by rw [e, Nat.mul_zero])
    rcases h with ⟨h1 | h1, h2 | h2⟩ <;> first | contradiction | (rw [h1, h2])

theorem rows_eq {R C r c : ℕ} (h : Agree R C r c) (b : Bool) (s : List (Option K)) :
    Mat.rows ⟨R, C, r, c, b, s⟩ = r := by
  unfold Mat.rows
  rcases h.1 with h1 | h1
  · simp [h1]
  · by_cases h0 : R = 0
    · simp [h0]
    · simp [h1]

theorem cols_eq {R C r c : ℕ} (h : Agree R C r c) (b : Bool) (s : List (Option K)) :
    Mat.cols ⟨R, C, r, c, b, s⟩ = c := by
  unfold Mat.cols
  rcases h.2 with h1 | h1
  · simp [h1]
  · by_cases h0 : C = 0
    · simp [h0]
    · simp [h1]

/-- `m` is the `r x c` matrix of elements `x`. -/
def Is (m : Mat K) (r c : ℕ) (x : ℕ → ℕ → K) : Prop :=
  m.rows = r ∧ m.cols = c ∧ ∀ i < r, ∀ j < c, m.get i j = some (x i j)

/-- **C99**: a matrix of agreeing dimensions, fixed, dynamic or mixed, constructed from another matrix has its
dimensions and elements, whatever the types and layouts. -/
theorem C99_convert_partial (R C : ℕ) (b : Bool) (r c : ℕ) (x : ℕ → ℕ → K) (src : ℕ → ℕ → Option K) (h : Agree R C r c)
    (hs : ∀ i < r, ∀ j < c, src i j = some (x i j)) : ∃ m, convert R C b r c src = some m ∧ Is m r c x := by
  have hdiv : ∀ i < r * c, i / c < r ∧ i % c < c := fun i hi => by
    have hc : 0 < c := Nat.pos_of_ne_zero (by rintro rfl; simp at hi)
    exact ⟨Nat.div_lt_of_lt_mul (by rwa [Nat.mul_comm]), Nat.mod_lt _ hc⟩
  obtain ⟨s', h1, -, h3⟩ := writes (nth b r c) (fun i => src (i / c) (i % c)) (fun i => x (i / c) (i % c)) (r * c)
    (fun i hi => hs _ (hdiv i hi).1 _ (hdiv i hi).2) (alloc R C (r * c))
    (fun i hi => by rw [alloc_length h]; exact off_lt b (hdiv i hi).1 (hdiv i hi).2)
    (fun i hi j hj e => by
      have := off_inj b (hdiv i hi).1 (hdiv i hi).2 (hdiv j hj).1 (hdiv j hj).2 e
      rw [← Nat.div_add_mod i c, ← Nat.div_add_mod j c, this.1, this.2])
  refine ⟨⟨R, C, r, c, b, s'⟩, ?_, rows_eq h _ _, cols_eq h _ _, fun i hi j hj => ?_⟩
  · simp only [convert, rows_eq h, cols_eq h]
    rw [h1]; rfl
  · have hc : 0 < c := by omega
    have h4 := h3 (off true r c i j) (off_lt true hi hj)
    have e1 : off true r c i j / c = i := by
      simp only [off, if_true]; rw [Nat.mul_comm, Nat.mul_add_div hc, Nat.div_eq_of_lt hj, Nat.add_zero]
    have e2 : off true r c i j % c = j := by
      simp only [off, if_true]; rw [Nat.mul_comm, Nat.mul_add_mod, Nat.mod_eq_of_lt hj]
    rw [nth, e1, e2] at h4
    simp only [Mat.get, rows_eq h, cols_eq h, h4]
    rfl

/-- **C99**, refuted without agreement: constructing a row-major matrix of fixed size from a dynamic one with
more elements writes past its array, for all sizes. -/
theorem C99_convert_refuted (R C r c : ℕ) (hR : 0 < R) (hC : 0 < C) (h : R * C < r * c) (x : ℕ → ℕ → K) :
    convert R C true r c (fun i j => some (x i j)) = none := by
  have hm : Mat.cols (⟨R, C, r, c, true, alloc R C (r * c)⟩ : Mat K) = C := by simp [Mat.cols, hC.ne']
  have hl : (alloc R C (r * c) : List (Option K)).length = R * C := by
    simp [alloc, hR.ne', hC.ne']
  have key : ∀ (l : List ℕ) (s : List (Option K)), s.length = R * C → R * C ∈ l →
      l.foldlM (fun s i => put s i (x (i / c) (i % c))) s = none := by
    intro l
    induction l with
    | nil => intro s _ hmem; cases hmem
    | cons a l ih =>
      intro s hs hmem
      rw [List.foldlM_cons]
      by_cases ha : a < s.length
      · have : R * C ∈ l := by
          rcases List.mem_cons.1 hmem with e | e
          · omega
          · exact e
        simp only [put, if_pos ha]
        exact ih _ (by simp [hs]) this
      · simp [put, ha]
  have := key (List.range (r * c)) (alloc R C (r * c)) hl (List.mem_range.2 h)
  have e : ∀ i rows, nth true rows C i = i := fun i rows => by
    simp only [nth, off, if_true]; rw [Nat.mul_comm]; exact Nat.div_add_mod i C
  simp only [convert, hm, e, Option.bind_eq_bind, Option.bind_some]
  rw [this]; rfl

theorem copyIn_eq {s : List (Option K)} {src : List K} {n : ℕ} (hs : n ≤ src.length) (hl : s.length = n) :
    copyIn s src n = some ((src.take n).map some) := by
  unfold copyIn
  rw [if_pos ⟨hs, by omega⟩, List.drop_eq_nil_of_le (by omega), List.append_nil]

/-- **C99**: from an array of `r c` elements, the matrix has in row-major order, if that is its layout, the
elements of the array. -/
theorem C99_data_partial (R C r c : ℕ) (src : List K) (h : Agree R C r c) (hs : r * c ≤ src.length) :
    ∃ m, ofData R C true src r c = some m ∧ m.rows = r ∧ m.cols = c ∧
      ∀ i < r, ∀ j < c, m.get i j = src[i * c + j]? := by
  refine ⟨⟨R, C, r, c, true, (src.take (r * c)).map some⟩, ?_, rows_eq h _ _, cols_eq h _ _, fun i hi j hj => ?_⟩
  · simp only [ofData, copyIn_eq hs (alloc_length h)]; rfl
  · have := off_lt true hi hj
    simp only [off, if_true] at this
    simp only [Mat.get, rows_eq h, cols_eq h, off, if_true, List.getElem?_map, List.getElem?_take, this]
    cases src[i * c + j]? <;> rfl

/-- **C99**: for a column-major matrix the array is taken in column-major order. -/
theorem C99_data_col (R C r c : ℕ) (src : List K) (h : Agree R C r c) (hs : r * c ≤ src.length) :
    ∃ m, ofData R C false src r c = some m ∧ m.rows = r ∧ m.cols = c ∧
      ∀ i < r, ∀ j < c, m.get i j = src[j * r + i]? := by
  refine ⟨⟨R, C, r, c, false, (src.take (r * c)).map some⟩, ?_, rows_eq h _ _, cols_eq h _ _, fun i hi j hj => ?_⟩
  · simp only [ofData, copyIn_eq hs (alloc_length h)]; rfl
  · have := off_lt false hi hj
    simp only [off, Bool.false_eq_true, if_false] at this
    simp only [Mat.get, rows_eq h, cols_eq h, off, Bool.false_eq_true, if_false, List.getElem?_map, List.getElem?_take,
      if_pos this]
    cases src[j * r + i]? <;> rfl

/-- **C99**, refuted: the documentation says row-major order for every matrix.  A column-major matrix of more
than one row and column disagrees whenever the second element differs from the first of the second row. -/
theorem C99_data_refuted (R C r c : ℕ) (src : List K) (h : Agree R C r c) (hs : r * c ≤ src.length) (hr : 1 < r)
    (hc : 1 < c) (hne : src[1]? ≠ src[r]?) :
    ∃ m, ofData R C false src r c = some m ∧ ¬ ∀ i < r, ∀ j < c, m.get i j = src[i * c + j]? := by
  obtain ⟨m, h1, -, -, h4⟩ := C99_data_col R C r c src h hs
  refine ⟨m, h1, fun h5 => hne ?_⟩
  have e1 := h4 0 (by omega) 1 hc
  have e2 := h5 0 (by omega) 1 hc
  rw [e1] at e2
  simpa using e2.symm

/-- **C99**: from a list of `r c` elements, in the order of the layout. -/
theorem C99_list_partial (R C r c : ℕ) (b : Bool) (l : List K) (h : Agree R C r c) (hl : l.length = r * c) :
    ∃ m, ofList R C b l r c = some m ∧ m.rows = r ∧ m.cols = c ∧
      ∀ i < r, ∀ j < c, m.get i j = l[off b r c i j]? := by
  refine ⟨⟨R, C, r, c, b, l.map some⟩, ?_, rows_eq h _ _, cols_eq h _ _, fun i hi j hj => ?_⟩
  · have := copyIn_eq (K := K) (s := alloc R C (r * c)) (src := l) hl.ge (alloc_length h)
    simp only [ofList, hl, this]
    rw [List.take_of_length_le hl.le]; rfl
  · simp only [Mat.get, rows_eq h, cols_eq h, List.getElem?_map]
    cases l[off b r c i j]? <;> rfl

/-- **C99**, refuted for other lists: one too long for a fixed size overruns the array; after one too short
for a fixed or dynamic size, the last element of the matrix is uninitialised or outside the array. -/
theorem C99_list_refuted (R C r c : ℕ) (b : Bool) (l : List K) (h : Agree R C r c) :
    (0 < R → 0 < C → r * c < l.length → ofList R C b l r c = none) ∧
    (l.length < r * c → ∃ m, ofList R C b l r c = some m ∧ m.rows = r ∧ m.cols = c ∧ m.get (r - 1) (c - 1) = none) := by
  constructor
  · intro hR hC hl
    have e1 : R = r := by rcases h.1 with e | e <;> omega
    have e2 : C = c := by rcases h.2 with e | e <;> omega
    subst e1 e2
    simp only [ofList, copyIn, alloc, List.length_replicate, (Nat.mul_pos hR hC).ne', if_false]
    rw [if_neg (by omega)]; rfl
  · intro hl
    have hr : 0 < r := Nat.pos_of_ne_zero (by rintro rfl; simp at hl)
    have hc : 0 < c := Nat.pos_of_ne_zero (by rintro rfl; simp at hl)
    have ho : off b r c (r - 1) (c - 1) = r * c - 1 := by
      obtain ⟨r, rfl⟩ : ∃ k, r = k + 1 := ⟨r - 1, by omega⟩
      obtain ⟨c, rfl⟩ : ∃ k, c = k + 1 := ⟨c - 1, by omega⟩
      cases b
      · simp only [off, Bool.false_eq_true, if_false, Nat.add_sub_cancel]
        have : (r + 1) * (c + 1) = c * (r + 1) + r + 1 := by ring
        omega
      · simp only [off, if_true, Nat.add_sub_cancel]
        have : (r + 1) * (c + 1) = r * (c + 1) + c + 1 := by ring
        omega
    have hlen : l.length ≤ (alloc R C l.length : List (Option K)).length := by
      unfold alloc
      rw [List.length_replicate]
      by_cases h0 : R * C = 0
      · rw [if_pos h0]
      · rw [if_neg h0]
        have hR : R ≠ 0 := fun e => h0 (by rw [e, Nat.zero_mul])
        have hC : C ≠ 0 := fun e => h0 (by rw [e, Nat.mul_zero])
        rcases h with ⟨h1 | h1, h2 | h2⟩ <;> first | contradiction | (rw [h1, h2]; omega)
    refine ⟨_, by simp only [ofList, copyIn]; rw [if_pos ⟨le_refl _, hlen⟩]; rfl, rows_eq h _ _, cols_eq h _ _, ?_⟩
    simp only [Mat.get, rows_eq h, cols_eq h, ho, List.take_length]
    rw [List.getElem?_append_right (by simp; omega)]
    simp only [alloc, List.drop_replicate, List.getElem?_replicate]
    by_cases hh : r * c - 1 - (List.map some l).length < (if R * C = 0 then l.length else R * C) - l.length
    · rw [if_pos hh]; rfl
    · rw [if_neg hh]; rfl

theorem flatten_get (vs : List (List K)) (n : ℕ) (h : ∀ v ∈ vs, v.length = n) (i j : ℕ) (hj : j < n) :
    vs.flatten[i * n + j]? = (vs[i]?).bind (·[j]?) := by
  induction vs generalizing i with
  | nil => simp
  | cons v vs ih =>
    have hv := h v (by simp)
    cases i with
    | zero => simp [List.getElem?_append_left, hv, hj]
    | succ i =>
      have e : (i + 1) * n + j = v.length + (i * n + j) := by rw [hv]; ring
      rw [List.flatten_cons, e, List.getElem?_append_right (by omega), Nat.add_sub_cancel_left]
      simpa using ih (fun w hw => h w (by simp [hw])) i

theorem flatten_length (vs : List (List K)) (n : ℕ) (h : ∀ v ∈ vs, v.length = n) : vs.flatten.length = vs.length * n := by
  induction vs with
  | nil => simp
  | cons v vs ih =>
    rw [List.flatten_cons, List.length_append, h v (by simp), ih (fun w hw => h w (by simp [hw])), List.length_cons]
    ring

/-- **C99**: from as many vectors as there are rows, or columns for a column-major matrix, these are its rows
or columns. -/
theorem C99_spans_partial (R C : ℕ) (vs : List (List K)) :
    (0 < C → (R = 0 ∨ R = vs.length) → (∀ v ∈ vs, v.length = C) →
      ∃ m, ofSpans R C true vs = some m ∧ m.rows = vs.length ∧ m.cols = C ∧
        ∀ i < vs.length, ∀ j < C, m.get i j = (vs[i]?).bind (·[j]?)) ∧
    (0 < R → (C = 0 ∨ C = vs.length) → (∀ v ∈ vs, v.length = R) →
      ∃ m, ofSpans R C false vs = some m ∧ m.rows = R ∧ m.cols = vs.length ∧
        ∀ i < R, ∀ j < vs.length, m.get i j = (vs[j]?).bind (·[i]?)) := by
  constructor
  · intro _ hR hv
    obtain ⟨m, h1, h2, h3, h4⟩ := C99_data_partial R C vs.length C vs.flatten ⟨hR, .inr rfl⟩ (flatten_length vs C hv).ge
    exact ⟨m, by simpa [ofSpans] using h1, h2, h3, fun i hi j hj => by rw [h4 i hi j hj, flatten_get vs C hv i j hj]⟩
  · intro _ hC hv
    obtain ⟨m, h1, h2, h3, h4⟩ := C99_data_col R C R vs.length vs.flatten ⟨.inr rfl, hC⟩
      (by rw [flatten_length vs R hv, Nat.mul_comm])
    exact ⟨m, by simpa [ofSpans] using h1, h2, h3, fun i hi j hj => by rw [h4 i hi j hj, flatten_get vs R hv j i hi]⟩

/-- **C99**, refuted for another number of vectors, which nothing checks: too many rows for a fixed size
overrun the array; too few leave the last row uninitialised. -/
theorem C99_spans_refuted (R C : ℕ) (hR : 0 < R) (hC : 0 < C) (vs : List (List K)) (hv : ∀ v ∈ vs, v.length = C) :
    (R < vs.length → ofSpans R C true vs = none) ∧
    (vs.length < R → ∃ m, ofSpans R C true vs = some m ∧ m.rows = R ∧ m.cols = C ∧ ∀ j < C, m.get (R - 1) j = none) := by
  have hl := flatten_length vs C hv
  have ha : (alloc R C (vs.length * C) : List (Option K)).length = R * C := by
    simp [alloc, hR.ne', hC.ne']
  constructor
  · intro h
    have : R * C < vs.length * C := Nat.mul_lt_mul_of_pos_right h hC
    simp only [ofSpans, ofData, if_true, copyIn, ha]
    rw [if_neg (by omega)]; rfl
  · intro h
    have h5 : vs.length * C ≤ (R - 1) * C := Nat.mul_le_mul_right _ (by omega)
    have h6 : (R - 1) * C ≤ R * C := Nat.mul_le_mul_right _ (by omega)
    refine ⟨_, by simp only [ofSpans, ofData, if_true, copyIn, ha]; rw [if_pos ⟨hl.ge, by omega⟩]; rfl,
      by simp [Mat.rows, hR.ne'], by simp [Mat.cols, hC.ne'], fun j hj => ?_⟩
    simp only [Mat.get, Mat.cols, hC.ne', if_false, off, if_true]
    rw [List.getElem?_append_right (by simp [hl]; omega)]
    simp only [alloc, List.drop_replicate, List.getElem?_replicate]
    by_cases hh : (R - 1) * C + j - (List.map some (List.take (vs.length * C) vs.flatten)).length <
      (if R * C = 0 then vs.length * C else R * C) - vs.length * C
    · rw [if_pos hh]; rfl
    · rw [if_neg hh]; rfl

/-- Writes of one value at all indices below `n` that satisfy `p`. -/
theorem fill (p : ℕ → Prop) [DecidablePred p] (x : K) (n : ℕ) (s : List (Option K)) (hn : n ≤ s.length) :
    ∃ s' : List (Option K), (List.range n).foldlM (fun s i => if p i then put s i x else some s) s = some s' ∧
      s'.length = s.length ∧ ∀ i < n, s'[i]? = if p i then some (some x) else s[i]? := by
  have aux : ∀ m : ℕ, m ≤ s.length → ∃ s' : List (Option K),
      (List.range m).foldlM (fun s i => if p i then put s i x else some s) s = some s' ∧
      s'.length = s.length ∧ ∀ i, s'[i]? = if p i ∧ i < m then some (some x) else s[i]? := by
    intro m
    induction m with
    | zero => exact fun _ => ⟨s, rfl, rfl, fun i => by rw [if_neg (by omega)]⟩
    | succ m ih =>
      intro hm
      obtain ⟨s', h1, h2, h3⟩ := ih (by omega)
      by_cases hp : p m
      · refine ⟨s'.set m (some x), ?_, by simp [h2], fun i => ?_⟩
        · rw [List.range_succ, List.foldlM_append, h1]
          simp [hp, put, h2, show m < s.length by omega]
        · rw [List.getElem?_set]
          by_cases hi : m = i
          · subst hi; simp [hp, h2, show m < s.length by omega]
          · rw [if_neg hi, h3]
            by_cases hpi : p i
            · by_cases hlt : i < m
              · rw [if_pos ⟨hpi, hlt⟩, if_pos ⟨hpi, by omega⟩]
              · rw [if_neg (by omega), if_neg (by omega)]
            · rw [if_neg (fun e => hpi e.1), if_neg (fun e => hpi e.1)]
      · refine ⟨s', ?_, h2, fun i => ?_⟩
        · rw [List.range_succ, List.foldlM_append, h1]
          simp [hp]
        · rw [h3]
          by_cases hpi : p i
          · have : i ≠ m := fun e => hp (e ▸ hpi)
            by_cases hlt : i < m
            · rw [if_pos ⟨hpi, hlt⟩, if_pos ⟨hpi, by omega⟩]
            · rw [if_neg (by omega), if_neg (by omega)]
          · rw [if_neg (fun e => hpi e.1), if_neg (fun e => hpi e.1)]
  obtain ⟨s', h1, h2, h3⟩ := aux n hn
  refine ⟨s', h1, h2, fun i hi => ?_⟩
  rw [h3]
  by_cases hpi : p i
  · rw [if_pos ⟨hpi, hi⟩, if_pos hpi]
  · rw [if_neg (fun e => hpi e.1), if_neg hpi]

/-- **C99**: a new square matrix of agreeing dimensions is the identity. -/
theorem C99_new_partial [Zero K] [One K] (R C n : ℕ) (b : Bool) (h : Agree R C n n) :
    ∃ m : Mat K, new R C b n n = some m ∧ Is m n n (fun i j => if i = j then 1 else 0) := by
  have hlen := alloc_length (K := K) h
  obtain ⟨s1, h1, h2, h3⟩ := fill (fun _ => True) (0 : K) (n * n) (alloc R C (n * n)) hlen.ge
  obtain ⟨s2, h4, h5, h6⟩ := fill (fun i => i % (n + 1) = 0) (1 : K) (n * n) s1 (by omega)
  refine ⟨⟨R, C, n, n, b, s2⟩, ?_, rows_eq h _ _, cols_eq h _ _, fun i hi j hj => ?_⟩
  · simp only [if_true] at h1
    simp only [new, identity, rows_eq h, cols_eq h, h1, Option.bind_eq_bind, Option.bind_some, h4]
  · have ho := off_lt b hi hj
    simp only [Mat.get, rows_eq h, cols_eq h, h6 _ ho, h3 _ ho, if_true]
    have key : ∀ a d : ℕ, a < n → d < n → ((a * n + d) % (n + 1) = 0 ↔ a = d) := by
      intro a d ha hd
      constructor
      · intro e
        -- a n + d = a (n + 1) + (d - a)
        obtain ⟨q, hq⟩ := Nat.dvd_of_mod_eq_zero e
        have e1 : a * n + d + a = (n + 1) * q + a := by rw [hq]
        have e2 : a * (n + 1) + d = q * (n + 1) + a := by linarith [Nat.mul_comm (n + 1) q, Nat.mul_succ a n]
        exact (pair_inj (by omega) (by omega) e2).2.symm
      · rintro rfl
        have : a * n + a = (n + 1) * a := by ring
        rw [this, Nat.mul_mod_right]
    have hiff : (off b n n i j % (n + 1) = 0) ↔ i = j := by
      cases b
      · simp only [off, Bool.false_eq_true, if_false]; rw [key j i hj hi]; exact eq_comm
      · simp only [off, if_true]; exact key i j hi hj
    by_cases hij : i = j
    · rw [if_pos (hiff.2 hij), if_pos hij]; rfl
    · rw [if_neg (fun e => hij (hiff.1 e)), if_neg hij]; rfl

/-- **C99**, refuted: size arguments for fixed dimensions are said to be ignored.  If the other dimension is
dynamic they are not: one smaller than the fixed dimension makes the array too small for the matrix, and
setting it to the identity overruns it. -/
theorem C99_new_refuted [Zero K] [One K] (R : ℕ) (b : Bool) (nrows ncols : ℕ) (h : nrows < R) (hc : 0 < ncols) :
    (new R 0 b nrows ncols : Option (Mat K)) = none := by
  have key : ∀ (l : List ℕ) (s : List (Option K)), s.length = nrows * ncols → nrows * ncols ∈ l →
      l.foldlM (fun s i => put s i (0 : K)) s = none := by
    intro l
    induction l with
    | nil => intro s _ hmem; cases hmem
    | cons a l ih =>
      intro s hs hmem
      rw [List.foldlM_cons]
      by_cases ha : a < s.length
      · have : nrows * ncols ∈ l := by
          rcases List.mem_cons.1 hmem with e | e
          · omega
          · exact e
        simp only [put, if_pos ha]
        exact ih _ (by simp [hs]) this
      · simp [put, ha]
  have hR : R ≠ 0 := by omega
  have hlt : nrows * ncols < R * ncols := Nat.mul_lt_mul_of_pos_right h hc
  have := key (List.range (R * ncols)) (alloc R 0 (nrows * ncols)) (by simp [alloc]) (List.mem_range.2 hlt)
  simp only [new, identity, Mat.rows, Mat.cols, hR, if_false, if_true, this]
  rfl

/-- **C99**: for a fully fixed size the arguments of `new` are ignored. -/
theorem C99_new_fixed [Zero K] [One K] (R C : ℕ) (hR : 0 < R) (hC : 0 < C) (b : Bool) (nrows ncols : ℕ) :
    ∃ m m' : Mat K, new R C b nrows ncols = some m ∧ new R C b R C = some m' ∧ m.rows = R ∧ m.cols = C ∧
      m'.rows = R ∧ m'.cols = C ∧ ∀ i j, m.get i j = m'.get i j := by
  have e : ∀ (a b' : ℕ) (s : List (Option K)), Mat.rows ⟨R, C, a, b', b, s⟩ = R := fun _ _ _ => by simp [Mat.rows, hR.ne']
  have e' : ∀ (a b' : ℕ) (s : List (Option K)), Mat.cols ⟨R, C, a, b', b, s⟩ = C := fun _ _ _ => by simp [Mat.cols, hC.ne']
  have e2 : (alloc R C (nrows * ncols) : List (Option K)) = alloc R C (R * C) := by
    simp [alloc, hR.ne', hC.ne']
  have hlen : (alloc R C (R * C) : List (Option K)).length = R * C := by simp [alloc, hR.ne', hC.ne']
  obtain ⟨s1, h1, h2, -⟩ := fill (fun _ => True) (0 : K) (R * C) (alloc R C (R * C)) hlen.ge
  obtain ⟨s2, h4, -, -⟩ := fill (fun i => i % (C + 1) = 0) (1 : K) (R * C) s1 (by omega)
  simp only [if_true] at h1
  simp only [new, identity, e, e', e2, Option.bind_eq_bind, h1, Option.bind_some, h4]
  refine ⟨_, _, rfl, rfl, e _ _ _, e' _ _ _, e _ _ _, e' _ _ _, fun i j => ?_⟩
  simp only [Mat.get, e, e']

/-- **C99**: the transposed view of a matrix has its elements transposed, for both layouts. -/
theorem C99_transpose_view (m : Mat K) : m.asTranspose.rows = m.cols ∧ m.asTranspose.cols = m.rows ∧
    ∀ i j, m.asTranspose.get j i = m.get i j := by
  refine ⟨by simp [Mat.asTranspose, Mat.rows], by simp [Mat.asTranspose, Mat.cols], fun i j => ?_⟩
  have h1 : m.asTranspose.rows = m.cols := by simp [Mat.asTranspose, Mat.rows]
  have h2 : m.asTranspose.cols = m.rows := by simp [Mat.asTranspose, Mat.cols]
  simp only [Mat.get, h1, h2]
  cases hb : m.rowMajor <;> simp [Mat.asTranspose, off, hb]

-- a 2 x 3 column-major matrix of fixed height from vectors, its transposed view, and its conversion
example : ∃ m, ofSpans 2 0 false [[1, 2], [3, 4], [5, 6]] = some m ∧ m.get 0 2 = some 5 ∧ m.asTranspose.get 2 0 = some 5 ∧
    ∃ m', convert 2 3 true 2 3 m.get = some m' ∧ m'.store = [some 1, some 3, some 5, some 2, some 4, some 6] := by
  refine ⟨_, rfl, by decide, by decide, _, rfl, by decide⟩

end Geomc.Make
