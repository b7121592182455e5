import Verif.Layout.Model

/-!
# C21: flat matrix layouts
-/

namespace Geomc.Layout

theorem offs_eq (major minor j k : ℤ) (hM : 0 < major) (hm : 0 < minor) (hk : 0 ≤ k)
    (hj0 : 0 ≤ j) (hj : j < major * minor) :
    offs major minor (j + k * (major * minor)) =
      some (j % minor * major + j / minor + k * (major * minor)) := by
  have hs : 0 < major * minor := mul_pos hM hm
  have hi : 0 ≤ j + k * (major * minor) := by positivity
  have e1 : (j + k * (major * minor)).tmod (major * minor) = j := by
    rw [Int.tmod_eq_emod_of_nonneg hi, Int.add_mul_emod_self_right, Int.emod_eq_of_lt hj0 hj]
  have e2 : (j + k * (major * minor)).tdiv (major * minor) = k := by
    rw [Int.tdiv_eq_ediv_of_nonneg hi, Int.add_mul_ediv_right _ _ hs.ne', Int.ediv_eq_zero_of_lt hj0 hj,
      zero_add]
  simp only [offs]
  rw [if_neg hs.ne', if_neg hm.ne', e1, e2, Int.tmod_eq_emod_of_nonneg hj0,
    Int.tdiv_eq_ediv_of_nonneg hj0]

/-- Offset of position `b * minor + a` (with `a < minor`), including one past the end. -/
theorem offs_at (major minor a b : ℤ) (hM : 0 < major) (hm : 0 < minor)
    (ha0 : 0 ≤ a) (ha : a < minor) (hb0 : 0 ≤ b) (hb : b < major) :
    offs major minor (b * minor + a) = some (a * major + b) := by
  have hj : b * minor + a < major * minor := by nlinarith
  have := offs_eq major minor (b * minor + a) 0 hM hm (le_refl _) (by positivity) hj
  rw [zero_mul, add_zero] at this
  rw [this]
  congr 1
  have e1 : (b * minor + a) % minor = a := by
    rw [add_comm, Int.add_mul_emod_self_right, Int.emod_eq_of_lt ha0 ha]
  have e2 : (b * minor + a) / minor = b := by
    rw [add_comm, Int.add_mul_ediv_right _ _ hm.ne', Int.ediv_eq_zero_of_lt ha0 ha, zero_add]
  rw [e1, e2]; ring

theorem dist_of (major minor i i' p : ℤ) (hM : 0 < major) (hm : 0 < minor) (hi : 0 ≤ i')
    (h : offs major minor i' = some p) (q : ℤ) :
    TI.distanceTo ⟨major, minor, i, q⟩ ⟨major, minor, i', p⟩ = some (i' - i) := by
  have hs : 0 < major * minor := mul_pos hM hm
  set j := i' % (major * minor)
  set k := i' / (major * minor)
  have hj0 : 0 ≤ j := Int.emod_nonneg _ hs.ne'
  have hj : j < major * minor := Int.emod_lt_of_pos _ hs
  have hk : 0 ≤ k := Int.ediv_nonneg hi hs.le
  have hi' : i' = j + k * (major * minor) := by
    have := Int.emod_add_mul_ediv i' (major * minor)
    rw [mul_comm k]; exact this.symm
  rw [hi', offs_eq major minor j k hM hm hk hj0 hj] at h
  simp only [Option.some.injEq] at h
  -- the transposed position
  set a := j % minor
  set b := j / minor
  have ha0 : 0 ≤ a := Int.emod_nonneg _ hm.ne'
  have ha : a < minor := Int.emod_lt_of_pos _ hm
  have hb0 : 0 ≤ b := Int.ediv_nonneg hj0 hm.le
  have hb : b < major := Int.ediv_lt_of_lt_mul hm (by linarith)
  have hjab : a + minor * b = j := Int.emod_add_mul_ediv j minor
  have := offs_eq minor major (a * major + b) k hm hM hk (by positivity) (by nlinarith)
  have hs' : minor * major = major * minor := mul_comm _ _
  simp only [offs, hs'] at this
  rw [if_neg hs.ne', if_neg hM.ne'] at this
  simp only [Option.some.injEq] at this
  simp only [TI.distanceTo]
  rw [if_neg hs.ne', if_neg hM.ne', ← h, this]
  congr 1
  have e1 : (a * major + b) % major = b := by
    rw [add_comm, Int.add_mul_emod_self_right, Int.emod_eq_of_lt hb0 hb]
  have e2 : (a * major + b) / major = a := by
    rw [add_comm, Int.add_mul_ediv_right _ _ hM.ne', Int.ediv_eq_zero_of_lt hb0 hb, zero_add]
  rw [e1, e2, hi', ← hjab]; ring

/-- **C21, addressing.** For both storage orders and every shape, `(r,c) ↦ index` is a bijection from
the rows × cols positions onto the offsets `0 .. rows*cols-1`. -/
theorem C21_index_bijective (rowMajor : Bool) (rows cols : ℕ) :
    (∀ r c : ℤ, 0 ≤ r → r < rows → 0 ≤ c → c < cols →
      0 ≤ index rowMajor r c rows cols ∧ index rowMajor r c rows cols < rows * cols) ∧
    (∀ k : ℤ, 0 ≤ k → k < rows * cols →
      ∃! rc : ℤ × ℤ, (0 ≤ rc.1 ∧ rc.1 < rows ∧ 0 ≤ rc.2 ∧ rc.2 < cols) ∧
        index rowMajor rc.1 rc.2 rows cols = k) := by
  have key : ∀ m n : ℤ, ∀ k : ℤ, 0 ≤ k → k < m * n → 0 ≤ n →
      ∃ a b, (0 ≤ a ∧ a < m ∧ 0 ≤ b ∧ b < n) ∧ a * n + b = k ∧
        ∀ a' b', 0 ≤ b' → b' < n → a' * n + b' = k → a' = a ∧ b' = b := by
    intro m n k h0 h1 hn
    have hn : 0 < n := by
      rcases hn.lt_or_eq with h | h
      · exact h
      · rw [← h] at h1; simp at h1; omega
    refine ⟨k / n, k % n, ⟨Int.ediv_nonneg h0 hn.le, Int.ediv_lt_of_lt_mul hn h1,
      Int.emod_nonneg _ hn.ne', Int.emod_lt_of_pos _ hn⟩, ?_, ?_⟩
    · rw [add_comm, mul_comm]; exact Int.emod_add_mul_ediv k n
    · rintro a' b' hb0 hb rfl
      rw [add_comm, Int.add_mul_ediv_right _ _ hn.ne', Int.ediv_eq_zero_of_lt hb0 hb, zero_add,
        Int.add_mul_emod_self_right, Int.emod_eq_of_lt hb0 hb]
      exact ⟨rfl, rfl⟩
  constructor
  · intro r c hr0 hr hc0 hc
    cases rowMajor with
    | true =>
      simp only [index, if_true]
      exact ⟨by positivity, by nlinarith⟩
    | false =>
      simp only [index, Bool.false_eq_true, if_false]
      exact ⟨by positivity, by nlinarith⟩
  · intro k h0 h1
    cases rowMajor with
    | true =>
      obtain ⟨a, b, hab, e, hu⟩ := key rows cols k h0 h1 (by positivity)
      refine ⟨(a, b), ⟨hab, by simpa [index] using e⟩, ?_⟩
      rintro ⟨a', b'⟩ ⟨⟨_, _, hb0, hb⟩, e'⟩
      simp only [index, if_true] at e'
      obtain ⟨rfl, rfl⟩ := hu a' b' hb0 hb e'
      rfl
    | false =>
      obtain ⟨b, a, ⟨h2, h3, h4, h5⟩, e, hu⟩ := key cols rows k h0 (by rw [mul_comm]; exact h1)
        (by positivity)
      refine ⟨(a, b), ⟨⟨h4, h5, h2, h3⟩, by simpa [index] using e⟩, ?_⟩
      rintro ⟨a', b'⟩ ⟨⟨ha0, ha, _, _⟩, e'⟩
      simp only [index, Bool.false_eq_true, if_false] at e'
      obtain ⟨rfl, rfl⟩ := hu b' a' ha0 ha e'
      rfl

/-- **C21, rows and columns.** For every non-empty shape and both orders: stepping `k` elements from
`row(r)` / `col(c)` reads element `(r,k)` / `(k,c)`. -/
theorem C21_row_col (rowMajor : Bool) (rows cols : ℤ) (hr : 0 < rows) (hc : 0 < cols)
    (r c : ℤ) (hr0 : 0 ≤ r) (hr1 : r < rows) (hc0 : 0 ≤ c) (hc1 : c < cols) :
    (∃ it, row rowMajor r rows cols = some it ∧ ∀ k, 0 ≤ k → k < cols →
      ∃ it', it.advance k = some it' ∧ it'.deref = index rowMajor r k rows cols) ∧
    (∃ it, col rowMajor c rows cols = some it ∧ ∀ k, 0 ≤ k → k < rows →
      ∃ it', it.advance k = some it' ∧ it'.deref = index rowMajor k c rows cols) := by
  cases rowMajor with
  | true =>
    refine ⟨⟨.ptr (r * cols), rfl, fun k _ _ => ⟨_, rfl, rfl⟩⟩, ?_⟩
    have h0 := offs_at cols rows 0 c hc hr (le_refl _) hr hc0 hc1
    rw [add_zero] at h0
    refine ⟨.tr ⟨cols, rows, c * rows, 0 * cols + c⟩, ?_, fun k hk0 hk => ?_⟩
    · simp [col, TI.new, h0]
    · have := offs_at cols rows k c hc hr hk0 hk hc0 hc1
      exact ⟨.tr ⟨cols, rows, c * rows + k, k * cols + c⟩, by simp [It.advance, TI.advance, this], rfl⟩
  | false =>
    refine ⟨?_, ⟨.ptr (c * rows), rfl, fun k _ _ => ⟨_, rfl, rfl⟩⟩⟩
    have h0 := offs_at rows cols 0 r hr hc (le_refl _) hc hr0 hr1
    rw [add_zero] at h0
    refine ⟨.tr ⟨rows, cols, r * cols, 0 * rows + r⟩, ?_, fun k hk0 hk => ?_⟩
    · simp [row, TI.new, h0]
    · have := offs_at rows cols k r hr hc hk0 hk hr0 hr1
      exact ⟨.tr ⟨rows, cols, r * cols + k, k * rows + r⟩, by simp [It.advance, TI.advance, this], rfl⟩

/-- **C21, distance.** Advancing by `n` and taking the distance are inverse, from every row or column
start and for every position not before the start of the matrix (past-the-end included); and the
position one past a column is recognised by pointer equality only there: equal offsets mean equal
positions. -/
theorem C21_distance (major minor i : ℤ) (hM : 0 < major) (hm : 0 < minor) (hi : 0 ≤ i) :
    ∃ t, TI.new major minor i = some t ∧
      ∀ n, 0 ≤ i + n → ∃ u, t.advance n = some u ∧ t.distanceTo u = some n ∧
        (t.equal u = true ↔ n = 0) := by
  have hs : 0 < major * minor := mul_pos hM hm
  have hex : ∀ x, 0 ≤ x → ∃ p, offs major minor x = some p := by
    intro x _
    simp only [offs]
    rw [if_neg hs.ne', if_neg hm.ne']
    exact ⟨_, rfl⟩
  obtain ⟨p, hp⟩ := hex i hi
  refine ⟨⟨major, minor, i, p⟩, by simp [TI.new, hp], fun n hn => ?_⟩
  obtain ⟨q, hq⟩ := hex (i + n) hn
  refine ⟨⟨major, minor, i + n, q⟩, by simp [TI.advance, hq], ?_, ?_⟩
  · rw [dist_of major minor i (i + n) q hM hm hn hq p]; congr 1; ring
  · simp only [TI.equal, beq_iff_eq]
    constructor
    · rintro rfl
      have h1 := dist_of major minor i (i + n) p hM hm hn hq p
      have h2 := dist_of major minor i i p hM hm hi hp p
      simp only [TI.distanceTo] at h1 h2
      rw [h1] at h2
      simp only [Option.some.injEq] at h2
      omega
    · rintro rfl
      rw [add_zero, hp] at hq
      exact Option.some.inj hq

/-- A 2×3 row-major matrix: column 1 is read at offsets 1 and 4. -/
example : (do let it ← col true 1 2 3; let it' ← it.advance 1; some (it.deref, it'.deref)) =
    some (1, 4) := by decide

/-- Matrices with an empty dimension: asking for the iterator across the storage order divides by
zero. -/
theorem C21_empty_undefined (rows cols c : ℤ) (h : rows * cols = 0) :
    col true c rows cols = none ∧ row false c rows cols = none := by
  have h' : cols * rows = 0 := by rw [mul_comm]; exact h
  simp [col, row, TI.new, offs, h, h']

end Geomc.Layout
