import Verif.Grid.Props
import Verif.Grid.IntModel
import Verif.Rect.Int

/-!
# Grid iterators with machine integer coordinates: properties

C119: which regions are enumerated as they should be, and what happens with regions that reach the greatest value of the coordinate type.
-/

namespace Geomc.GridInt

open Geomc.VecInt Geomc.Grid

variable {N : ℕ}

theorem incLoop_exact {t : ITy} (ht : 1 ≤ t.w) (lo hi : Fin N → ℤ) (last : Fin N) : ∀ (is : List (Fin N)) (pt : Fin N → ℤ), is.Nodup →
    (∀ i ∈ is, t.Has (pt i + 1)) → incLoop t lo hi last is pt = some (Grid.incLoop lo hi last is pt)
  | [], _, _, _ => rfl
  | i :: is, pt, hn, h => by
    have e : add t (pt i) 1 = some (pt i + 1) := store_has ht (h i List.mem_cons_self)
    unfold incLoop Grid.incLoop
    rw [e]
    simp only [Option.bind_eq_bind, Option.bind_some]
    split_ifs with h1 h2
    · refine incLoop_exact ht lo hi last is _ (List.nodup_cons.1 hn).2 fun j hj => ?_
      have hji : j ≠ i := fun he => (List.nodup_cons.1 hn).1 (he ▸ hj)
      have h3 := h j (List.mem_cons_of_mem _ hj)
      rw [Function.update_of_ne hji]
      rw [Function.update_of_ne hji]
      exact h3
    · refine incLoop_exact ht lo hi last is _ (List.nodup_cons.1 hn).2 fun j hj => ?_
      have hji : j ≠ i := fun he => (List.nodup_cons.1 hn).1 (he ▸ hj)
      have h3 := h j (List.mem_cons_of_mem _ hj)
      rw [Function.update_of_ne hji]
      exact h3
    · rfl

variable [NeZero N]

/-- **C119.** A region that does not reach the greatest value is enumerated as with exact coordinates (C19): after as many increments as
there are cells, and not before, the iterator is at `end()`, and it is in the region before. -/
theorem C119_enumerates {t : ITy} (ht : 1 ≤ t.w) (o : Bool) {lo hi : Fin N → ℤ} (hne : ∀ i, lo i ≤ hi i) (hlo : ∀ i, t.Has (lo i))
    (hhi : ∀ i, hi i < t.hi) :
    (∀ n : ℕ, (n : ℤ) ≤ cells lo hi → steps t o lo hi n = some ((Grid.increment o lo hi)^[n] (begin' lo))) ∧
    end' t o lo hi = some (Grid.end' o lo hi) ∧
    (∀ n : ℕ, (n : ℤ) < cells lo hi → steps t o lo hi n ≠ end' t o lo hi) ∧
    steps t o lo hi (cells lo hi).toNat = end' t o lo hi := by
  obtain ⟨c1, c2, -⟩ := C19_enumerates o lo hi hne
  have hs : ∀ n : ℕ, (n : ℤ) ≤ cells lo hi → steps t o lo hi n = some ((Grid.increment o lo hi)^[n] (begin' lo)) := by
    intro n
    induction n with
    | zero => intro _; rfl
    | succ n ih =>
      intro hn
      push_cast at hn
      have h1 := (c1 n (by omega)).1
      show (steps t o lo hi n >>= _) = _
      rw [ih (by omega), Function.iterate_succ_apply']
      refine incLoop_exact ht lo hi _ _ _ (axes_nodup o N) fun i _ => ?_
      obtain ⟨a, b⟩ := h1 i
      have := (hlo i).1
      have := hhi i
      exact ⟨by omega, by omega⟩
  have he : end' t o lo hi = some (Grid.end' o lo hi) := by
    unfold end'
    have : add t (hi (dimLast o N)) 1 = some (hi (dimLast o N) + 1) := store_has ht (by
      have := hne (dimLast o N)
      have := (hlo (dimLast o N)).1
      have := hhi (dimLast o N)
      exact ⟨by omega, by omega⟩)
    rw [this]
    rfl
  have hpos : 0 ≤ cells lo hi := by
    have : 0 < cells lo hi := by rw [← vprod_axes o]; exact vprod_pos lo hi hne _
    exact this.le
  refine ⟨hs, he, fun n hn hc => ?_, ?_⟩
  · rw [hs n hn.le, he, Option.some.injEq] at hc
    exact (c1 n hn).2 hc
  · rw [hs _ (by omega), he, c2]

theorem add_def {t : ITy} (ht : 2 ≤ t.w) (ht31 : t.w < 31 ∨ 32 ≤ t.w) (hT : ¬ t.Traps) {x : ℤ} (hx : t.Has x) : add t x 1 = some (conv t (x + 1)) := by
  obtain ⟨w1, -⟩ := (C117_add (n := 1) (by omega) ht31 (u := fun _ => x) (v := fun _ => 1) (fun _ => hx) (fun _ => RectInt.has_one ht)).1
  obtain ⟨z, hz⟩ := Option.ne_none_iff_exists'.1 (fun hc => hT (w1.1 hc).1)
  have h0 : add t x 1 = some (z 0) := each_some.1 hz 0
  rw [h0, store_sound (by omega) h0]

/-- The successor of a value wraps around to the least one. -/
theorem conv_succ {t : ITy} (ht : 1 ≤ t.w) {x : ℤ} (hx : t.Has x) : conv t (x + 1) = if x = t.hi then t.lo else x + 1 := by
  have hhl := RectInt.hi_lo ht
  have hz := has_zero (t := t)
  split_ifs with h
  · refine (C117_conv ht _ _).2 ⟨⟨le_rfl, hz.1.trans hz.2⟩, ?_⟩
    rw [Int.modEq_iff_dvd]
    exact ⟨1, by omega⟩
  · exact conv_fix ht ⟨by have := hx.1; omega, by have := hx.2; omega⟩

/-- **C119, refuted.** If the range of the fastest axis reaches the greatest value of an unsigned type, or of a type narrower than `int`, the
carry never happens: the iterator stays in the first row forever and never comes to `end()`. -/
theorem C119_stuck_refuted {t : ITy} (ht : 2 ≤ t.w) (ht31 : t.w < 31 ∨ 32 ≤ t.w) (hT : ¬ t.Traps) (hN : 2 ≤ N) (o : Bool) {lo hi : Fin N → ℤ}
    (hne : ∀ i, lo i ≤ hi i) (hlo : ∀ i, t.Has (lo i)) (hhi : ∀ i, t.Has (hi i)) (hf : hi (firstAxis o N) = t.hi) :
    (∀ k, ∃ q, steps t o lo hi k = some q ∧ t.Has (q (firstAxis o N)) ∧ ∀ i ≠ firstAxis o N, q i = lo i) ∧
    (¬ (lo (dimLast o N) = t.lo ∧ hi (dimLast o N) = t.hi) → ∀ k, steps t o lo hi k ≠ end' t o lo hi) := by
  have hrow : ∀ k, ∃ q, steps t o lo hi k = some q ∧ t.Has (q (firstAxis o N)) ∧ ∀ i ≠ firstAxis o N, q i = lo i := by
    intro k
    induction k with
    | zero => exact ⟨lo, rfl, hlo _, fun _ _ => rfl⟩
    | succ k ih =>
      obtain ⟨q, h1, h2, h3⟩ := ih
      have hc := conv_has (t := t) (by omega) (q (firstAxis o N) + 1)
      refine ⟨Function.update q (firstAxis o N) (conv t (q (firstAxis o N) + 1)), ?_, ?_, ?_⟩
      · show (steps t o lo hi k >>= _) = _
        rw [h1]
        show increment t o lo hi q = _
        unfold increment
        obtain ⟨is, e⟩ := axes_head (N := N) o
        rw [e]
        unfold incLoop
        rw [add_def ht ht31 hT h2]
        simp only [Option.bind_eq_bind, Option.bind_some, Function.update_self]
        rw [if_neg (by rw [hf]; exact not_lt.2 hc.2)]
      · rw [Function.update_self]; exact hc
      · intro i hi'
        rw [Function.update_of_ne hi']
        exact h3 i hi'
  refine ⟨hrow, fun hnf k hk => ?_⟩
  obtain ⟨q, h1, -, h3⟩ := hrow k
  have hfl : dimLast o N ≠ firstAxis o N := by
    unfold firstAxis dimLast dimLast.Fin.last'
    cases o <;> simp [Fin.ext_iff] <;> omega
  unfold end' at hk
  rw [h1, add_def ht ht31 hT (hhi _)] at hk
  simp only [Option.bind_eq_bind, Option.bind_some, Option.some.injEq] at hk
  have h4 := congrFun hk (dimLast o N)
  rw [Function.update_self, h3 _ hfl, conv_succ (by omega) (hhi _)] at h4
  have h5 := hne (dimLast o N)
  split_ifs at h4 with h6
  · exact hnf ⟨h4, h6⟩
  · omega

/-- **C119, refuted.** With `int` and wider signed types, the same region is undefined behaviour at the end of its first row. -/
theorem C119_overflow_refuted {t : ITy} (hT : t.Traps) (o : Bool) {lo hi : Fin N → ℤ} (hlo : ∀ i, t.Has (lo i)) (hf : hi (firstAxis o N) = t.hi) :
    steps t o lo hi ((t.hi - lo (firstAxis o N)).toNat + 1) = none := by
  have ht : 1 ≤ t.w := by have := hT.1; omega
  obtain ⟨is, e⟩ := axes_head (N := N) o
  have hl := hlo (firstAxis o N)
  have row : ∀ k : ℕ, (k : ℤ) ≤ t.hi - lo (firstAxis o N) →
      steps t o lo hi k = some (Function.update lo (firstAxis o N) (lo (firstAxis o N) + k)) := by
    intro k
    induction k with
    | zero => intro _; show some lo = _; simp
    | succ k ih =>
      intro hk
      push_cast at hk
      show (steps t o lo hi k >>= _) = _
      rw [ih (by omega)]
      show increment t o lo hi _ = _
      unfold increment
      rw [e]
      unfold incLoop
      simp only [Function.update_self]
      have : add t (lo (firstAxis o N) + k) 1 = some (lo (firstAxis o N) + k + 1) := store_has ht ⟨by have := hl.1; omega, by omega⟩
      rw [this]
      simp only [Option.bind_eq_bind, Option.bind_some]
      rw [if_neg (by omega), Function.update_idem]
      push_cast
      rw [add_assoc]
  show (steps t o lo hi _ >>= _) = _
  rw [row _ (by have := hl.2; omega)]
  show increment t o lo hi _ = _
  unfold increment
  rw [e]
  unfold incLoop
  simp only [Function.update_self]
  have : add t (lo (firstAxis o N) + ((t.hi - lo (firstAxis o N)).toNat : ℤ)) 1 = none :=
    (store_none _).2 (Or.inl ⟨hT, fun h => by have h1 := h.2; have := hl.2; omega⟩)
  rw [this]
  rfl

/-- **C119, refuted.** If the slowest axis reaches the greatest value, `end()` is undefined for `int` and wider signed types; for the others it
is `begin()` if the range covers all values, so that a loop over the region visits nothing. -/
theorem C119_end_refuted {t : ITy} (ht : 2 ≤ t.w) (ht31 : t.w < 31 ∨ 32 ≤ t.w) (o : Bool) {lo hi : Fin N → ℤ} (hhi : hi (dimLast o N) = t.hi) :
    (t.Traps → end' t o lo hi = none) ∧ (¬ t.Traps → lo (dimLast o N) = t.lo → end' t o lo hi = some (begin' lo)) := by
  have hz := has_zero (t := t)
  constructor
  · intro hT
    unfold end'
    have : add t (hi (dimLast o N)) 1 = none := (store_none _).2 (Or.inl ⟨hT, fun h => by have := h.2; omega⟩)
    rw [this]
    rfl
  · intro hT hl
    unfold end'
    rw [hhi, add_def ht ht31 hT ⟨hz.1.trans hz.2, le_rfl⟩, conv_succ (by omega) ⟨hz.1.trans hz.2, le_rfl⟩, if_pos rfl, ← hl]
    simp [begin']

/-- All pairs of bytes: the loop over the region is never entered.  A region of bytes whose first axis is complete is never left. -/
example : end' ⟨8, false⟩ true ![0, 0] ![255, 255] = some (begin' ![0, 0]) ∧
    steps ⟨8, false⟩ true ![250, 0] ![255, 3] 5 = some ![255, 0] ∧ steps ⟨8, false⟩ true ![250, 0] ![255, 3] 6 = some ![0, 0] ∧
    steps ⟨8, false⟩ true ![250, 0] ![254, 3] 5 = some ![250, 1] := by
  decide +kernel

/-! ## Distances -/

/-- The sum computed by `distance_to`. -/
def jumps (lo hi : Fin N → ℤ) (jump : Fin N → ℤ) : List (Fin N) → ℤ
  | [] => 0
  | i :: is => jump i + max (dim lo hi i) 0 * jumps lo hi jump is

omit [NeZero N] in
theorem fold_jumps (lo hi jump : Fin N → ℤ) : ∀ (is : List (Fin N)) (d v : ℤ),
    (is.foldl (fun (st : ℤ × ℤ) i => (st.1 + st.2 * jump i, st.2 * max (dim lo hi i) 0)) (d, v)).1 = d + v * jumps lo hi jump is
  | [], d, v => by simp [jumps]
  | i :: is, d, v => by
    rw [List.foldl_cons, fold_jumps lo hi jump is]
    simp only [jumps]
    ring

omit [NeZero N] in
theorem jumps_mono {lo hi : Fin N → ℤ} (hne : ∀ i, lo i ≤ hi i) {a b : Fin N → ℤ} (h : ∀ i, a i ≤ b i) : ∀ is : List (Fin N),
    jumps lo hi a is ≤ jumps lo hi b is ∧ ((∃ i ∈ is, a i < b i) → jumps lo hi a is < jumps lo hi b is)
  | [] => by simp [jumps]
  | i :: is => by
    obtain ⟨h1, h2⟩ := jumps_mono hne h is
    have hd : 1 ≤ max (dim lo hi i) 0 := le_max_of_le_left (by unfold dim; have := hne i; omega)
    have hi := h i
    simp only [jumps]
    refine ⟨by nlinarith, ?_⟩
    rintro ⟨j, hj, hlt⟩
    rcases List.mem_cons.1 hj with rfl | hj
    · nlinarith
    · have := h2 ⟨j, hj, hlt⟩
      nlinarith

/-- **C119.** The difference of two iterators is exact if the differences of the coordinates fit; for unsigned coordinates it is too large as
soon as any coordinate decreases. -/
theorem C119_distance {t : ITy} (ht : 1 ≤ t.w) (o : Bool) {lo hi p q : Fin N → ℤ} :
    ((∀ i, t.Has (q i - p i)) → distanceTo t o lo hi p q = some (Grid.distanceTo o lo hi p q)) ∧
    (t.signed = false → (t.w < 31 ∨ 32 ≤ t.w) → (∀ i, lo i ≤ hi i) → (∀ i, t.Has (p i)) → (∀ i, t.Has (q i)) → (∃ i, q i < p i) →
      ∃ d, distanceTo t o lo hi p q = some d ∧ Grid.distanceTo o lo hi p q < d) := by
  constructor
  · intro h
    have : subV t q p = some fun i => q i - p i := each_some.2 fun i => store_has ht (h i)
    unfold distanceTo
    rw [this]
    rfl
  · rintro hs ht31 hne hp hq ⟨i, hlt⟩
    obtain ⟨w1, w2⟩ := (C117_add ht ht31 hq hp).2.1
    obtain ⟨z, hz⟩ := Option.ne_none_iff_exists'.1 (fun hc => by have := (w1.1 hc).1.2; rw [this] at hs; cases hs)
    refine ⟨_, by unfold distanceTo; rw [hz]; rfl, ?_⟩
    unfold Grid.distanceTo
    rw [fold_jumps lo hi (fun i => q i - p i), fold_jumps lo hi z, zero_add, zero_add, one_mul, one_mul]
    have hzi : ∀ i, 0 ≤ z i := fun i => by
      have := (w2 z hz i).1.1
      unfold ITy.lo at this
      rw [hs] at this
      simpa using this
    refine (jumps_mono hne ?_ _).2 ⟨i, mem_axes o i, by have := hzi i; omega⟩
    intro j
    by_cases hj : q j < p j
    · have := hzi j; omega
    · refine ((w2 z hz j).2.2 (show t.Has (q j - p j) from ?_)).ge
      obtain ⟨a, b⟩ := hp j
      obtain ⟨c, d⟩ := hq j
      have : t.lo = 0 := by unfold ITy.lo; rw [hs]; rfl
      exact ⟨by omega, by omega⟩

/-! ## One dimension -/

/-- **C119.** With one dimension, for types that wrap around, the iterator visits the values from the first one on, and comes to `end()` exactly
after as many steps as there are values, unless these are all values of the type. -/
theorem C119_one {t : ITy} (ht : 2 ≤ t.w) (ht31 : t.w < 31 ∨ 32 ≤ t.w) {lo hi : ℤ} (hl : t.Has lo) (hh : t.Has hi) (hne : lo ≤ hi) :
    (¬ t.Traps ∨ hi < t.hi → ¬ (lo = t.lo ∧ hi = t.hi) →
      (∀ k : ℕ, (k : ℤ) ≤ hi - lo → steps1 t lo k = some (lo + k) ∧ steps1 t lo k ≠ end1 t hi) ∧
      steps1 t lo (hi - lo + 1).toNat = end1 t hi) ∧
    (¬ t.Traps → lo = t.lo → hi = t.hi → end1 t hi = steps1 t lo 0) ∧
    (t.Traps → hi = t.hi → end1 t hi = none) := by
  have hz := has_zero (t := t)
  have hend : ¬ t.Traps ∨ hi < t.hi → end1 t hi = some (if hi = t.hi then t.lo else hi + 1) := by
    intro h
    by_cases hlt : hi < t.hi
    · rw [if_neg hlt.ne]
      exact store_has (by omega) ⟨by have := hh.1; omega, by omega⟩
    · rcases h with h | h
      · unfold end1
        rw [add_def ht ht31 h hh, conv_succ (by omega) hh]
      · exact absurd h hlt
  refine ⟨fun h hnf => ?_, fun hT h1 h2 => ?_, fun hT h => ?_⟩
  · have hstep : ∀ k : ℕ, (k : ℤ) ≤ hi - lo → steps1 t lo k = some (lo + k) := by
      intro k
      induction k with
      | zero => intro _; show some lo = _; simp
      | succ k ih =>
        intro hk
        push_cast at hk
        show (steps1 t lo k >>= _) = _
        rw [ih (by omega)]
        show add t (lo + k) 1 = _
        push_cast
        rw [← add_assoc]
        exact store_has (by omega) ⟨by have := hl.1; omega, by have := hh.2; omega⟩
    refine ⟨fun k hk => ⟨hstep k hk, fun hc => ?_⟩, ?_⟩
    · rw [hstep k hk, hend h, Option.some.injEq] at hc
      have := hl.1
      split_ifs at hc
      · exact hnf ⟨by omega, by assumption⟩
      · omega
    · obtain ⟨m, hm⟩ : ∃ m : ℕ, hi - lo = m := ⟨(hi - lo).toNat, by omega⟩
      have : (hi - lo + 1).toNat = m + 1 := by omega
      rw [this]
      show (steps1 t lo m >>= _) = _
      rw [hstep m (by omega)]
      show add t (lo + m) 1 = end1 t hi
      rw [show lo + (m : ℤ) = hi by omega]
      rfl
  · rw [hend (Or.inl hT), if_pos h2, h1]
    rfl
  · exact (store_none _).2 (Or.inl ⟨hT, fun hc => by have := hc.2; omega⟩)

/-- **C119.** With one dimension, decrementing undoes incrementing, also around the end of the range. -/
theorem C119_decrement_one {t : ITy} (ht : 2 ≤ t.w) (ht31 : t.w < 31 ∨ 32 ≤ t.w) {x y : ℤ} (hx : t.Has x) (h : increment1 t x = some y) :
    decrement1 t y = some x := by
  have ht1 : 1 ≤ t.w := by omega
  have hy := store_sound ht1 h
  have hyh : t.Has y := hy ▸ conv_has ht1 _
  have hmod : y - 1 ≡ x [ZMOD 2 ^ t.w] := by
    have := (conv_mod ht1 (x + 1)).sub_right 1
    rwa [← hy, add_sub_cancel_right] at this
  have hdef : (store t (y - 1)).isSome := by
    by_cases hT : t.Traps
    · have hfit : t.Has (x + 1) := by
        by_contra hc
        have : increment1 t x = none := (store_none _).2 (Or.inl ⟨hT, hc⟩)
        rw [this] at h
        cases h
      have : y = x + 1 := by rw [hy, conv_fix ht1 hfit]
      rw [this, add_sub_cancel_right, store_has ht1 hx]
      rfl
    · refine (store_isSome _).2 ⟨fun hc => absurd hc hT, fun hw => ?_⟩
      have := RectInt.narrow_abs ht1 (by omega) hyh
      norm_num at this ⊢
      omega
  obtain ⟨z, hz⟩ := Option.isSome_iff_exists.1 hdef
  show store t (y - 1) = _
  rw [hz, store_sound ht1 hz, conv_congr ht1 hmod, conv_fix ht1 hx]

/-- **C119.** The difference of one-dimensional iterators: exact for types narrower than `int`, and for signed types where it fits; for unsigned
types of 32 bits and more, but less than 64, it is wrong whenever it is negative. -/
theorem C119_distance_one {t : ITy} (ht : 1 ≤ t.w) {p q : ℤ} (hp : t.Has p) (hq : t.Has q) :
    (t.w < 31 → distance1 t p q = some (q - p)) ∧
    (t.Traps → t.w ≤ 64 → distance1 t p q = if t.Has (q - p) then some (q - p) else none) ∧
    (32 ≤ t.w → t.w < 64 → t.signed = false → distance1 t p q = some (if q < p then q - p + 2 ^ t.w else q - p)) := by
  have c64 : ∀ x : ℤ, -2 ^ 63 ≤ x → x < 2 ^ 63 → conv ⟨64, true⟩ x = x := fun x h1 h2 =>
    conv_fix (by norm_num) (by unfold ITy.Has ITy.lo ITy.hi; norm_num at h1 h2 ⊢; omega)
  refine ⟨fun hw => ?_, fun hT hw => ?_, fun hw hw' hs => ?_⟩
  · have b1 := RectInt.narrow_abs ht hw hp
    have b2 := RectInt.narrow_abs ht hw hq
    norm_num at b1 b2
    unfold distance1
    rw [RectInt.arith_narrow (by omega) (by norm_num; omega), Option.map_some, c64 _ (by norm_num; omega) (by norm_num; omega)]
  · unfold distance1
    rw [promote_wide hT.1]
    unfold arith
    simp only [hT.2, if_true]
    split_ifs with h
    · rw [Option.map_some, c64]
      · have := h.1
        unfold ITy.lo at this
        simp only [hT.2, if_true] at this
        have p : (2 : ℤ) ^ (t.w - 1) ≤ 2 ^ 63 := pow_le_pow_right₀ (by norm_num) (by omega)
        omega
      · have := h.2
        unfold ITy.hi at this
        simp only [hT.2, if_true] at this
        have p : (2 : ℤ) ^ (t.w - 1) ≤ 2 ^ 63 := pow_le_pow_right₀ (by norm_num) (by omega)
        omega
    · rfl
  · unfold distance1
    rw [promote_wide hw]
    unfold arith
    unfold ITy.Has ITy.lo ITy.hi at hp hq
    simp only [hs, Bool.false_eq_true, if_false] at hp hq ⊢
    have pw : (2 : ℤ) ^ t.w ≤ 2 ^ 63 := pow_le_pow_right₀ (by norm_num) (by omega)
    rw [Option.map_some, Option.some.injEq]
    split_ifs with h
    · rw [← Int.add_emod_right, Int.emod_eq_of_lt (by omega) (by omega), c64 _ (by omega) (by omega)]
    · rw [Int.emod_eq_of_lt (by omega) (by omega), c64 _ (by omega) (by omega)]

example : distance1 ⟨32, false⟩ 7 3 = some 4294967292 ∧ distance1 ⟨8, false⟩ 7 3 = some (-4) ∧
    distanceTo ⟨32, false⟩ true (![0, 0] : Fin 2 → ℤ) ![9, 9] ![5, 0] ![0, 1] = some (4294967291 + 10) := by
  decide +kernel

end Geomc.GridInt
