import Verif.Grid.Lemmas

/-!
# C19, C20: `GridIterator`
-/

namespace Geomc.Grid

variable {N : ℕ}

/-- `q` is a cell of the inclusive region `[lo, hi]`. -/
def InRegion (lo hi q : Fin N → ℤ) : Prop := ∀ i, lo i ≤ q i ∧ q i ≤ hi i

/-- Number of cells of the region. -/
def cells (lo hi : Fin N → ℤ) : ℤ := ∏ i, (hi i - lo i + 1)

/-- Position of a cell in the documented order: with `o` the first axis is consecutive, otherwise the
last one. -/
def ordinal (o : Bool) (lo hi q : Fin N → ℤ) : ℤ :=
  ∑ i, (q i - lo i) * ∏ j with (if o then j < i else i < j), (hi j - lo j + 1)

theorem ord_eq_ordinal (o : Bool) (lo hi q : Fin N → ℤ) :
    ord lo hi (axes o N) q = ordinal o lo hi q := by
  unfold ordinal
  cases o with
  | true =>
    have hp : (axes true N).Pairwise (· < ·) := by
      simp only [axes, if_true]; exact List.pairwise_lt_finRange N
    rw [ord_sum lo hi (· < ·) (fun a => lt_irrefl a) (fun a b h => not_lt.2 h.le) _ hp,
      axes_toFinset]
    simp [dim]
  | false =>
    have hp : (axes false N).Pairwise (· > ·) := by
      simp only [axes, Bool.false_eq_true, if_false]
      rw [List.pairwise_reverse]; exact List.pairwise_lt_finRange N
    rw [ord_sum lo hi (· > ·) (fun a => lt_irrefl a) (fun a b h => not_lt.2 (le_of_lt h)) _ hp,
      axes_toFinset]
    simp [dim]

variable [NeZero N]

theorem iter_spec (o : Bool) (lo hi : Fin N → ℤ) (hne : ∀ i, lo i ≤ hi i) (n : ℕ) :
    Ok lo hi (axes o N) ((increment o lo hi)^[n] (begin' lo)) ∧
    ord lo hi (axes o N) ((increment o lo hi)^[n] (begin' lo)) = n := by
  induction n with
  | zero =>
    obtain ⟨h1, _⟩ := Ok_region lo hi (axes o N) lo (fun i _ => ⟨le_refl _, hne i⟩)
    refine ⟨h1, ?_⟩
    have : ∀ is : List (Fin N), ord lo hi is lo = 0 := by
      intro is
      induction is with
      | nil => rfl
      | cons i is ih => rw [ord_cons, ih]; ring
    simpa [begin'] using this _
  | succ n ih =>
    rw [Function.iterate_succ_apply']
    obtain ⟨a, b, _⟩ := inc_spec lo hi (dimLast o N) hne (axes o N) (axes_ne o) (axes_nodup o N)
      (axes_last o) _ ih.1
    refine ⟨a, ?_⟩
    rw [increment, b, ih.2]; push_cast; ring

theorem vprod_axes (o : Bool) (lo hi : Fin N → ℤ) : vprod lo hi (axes o N) = cells lo hi := by
  rw [vprod, axes_prod]; rfl

theorem inj_ok (o : Bool) (lo hi p q : Fin N → ℤ) (hp : Ok lo hi (axes o N) p)
    (hq : Ok lo hi (axes o N) q) (h : ord lo hi (axes o N) p = ord lo hi (axes o N) q) : p = q := by
  funext i
  exact ord_inj lo hi _ p q hp hq h i (mem_axes o i)

/-- **C19.** For every dimension, both axis orders and every non-empty region: the iterator started at
`begin()` is in the region for the first `cells` steps and equals `end()` after that many; each cell `q`
of the region is visited exactly once, namely at step `ordinal q`, the documented order; and the distance
between the positions after `m` and after `n` increments is `n - m`. -/
theorem C19_enumerates (o : Bool) (lo hi : Fin N → ℤ) (hne : ∀ i, lo i ≤ hi i) :
    (∀ n : ℕ, (n : ℤ) < cells lo hi →
      InRegion lo hi ((increment o lo hi)^[n] (begin' lo)) ∧
      (increment o lo hi)^[n] (begin' lo) ≠ end' o lo hi) ∧
    (increment o lo hi)^[(cells lo hi).toNat] (begin' lo) = end' o lo hi ∧
    (∀ q, InRegion lo hi q → 0 ≤ ordinal o lo hi q ∧ ordinal o lo hi q < cells lo hi ∧
      ∀ n : ℕ, (increment o lo hi)^[n] (begin' lo) = q ↔ (n : ℤ) = ordinal o lo hi q) ∧
    (∀ m n : ℕ, distanceTo o lo hi ((increment o lo hi)^[m] (begin' lo))
      ((increment o lo hi)^[n] (begin' lo)) = n - m) := by
  have hend := Ok_end lo hi hne (dimLast o N) (axes o N) (axes_ne o) (axes_nodup o N) (axes_last o)
  have hordend := ord_end lo hi (dimLast o N) (axes o N) (axes_ne o) (axes_nodup o N) (axes_last o)
  rw [vprod_axes] at hordend
  have hpos : 0 < cells lo hi := by rw [← vprod_axes o]; exact vprod_pos lo hi hne _
  refine ⟨?_, ?_, ?_, ?_⟩
  · intro n hn
    obtain ⟨h1, h2⟩ := iter_spec o lo hi hne n
    constructor
    · intro i
      exact region_of_ord lo hi hne _ _ h1 (by rw [h2, vprod_axes]; exact hn) i (mem_axes o i)
    · intro h
      rw [h] at h2
      rw [end', hordend] at h2
      omega
  · obtain ⟨h1, h2⟩ := iter_spec o lo hi hne (cells lo hi).toNat
    refine inj_ok o lo hi _ _ h1 hend ?_
    rw [h2, end', hordend]; omega
  · intro q hq
    obtain ⟨h1, h2⟩ := Ok_region lo hi (axes o N) q (fun i _ => hq i)
    have h0 := Ok_nonneg lo hi _ q h1
    rw [vprod_axes] at h2
    rw [← ord_eq_ordinal]
    refine ⟨h0, h2, fun n => ?_⟩
    obtain ⟨g1, g2⟩ := iter_spec o lo hi hne n
    constructor
    · rintro rfl; exact g2.symm
    · intro h
      exact inj_ok o lo hi _ _ g1 h1 (by rw [g2, h])
  · intro m n
    rw [distanceTo, dist_fold lo hi _ _ hne, (iter_spec o lo hi hne m).2,
      (iter_spec o lo hi hne n).2]
    ring

/-- A 2×3 region away from the origin: six cells, visited with the first axis fastest. -/
example : let lo : Fin 2 → ℤ := ![-1, 4]; let hi : Fin 2 → ℤ := ![0, 6]
    (∀ i, lo i ≤ hi i) ∧ cells lo hi = 6 ∧
    (List.range 7).map (fun n => (fun p : Fin 2 → ℤ => (p 0, p 1))
        ((increment true lo hi)^[n] (begin' lo))) =
      [(-1, 4), (0, 4), (-1, 5), (0, 5), (-1, 6), (0, 6), (-1, 7)] := by
  refine ⟨by decide, by decide, by decide⟩

/-- The constructor from an exclusive upper bound covers `[lo, hi)` for two or more dimensions; its one
dimensional specialisation covers two cells too many. -/
theorem C19_exclusive_ctor {N : ℕ} [NeZero N] (lo hi q : Fin N → ℤ) :
    InRegion (regionOf lo hi).1 (regionOf lo hi).2 q ↔ ∀ i, lo i ≤ q i ∧ q i < hi i := by
  simp only [InRegion, regionOf]
  constructor <;> intro h i <;> have := h i <;> omega

theorem C19_exclusive_ctor_1d_refuted (lo hi : Fin 1 → ℤ) (h : lo 0 ≤ hi 0 + 1) :
    InRegion (regionOf1 lo hi).1 (regionOf1 lo hi).2 (fun _ => hi 0 + 1) := by
  intro i
  have : i = 0 := Subsingleton.elim _ _
  subst this
  simp only [regionOf1]
  exact ⟨h, le_refl _⟩

/-! ## C20 -/

/-- First axis visited by the loops. -/
def firstAxis (o : Bool) (N : ℕ) [NeZero N] : Fin N := dimLast (!o) N

theorem axes_head (o : Bool) : ∃ t, axes o N = firstAxis o N :: t := by
  have hlast := axes_last (N := N) (!o)
  have hrev : axes o N = (axes (!o) N).reverse := by cases o <;> simp [axes]
  have hne := axes_ne (N := N) (!o)
  rw [hrev]
  refine ⟨(axes (!o) N).dropLast.reverse, ?_⟩
  conv_lhs => rw [← List.dropLast_append_getLast hne, List.reverse_append]
  rw [hlast]; rfl

/-- **C20, exact condition for decrement.** In two or more dimensions, decrementing undoes incrementing
at a position of the region exactly when the increment did not carry into a second axis.  (Whenever it
did carry the code restores `hi - 1` instead of `hi`.) -/
theorem C20_decrement_iff (o : Bool) (hN : 2 ≤ N) (lo hi q : Fin N → ℤ) (hq : InRegion lo hi q) :
    decrement o lo hi (increment o lo hi q) = q ↔ q (firstAxis o N) < hi (firstAxis o N) := by
  obtain ⟨t, ht⟩ := axes_head (N := N) o
  have hnd := axes_nodup o N
  rw [ht] at hnd
  obtain ⟨hnt, _⟩ := List.nodup_cons.1 hnd
  set f := firstAxis o N with hf
  have hfl : f ≠ dimLast o N := by
    rw [hf, firstAxis]
    intro h
    have := congrArg Fin.val h
    cases o <;> simp [dimLast, dimLast.Fin.last'] at this <;> omega
  have huntouched : ∀ (lo hi : Fin N → ℤ) (l : Fin N) (is : List (Fin N)) (p : Fin N → ℤ) (k : Fin N),
      k ∉ is → incLoop lo hi l is p k = p k := by
    intro lo hi l is
    induction is with
    | nil => intros; rfl
    | cons i is ih =>
      intro p k hk
      rw [List.mem_cons, not_or] at hk
      rw [incLoop]
      try dsimp only
      split_ifs
      · rw [ih _ _ hk.2, Function.update_of_ne hk.1, Function.update_of_ne hk.1]
      · rw [ih _ _ hk.2, Function.update_of_ne hk.1]
      · rw [Function.update_of_ne hk.1]
  have huntouched' : ∀ (lo hi : Fin N → ℤ) (l : Fin N) (is : List (Fin N)) (p : Fin N → ℤ) (k : Fin N),
      k ∉ is → decLoop lo hi l is p k = p k := by
    intro lo hi l is
    induction is with
    | nil => intros; rfl
    | cons i is ih =>
      intro p k hk
      rw [List.mem_cons, not_or] at hk
      rw [decLoop]
      try dsimp only
      split_ifs
      · rw [ih _ _ hk.2, Function.update_of_ne hk.1, Function.update_of_ne hk.1]
      · rw [ih _ _ hk.2, Function.update_of_ne hk.1]
      · rw [Function.update_of_ne hk.1]
  obtain ⟨h1, h2⟩ := hq f
  constructor
  · intro h
    by_contra hcon
    have hqf : q f = hi f := by omega
    have hinc : increment o lo hi q f = lo f := by
      rw [increment, ht, incLoop]
      simp only [Function.update_self]
      rw [if_pos (by omega), if_pos hfl, huntouched _ _ _ _ _ _ hnt, Function.update_self]
    have hdec : decrement o lo hi (increment o lo hi q) f = hi f - 1 := by
      rw [decrement, ht, decLoop]
      simp only [Function.update_self]
      rw [if_pos (by omega), if_pos hfl, huntouched' _ _ _ _ _ _ hnt, Function.update_self]
    rw [h] at hdec
    omega
  · intro h
    have hinc : increment o lo hi q = Function.update q f (q f + 1) := by
      rw [increment, ht, incLoop]
      simp only [Function.update_self]
      rw [if_neg (by omega)]
    rw [hinc, decrement, ht, decLoop]
    simp only [Function.update_self]
    rw [if_neg (by omega), Function.update_idem, add_sub_cancel_right, Function.update_eq_self]

example : InRegion (N := 2) ![0, 0] ![2, 2] ![1, 0] := by unfold InRegion; decide

/-- **C20 refuted**: stepping forward over a row end and back lands elsewhere. -/
theorem C20_decrement_refuted :
    let lo : Fin 2 → ℤ := ![0, 0]; let hi : Fin 2 → ℤ := ![2, 2]
    decrement true lo hi (increment true lo hi ![2, 0]) = ![1, 0] := by decide

/-- **C20, partial.** In one dimension (`pt++`, `pt--`) decrementing undoes incrementing, and for
regions based at the origin `begin() + n` is the position after `n` increments, up to and including
`end()`.
Missing: decrement across a row end, and advance from any other position, both false. -/
theorem C20_partial :
    (∀ (o : Bool) (lo hi q : Fin 1 → ℤ), InRegion lo hi q → decrement o lo hi (increment o lo hi q) = q) ∧
    (∀ (o : Bool) (hi : Fin N → ℤ) (n : ℕ), (∀ i, 0 ≤ hi i) →
      advance o (fun _ => 0) hi (begin' fun _ => 0) n =
        some ((increment o (fun _ => 0) hi)^[n] (begin' fun _ => 0))) := by
  constructor
  · intro o lo hi q hq
    have hl : dimLast o 1 = 0 := Subsingleton.elim _ _
    have ha : axes o 1 = [0] := by cases o <;> decide
    rw [increment, decrement, ha, hl]
    have h0 := hq 0
    simp only [incLoop, decLoop, ne_eq, not_true_eq_false, if_false, ite_self, Function.update_self,
      Function.update_idem, add_sub_cancel_right, Function.update_eq_self]
  · intro o hi n hne
    have hne' : ∀ i, (fun _ : Fin N => (0 : ℤ)) i ≤ hi i := hne
    obtain ⟨r, e1, e2, e3⟩ := adv_spec (fun _ => 0) hi hne' (fun _ => rfl) (axes o N) (axes_ne o)
      (axes_nodup o N) n (fun _ => 0) (by omega)
    have hv : volume (fun _ => 0) hi = vprod (fun _ => 0) hi (axes o N) := by
      rw [volume_eq _ _ hne', vprod_axes]; rfl
    rw [advance, hv, e1]
    congr 1
    obtain ⟨g1, g2⟩ := iter_spec o (fun _ => 0) hi hne' n
    exact inj_ok o _ _ _ _ e3 g1 (by rw [e2, g2])

/-- **C20 refuted** for `it += n`: the current position is ignored, so advancing from different
positions by the same amount always gives the same result, and `it += 0` moves the iterator. -/
theorem C20_advance_refuted :
    (∀ (o : Bool) (lo hi p q : Fin N → ℤ) (n : ℤ), advance o lo hi p n = advance o lo hi q n) ∧
    (let lo : Fin 2 → ℤ := ![5, 5]; let hi : Fin 2 → ℤ := ![6, 6]
     (advance true lo hi lo 0).map (fun p => (p 0, p 1)) = some (0, 0)) :=
  ⟨fun _ _ _ _ _ _ => rfl, by decide⟩

end Geomc.Grid
