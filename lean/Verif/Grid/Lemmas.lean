import Verif.Grid.Model
import Mathlib.Tactic.Ring
import Mathlib.Tactic.Linarith
import Mathlib.Algebra.Order.BigOperators.Ring.Finset

namespace Geomc.Grid

variable {N : ℕ}

/-- Mixed radix ordinal along a list of axes, first axis fastest. -/
def ord (lo hi : Fin N → ℤ) : List (Fin N) → (Fin N → ℤ) → ℤ
  | [], _ => 0
  | i :: is, pt => (pt i - lo i) + dim lo hi i * ord lo hi is pt

/-- Inside the region on all listed axes, except that the last one may run past the end. -/
def Ok (lo hi : Fin N → ℤ) : List (Fin N) → (Fin N → ℤ) → Prop
  | [], _ => True
  | [l], pt => lo l ≤ pt l
  | i :: j :: is, pt => lo i ≤ pt i ∧ pt i ≤ hi i ∧ Ok lo hi (j :: is) pt

theorem ord_cons (lo hi : Fin N → ℤ) (i : Fin N) (is : List (Fin N)) (p : Fin N → ℤ) :
    ord lo hi (i :: is) p = (p i - lo i) + dim lo hi i * ord lo hi is p := rfl

theorem ord_congr (lo hi : Fin N → ℤ) : ∀ (is : List (Fin N)) (p q : Fin N → ℤ),
    (∀ i ∈ is, p i = q i) → ord lo hi is p = ord lo hi is q := by
  intro is
  induction is with
  | nil => intros; rfl
  | cons i is ih =>
    intro p q h
    rw [ord_cons, ord_cons, h i (by simp), ih p q (fun j hj => h j (by simp [hj]))]

theorem Ok_congr (lo hi : Fin N → ℤ) : ∀ (is : List (Fin N)) (p q : Fin N → ℤ),
    (∀ i ∈ is, p i = q i) → Ok lo hi is p → Ok lo hi is q := by
  intro is
  induction is with
  | nil => intros; trivial
  | cons i is ih =>
    intro p q h hp
    cases is with
    | nil => simp only [Ok] at hp ⊢; rw [← h i (by simp)]; exact hp
    | cons j is =>
      obtain ⟨h1, h2, h3⟩ := hp
      refine ⟨?_, ?_, ih p q (fun k hk => h k (by simp [hk])) h3⟩
      · rw [← h i (by simp)]; exact h1
      · rw [← h i (by simp)]; exact h2

theorem Ok_nonneg (lo hi : Fin N → ℤ) : ∀ (is : List (Fin N)) (p : Fin N → ℤ),
    Ok lo hi is p → 0 ≤ ord lo hi is p := by
  intro is
  induction is with
  | nil => intros; exact le_refl _
  | cons i is ih =>
    intro p hp
    cases is with
    | nil => simp only [Ok] at hp; simp only [ord]; linarith
    | cons j is =>
      obtain ⟨h1, h2, h3⟩ := hp
      have := ih p h3
      rw [ord_cons]
      have hd : 0 ≤ dim lo hi i := by unfold dim; linarith
      have := mul_nonneg hd this
      linarith

theorem inc_spec (lo hi : Fin N → ℤ) (last : Fin N) (hne : ∀ i, lo i ≤ hi i) :
    ∀ (is : List (Fin N)) (hn : is ≠ []) (_ : is.Nodup) (_ : is.getLast hn = last) (p : Fin N → ℤ),
    Ok lo hi is p →
    Ok lo hi is (incLoop lo hi last is p) ∧
    ord lo hi is (incLoop lo hi last is p) = ord lo hi is p + 1 ∧
    ∀ k, k ∉ is → incLoop lo hi last is p k = p k := by
  intro is
  induction is with
  | nil => intro h; exact absurd rfl h
  | cons i is ih =>
    intro _ hnd hlast p hp
    cases is with
    | nil =>
      simp only [List.getLast_singleton] at hlast
      subst hlast
      have e : incLoop lo hi i [i] p = Function.update p i (p i + 1) := by
        simp [incLoop]
      rw [e]
      simp only [Ok] at hp ⊢
      refine ⟨by simp; linarith, by simp [ord]; ring, ?_⟩
      intro k hk
      simp only [List.mem_singleton] at hk
      rw [Function.update_of_ne hk]
    | cons j is =>
      have hi_last : i ≠ last := by
        rw [← hlast]
        intro h
        rw [List.getLast_cons (by simp)] at h
        have : i ∈ j :: is := h ▸ List.getLast_mem _
        exact (List.nodup_cons.1 hnd).1 this
      obtain ⟨h1, h2, h3⟩ := hp
      have hnd' := (List.nodup_cons.1 hnd).2
      have hi_notin := (List.nodup_cons.1 hnd).1
      rw [incLoop]
      simp only [Function.update_self]
      by_cases hc : p i + 1 > hi i
      · rw [if_pos hc, if_pos hi_last, Function.update_idem]
        set q := Function.update p i (lo i) with hq
        have hqe : ∀ k ∈ j :: is, p k = q k := by
          intro k hk
          rw [hq, Function.update_of_ne]
          rintro rfl; exact hi_notin hk
        obtain ⟨a1, a2, a3⟩ := ih (by simp) hnd' (by
          rw [List.getLast_cons (by simp)] at hlast; exact hlast) q (Ok_congr lo hi _ p q hqe h3)
        have hqi := a3 i hi_notin
        have hqi' : q i = lo i := by rw [hq]; simp
        refine ⟨⟨?_, ?_, a1⟩, ?_, ?_⟩
        · rw [hqi, hqi']
        · rw [hqi, hqi']; exact hne i
        · rw [ord_cons, a2, hqi, hqi', ord_cons lo hi i, ord_congr lo hi (j :: is) p q hqe]
          have : p i = hi i := by omega
          rw [this, dim]; ring
        · intro k hk
          rw [List.mem_cons, not_or] at hk
          rw [a3 k hk.2, hq, Function.update_of_ne hk.1]
      · rw [if_neg hc]
        have hqe : ∀ k ∈ j :: is, p k = Function.update p i (p i + 1) k := by
          intro k hk
          rw [Function.update_of_ne]
          rintro rfl; exact hi_notin hk
        refine ⟨⟨?_, ?_, Ok_congr lo hi _ _ _ hqe h3⟩, ?_, ?_⟩
        · simp; omega
        · simp; omega
        · rw [ord_cons, ord_cons lo hi i, ord_congr lo hi (j :: is) p _ hqe]; simp; ring
        · intro k hk
          rw [List.mem_cons, not_or] at hk
          rw [Function.update_of_ne hk.1]

theorem ord_inj (lo hi : Fin N → ℤ) : ∀ (is : List (Fin N)) (p q : Fin N → ℤ),
    Ok lo hi is p → Ok lo hi is q → ord lo hi is p = ord lo hi is q → ∀ i ∈ is, p i = q i := by
  intro is
  induction is with
  | nil => intro p q _ _ _ i hi; simp at hi
  | cons i is ih =>
    intro p q hp hq h
    cases is with
    | nil =>
      simp only [ord] at h
      intro k hk
      simp only [List.mem_singleton] at hk
      subst hk; linarith
    | cons j is =>
      obtain ⟨h1, h2, h3⟩ := hp
      obtain ⟨g1, g2, g3⟩ := hq
      rw [ord_cons, ord_cons lo hi i] at h
      have hd : 0 < dim lo hi i := by unfold dim; linarith
      have e1 : (p i - lo i) % dim lo hi i = p i - lo i :=
        Int.emod_eq_of_lt (by omega) (by unfold dim; omega)
      have e2 : (q i - lo i) % dim lo hi i = q i - lo i :=
        Int.emod_eq_of_lt (by omega) (by unfold dim; omega)
      have hm := congrArg (· % dim lo hi i) h
      simp only [Int.add_mul_emod_self_left, e1, e2] at hm
      have hpi : p i = q i := by linarith
      have ho : ord lo hi (j :: is) p = ord lo hi (j :: is) q := by
        rw [hpi] at h
        have := add_left_cancel h
        exact mul_left_cancel₀ hd.ne' this
      intro k hk
      rcases List.mem_cons.1 hk with rfl | hk
      · exact hpi
      · exact ih p q h3 g3 ho k hk

/-- The ordinal as a sum over axes. -/
theorem ord_sum (lo hi : Fin N → ℤ) (r : Fin N → Fin N → Prop) [DecidableRel r]
    (hr : ∀ a, ¬ r a a) (hasymm : ∀ a b, r a b → ¬ r b a) :
    ∀ (is : List (Fin N)), is.Pairwise r → ∀ p,
    ord lo hi is p = ∑ i ∈ is.toFinset, (p i - lo i) * ∏ j ∈ is.toFinset.filter (r · i), dim lo hi j := by
  intro is
  induction is with
  | nil => intro _ p; simp [ord]
  | cons i is ih =>
    intro hp p
    obtain ⟨h1, h2⟩ := List.pairwise_cons.1 hp
    have hni : i ∉ is.toFinset := by
      intro h; exact hr i (h1 i (by simpa using h))
    rw [ord, ih h2 p, List.toFinset_cons, Finset.sum_insert hni, Finset.filter_insert]
    rw [if_neg (hr i)]
    have e0 : is.toFinset.filter (r · i) = ∅ := by
      rw [Finset.filter_eq_empty_iff]
      intro k hk hki
      exact hasymm _ _ hki (h1 k (by simpa using hk))
    rw [e0, Finset.prod_empty, mul_one, Finset.mul_sum]
    congr 1
    apply Finset.sum_congr rfl
    intro k hk
    rw [Finset.filter_insert, if_pos (h1 k (by simpa using hk)), Finset.prod_insert]
    · ring
    · simp [hni]

/-- Product of all dimensions along a list. -/
def vprod (lo hi : Fin N → ℤ) (is : List (Fin N)) : ℤ := (is.map (dim lo hi)).prod

theorem ord_end (lo hi : Fin N → ℤ) (last : Fin N) :
    ∀ (is : List (Fin N)) (hn : is ≠ []) (_ : is.Nodup) (_ : is.getLast hn = last),
    ord lo hi is (Function.update lo last (hi last + 1)) = vprod lo hi is := by
  intro is
  induction is with
  | nil => intro h; exact absurd rfl h
  | cons i is ih =>
    intro _ hnd hlast
    cases is with
    | nil =>
      simp only [List.getLast_singleton] at hlast
      subst hlast
      simp [ord, vprod, dim]; ring
    | cons j is =>
      rw [List.getLast_cons (by simp)] at hlast
      have hi_last : i ≠ last := by
        rw [← hlast]; intro h
        exact (List.nodup_cons.1 hnd).1 (h ▸ List.getLast_mem _)
      rw [ord_cons, ih (by simp) (List.nodup_cons.1 hnd).2 hlast, Function.update_of_ne hi_last]
      simp [vprod]

theorem Ok_end (lo hi : Fin N → ℤ) (hne : ∀ i, lo i ≤ hi i) (last : Fin N) :
    ∀ (is : List (Fin N)) (hn : is ≠ []) (_ : is.Nodup) (_ : is.getLast hn = last),
    Ok lo hi is (Function.update lo last (hi last + 1)) := by
  intro is
  induction is with
  | nil => intro h; exact absurd rfl h
  | cons i is ih =>
    intro _ hnd hlast
    cases is with
    | nil =>
      simp only [List.getLast_singleton] at hlast
      subst hlast
      simp only [Ok, Function.update_self]; have := hne i; omega
    | cons j is =>
      rw [List.getLast_cons (by simp)] at hlast
      have hi_last : i ≠ last := by
        rw [← hlast]; intro h
        exact (List.nodup_cons.1 hnd).1 (h ▸ List.getLast_mem _)
      refine ⟨?_, ?_, ih (by simp) (List.nodup_cons.1 hnd).2 hlast⟩
      · rw [Function.update_of_ne hi_last]
      · rw [Function.update_of_ne hi_last]; exact hne i

/-- Inside the region: `Ok` with ordinal below the volume. -/
theorem Ok_region (lo hi : Fin N → ℤ) : ∀ (is : List (Fin N)) (p : Fin N → ℤ),
    (∀ i ∈ is, lo i ≤ p i ∧ p i ≤ hi i) → Ok lo hi is p ∧ ord lo hi is p < vprod lo hi is := by
  intro is
  induction is with
  | nil => intro p _; simp [Ok, ord, vprod]
  | cons i is ih =>
    intro p h
    obtain ⟨h1, h2⟩ := h i (by simp)
    obtain ⟨g1, g2⟩ := ih p (fun k hk => h k (by simp [hk]))
    constructor
    · cases is with
      | nil => exact h1
      | cons j is => exact ⟨h1, h2, g1⟩
    · rw [ord]
      have hv : vprod lo hi (i :: is) = dim lo hi i * vprod lo hi is := by simp [vprod]
      rw [hv]
      have hd : 0 < dim lo hi i := by unfold dim; omega
      have h3 : ord lo hi is p + 1 ≤ vprod lo hi is := g2
      have h4 := mul_le_mul_of_nonneg_left h3 hd.le
      have h5 : p i - lo i < dim lo hi i := by unfold dim; omega
      linarith

theorem region_of_ord (lo hi : Fin N → ℤ) (hne : ∀ i, lo i ≤ hi i) :
    ∀ (is : List (Fin N)) (p : Fin N → ℤ),
    Ok lo hi is p → ord lo hi is p < vprod lo hi is → ∀ i ∈ is, lo i ≤ p i ∧ p i ≤ hi i := by
  intro is
  induction is with
  | nil => intro p _ _ i hi; simp at hi
  | cons i is ih =>
    intro p hp h
    have hv : vprod lo hi (i :: is) = dim lo hi i * vprod lo hi is := by simp [vprod]
    cases is with
    | nil =>
      intro k hk
      simp only [List.mem_singleton] at hk
      subst hk
      simp only [Ok] at hp
      simp only [ord, vprod, List.map_cons, List.map_nil, List.prod_cons, List.prod_nil, dim] at h
      omega
    | cons j is =>
      obtain ⟨h1, h2, h3⟩ := hp
      rw [ord_cons, hv] at h
      have hd : 0 < dim lo hi i := by unfold dim; omega
      have h4 : ord lo hi (j :: is) p < vprod lo hi (j :: is) := by
        by_contra hcon
        have := mul_le_mul_of_nonneg_left (not_lt.1 hcon) hd.le
        linarith
      intro k hk
      rcases List.mem_cons.1 hk with rfl | hk
      · exact ⟨h1, h2⟩
      · exact ih p h3 h4 k hk

theorem axes_nodup (o : Bool) (N : ℕ) : (axes o N).Nodup := by
  unfold axes; split_ifs
  · exact List.nodup_finRange N
  · exact List.nodup_reverse.2 (List.nodup_finRange N)

theorem mem_axes (o : Bool) (i : Fin N) : i ∈ axes o N := by
  unfold axes; split_ifs <;> simp

theorem axes_ne [NeZero N] (o : Bool) : axes o N ≠ [] := by
  intro h
  have := mem_axes o (⟨0, Nat.pos_of_neZero N⟩ : Fin N)
  rw [h] at this; simp at this

theorem axes_last [NeZero N] (o : Bool) : (axes o N).getLast (axes_ne o) = dimLast o N := by
  have hN := Nat.pos_of_neZero N
  cases o with
  | true =>
    simp only [axes, if_true, dimLast, dimLast.Fin.last']
    rw [List.getLast_eq_getElem]
    apply Fin.ext
    simp
  | false =>
    simp only [axes, dimLast, Bool.false_eq_true, if_false]
    rw [List.getLast_reverse]
    rw [List.head_eq_getElem]
    apply Fin.ext
    simp

theorem axes_toFinset (o : Bool) : (axes o N).toFinset = Finset.univ := by
  ext i; simp [mem_axes]

theorem axes_prod (o : Bool) (f : Fin N → ℤ) : ((axes o N).map f).prod = ∏ i, f i := by
  rw [← axes_toFinset o, List.prod_toFinset _ (axes_nodup o N)]

theorem dist_fold (lo hi p q : Fin N → ℤ) (hne : ∀ i, lo i ≤ hi i) :
    ∀ (is : List (Fin N)) (d v : ℤ),
    (is.foldl (fun (st : ℤ × ℤ) i =>
      (st.1 + st.2 * (q i - p i), st.2 * max (dim lo hi i) 0)) (d, v)).1 =
    d + v * (ord lo hi is q - ord lo hi is p) := by
  intro is
  induction is with
  | nil => intro d v; simp [ord]
  | cons i is ih =>
    intro d v
    rw [List.foldl_cons, ih, ord_cons, ord_cons]
    have : max (dim lo hi i) 0 = dim lo hi i := max_eq_left (by unfold dim; have := hne i; omega)
    simp only [this]
    ring

theorem volume_eq (lo hi : Fin N → ℤ) (hne : ∀ i, lo i ≤ hi i) :
    volume lo hi = ∏ i, (hi i - lo i + 1) := by
  have h : ∀ (is : List (Fin N)) (v : ℤ),
      is.foldl (fun vol i => vol * max (dim lo hi i) 0) v = v * (is.map (dim lo hi)).prod := by
    intro is
    induction is with
    | nil => intro v; simp
    | cons i is ih =>
      intro v
      rw [List.foldl_cons, ih]
      have : max (dim lo hi i) 0 = dim lo hi i := max_eq_left (by unfold dim; have := hne i; omega)
      rw [this]; simp; ring
  rw [volume, h, one_mul]
  have := axes_prod true (dim lo hi)
  simp only [axes, if_true] at this
  rw [this]; rfl

theorem ord_append (lo hi : Fin N → ℤ) (i : Fin N) (p : Fin N → ℤ) : ∀ is : List (Fin N),
    ord lo hi (is ++ [i]) p = ord lo hi is p + vprod lo hi is * (p i - lo i) := by
  intro is
  induction is with
  | nil => simp [ord, vprod]
  | cons j is ih =>
    rw [List.cons_append, ord_cons, ih, ord_cons]
    simp only [vprod, List.map_cons, List.prod_cons]
    ring

theorem Ok_append (lo hi : Fin N → ℤ) (i : Fin N) (p : Fin N → ℤ) (hi' : lo i ≤ p i) :
    ∀ is : List (Fin N), (∀ k ∈ is, lo k ≤ p k ∧ p k ≤ hi k) → Ok lo hi (is ++ [i]) p := by
  intro is
  induction is with
  | nil => intro _; exact hi'
  | cons j is ih =>
    intro h
    have h2 := ih (fun k hk => h k (by simp [hk]))
    obtain ⟨a, b⟩ := h j (by simp)
    cases is with
    | nil => exact ⟨a, b, h2⟩
    | cons k is => exact ⟨a, b, h2⟩

theorem vprod_pos (lo hi : Fin N → ℤ) (hne : ∀ i, lo i ≤ hi i) : ∀ is : List (Fin N),
    0 < vprod lo hi is := by
  intro is
  induction is with
  | nil => simp [vprod]
  | cons j is ih =>
    have : vprod lo hi (j :: is) = dim lo hi j * vprod lo hi is := by simp [vprod]
    rw [this]
    exact mul_pos (by unfold dim; have := hne j; omega) ih

theorem vprod_reverse (lo hi : Fin N → ℤ) (is : List (Fin N)) :
    vprod lo hi is.reverse = vprod lo hi is := by
  simp [vprod, List.prod_reverse]

/-- The tail of `advance`'s loop writes the mixed radix digits of `n`. -/
theorem adv_tail (lo hi : Fin N → ℤ) (hne : ∀ i, lo i ≤ hi i) (hlo : ∀ i, lo i = 0) :
    ∀ (L : List (Fin N)) (_ : L.Nodup) (n : ℤ) (dest : Fin N → ℤ), 0 ≤ n → n < vprod lo hi L →
    ∃ r, advLoop lo hi L (vprod lo hi L) n dest = some r ∧
      ord lo hi L.reverse r = n ∧ (∀ k ∈ L, lo k ≤ r k ∧ r k ≤ hi k) ∧
      ∀ k, k ∉ L → r k = dest k := by
  intro L
  induction L with
  | nil =>
    intro _ n dest h0 h1
    simp only [vprod, List.map_nil, List.prod_nil] at h1
    exact ⟨dest, rfl, by simp [ord]; omega, by simp, fun _ _ => rfl⟩
  | cons i L ih =>
    intro hnd n dest h0 h1
    obtain ⟨hni, hnd'⟩ := List.nodup_cons.1 hnd
    have hv : vprod lo hi (i :: L) = dim lo hi i * vprod lo hi L := by simp [vprod]
    have hd : 0 < dim lo hi i := by unfold dim; have := hne i; omega
    have hV := vprod_pos lo hi hne L
    have hdiv : (dim lo hi i * vprod lo hi L).tdiv (dim lo hi i) = vprod lo hi L :=
      Int.mul_tdiv_cancel_left _ hd.ne'
    rw [hv] at h1
    rw [advLoop, if_neg hd.ne', hv, hdiv, if_neg hV.ne']
    have hm : n.tmod (vprod lo hi L) = n % vprod lo hi L := Int.tmod_eq_emod_of_nonneg h0
    have hq : n.tdiv (vprod lo hi L) = n / vprod lo hi L := Int.tdiv_eq_ediv_of_nonneg h0
    obtain ⟨r, e1, e2, e3, e4⟩ := ih hnd' (n.tmod (vprod lo hi L))
      (Function.update dest i (n.tdiv (vprod lo hi L))) (by rw [hm]; exact Int.emod_nonneg _ hV.ne')
      (by rw [hm]; exact Int.emod_lt_of_pos _ hV)
    have hri : r i = n / vprod lo hi L := by rw [e4 i hni, Function.update_self, hq]
    refine ⟨r, e1, ?_, ?_, ?_⟩
    · rw [List.reverse_cons, ord_append, e2, hri, hlo, vprod_reverse, hm, sub_zero]
      exact Int.emod_add_mul_ediv n _
    · intro k hk
      rcases List.mem_cons.1 hk with rfl | hk
      · rw [hri, hlo]
        refine ⟨Int.ediv_nonneg h0 hV.le, ?_⟩
        have : n / vprod lo hi L < dim lo hi k := Int.ediv_lt_of_lt_mul hV h1
        rw [dim, hlo] at this; omega
      · exact e3 k hk
    · intro k hk
      rw [List.mem_cons, not_or] at hk
      rw [e4 k hk.2, Function.update_of_ne hk.1]

theorem adv_spec (lo hi : Fin N → ℤ) (hne : ∀ i, lo i ≤ hi i) (hlo : ∀ i, lo i = 0)
    (is : List (Fin N)) (hn : is ≠ []) (hnd : is.Nodup) (n : ℤ) (dest : Fin N → ℤ) (h0 : 0 ≤ n) :
    ∃ r, advLoop lo hi is.reverse (vprod lo hi is) n dest = some r ∧
      ord lo hi is r = n ∧ Ok lo hi is r := by
  obtain ⟨L, rfl⟩ : ∃ L : List (Fin N), is = L.reverse := ⟨is.reverse, by simp⟩
  rw [List.reverse_reverse, vprod_reverse]
  rw [List.nodup_reverse] at hnd
  cases L with
  | nil => simp at hn
  | cons i L =>
    obtain ⟨hni, hnd'⟩ := List.nodup_cons.1 hnd
    have hv : vprod lo hi (i :: L) = dim lo hi i * vprod lo hi L := by simp [vprod]
    have hd : 0 < dim lo hi i := by unfold dim; have := hne i; omega
    have hV := vprod_pos lo hi hne L
    have hdiv : (dim lo hi i * vprod lo hi L).tdiv (dim lo hi i) = vprod lo hi L :=
      Int.mul_tdiv_cancel_left _ hd.ne'
    rw [advLoop, if_neg hd.ne', hv, hdiv, if_neg hV.ne']
    have hm : n.tmod (vprod lo hi L) = n % vprod lo hi L := Int.tmod_eq_emod_of_nonneg h0
    have hq : n.tdiv (vprod lo hi L) = n / vprod lo hi L := Int.tdiv_eq_ediv_of_nonneg h0
    obtain ⟨r, e1, e2, e3, e4⟩ := adv_tail lo hi hne hlo L hnd' (n.tmod (vprod lo hi L))
      (Function.update dest i (n.tdiv (vprod lo hi L))) (by rw [hm]; exact Int.emod_nonneg _ hV.ne')
      (by rw [hm]; exact Int.emod_lt_of_pos _ hV)
    have hri : r i = n / vprod lo hi L := by rw [e4 i hni, Function.update_self, hq]
    refine ⟨r, e1, ?_, ?_⟩
    · rw [List.reverse_cons, ord_append, e2, hri, hlo, vprod_reverse, hm, sub_zero]
      exact Int.emod_add_mul_ediv n _
    · rw [List.reverse_cons]
      apply Ok_append
      · rw [hri, hlo]; exact Int.ediv_nonneg h0 hV.le
      · intro k hk; exact e3 k (by simpa using hk)

end Geomc.Grid
