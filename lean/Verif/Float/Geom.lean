import Verif.Float.GeomModel
import Verif.Float.Range

/-! # Property C111: rounding in products with matrices, transforms, ray points and containment tests -/

namespace Geomc.Flt

variable {K : Type} [Field K] [LinearOrder K] [IsStrictOrderedRing K] [FloorRing K] {m n : ℕ}

/-! ## Sums of rounded products -/

theorem sum_step {p : ℕ} (hp : 1 ≤ p) {rnd : K → K} (h : IsRound p rnd) {w s S A c : K} (hc : 1 ≤ c)
    (ih : |s - S| ≤ ((1 + eps K p) * c - 1) * A) (ih' : |S| ≤ A) :
    |rnd (s + rnd w) - (S + w)| ≤ ((1 + eps K p) * (c * (1 + eps K p)) - 1) * (A + |w|) := by
  have e0 := eps_pos (K := K) p
  set e := eps K p
  have r1 : |rnd w - w| ≤ e * |w| := h.rel hp w
  have r2 : |rnd (s + rnd w) - (s + rnd w)| ≤ e * |s + rnd w| := h.rel hp _
  have hw : |rnd w| ≤ (1 + e) * |w| := by
    have := abs_sub_abs_le_abs_sub (rnd w) w
    linarith
  have hs : |s| ≤ (1 + e) * c * A := by
    have := abs_sub_abs_le_abs_sub s S
    linarith
  have hsw : |s + rnd w| ≤ (1 + e) * c * A + (1 + e) * |w| := (abs_add_le _ _).trans (by linarith)
  have t1 : |rnd (s + rnd w) - (S + w)| ≤ |rnd (s + rnd w) - (s + rnd w)| + |s - S| + |rnd w - w| := by
    refine le_trans (le_of_eq ?_) ((abs_add_le _ _).trans (add_le_add_left (abs_add_le _ _) _))
    congr 1; ring
  have t2 : e * |s + rnd w| ≤ e * ((1 + e) * c * A + (1 + e) * |w|) := mul_le_mul_of_nonneg_left hsw e0.le
  have hw0 : 0 ≤ |w| := abs_nonneg w
  have hA : 0 ≤ A := (abs_nonneg S).trans ih'
  have t3 : 0 ≤ (c - 1) * ((1 + e) ^ 2 * |w|) := mul_nonneg (by linarith) (by positivity)
  nlinarith

theorem prod_list {ι : Type} {p : ℕ} (hp : 1 ≤ p) {rnd : K → K} (h : IsRound p rnd) (f : ι → K) (l : List ι) :
    |l.foldl (fun x i => rnd (x + rnd (f i))) 0 - (l.map f).sum| ≤
      ((1 + eps K p) * (1 + eps K p) ^ l.length - 1) * (l.map fun i => |f i|).sum ∧
    |(l.map f).sum| ≤ (l.map fun i => |f i|).sum := by
  induction l using List.reverseRecOn with
  | nil => simp
  | append_singleton l i ih =>
    obtain ⟨ih, ih'⟩ := ih
    simp only [List.foldl_append, List.foldl_cons, List.foldl_nil, List.map_append, List.map_cons,
      List.map_nil, List.sum_append, List.sum_cons, List.sum_nil, List.length_append, List.length_cons,
      List.length_nil, add_zero, zero_add]
    have e0 := eps_pos (K := K) p
    refine ⟨?_, (abs_add_le _ _).trans (by linarith)⟩
    rw [pow_succ]
    exact sum_step hp h (one_le_pow₀ (by linarith)) ih ih'

theorem prod_sum {p : ℕ} (hp : 1 ≤ p) {rnd : K → K} (h : IsRound p rnd) (f : Fin n → K) :
    |(List.finRange n).foldl (fun x i => rnd (x + rnd (f i))) 0 - ∑ i, f i| ≤ ((1 + 2 ^ (-(p : ℤ))) ^ (n + 1) - 1) * ∑ i, |f i| := by
  have := (prod_list hp h f (List.finRange n)).1
  rw [List.length_finRange, ← List.ofFn_eq_map, ← List.ofFn_eq_map, List.sum_ofFn, List.sum_ofFn, ← pow_succ'] at this
  exact this

/-- **C111.** Each component of a matrix times a vector of `n` components is within `(1 + ε)^(n+1) - 1` of the exact one, relative to
the sum of the absolute products. -/
theorem C111_vector {p : ℕ} (hp : 1 ≤ p) {rnd : K → K} (h : IsRound p rnd) (A : Fin m → Fin n → K) (v : Fin n → K) (r : Fin m) :
    |mulVec rnd A v r - ∑ i, A r i * v i| ≤ ((1 + 2 ^ (-(p : ℤ))) ^ (n + 1) - 1) * ∑ i, |A r i * v i| :=
  prod_sum hp h fun i => A r i * v i

/-- **C111.** So is each element of a product of matrices. -/
theorem C111_matrix {k p : ℕ} (hp : 1 ≤ p) {rnd : K → K} (h : IsRound p rnd) (A : Fin m → Fin n → K) (B : Fin n → Fin k → K)
    (r : Fin m) (c : Fin k) :
    |mulMtx rnd A B r c - ∑ i, A r i * B i c| ≤ ((1 + 2 ^ (-(p : ℤ))) ^ (n + 1) - 1) * ∑ i, |A r i * B i c| :=
  prod_sum hp h fun i => A r i * B i c

/-! ## Transforms -/

/-- **C111.** A transformed point is within `(1 + ε)^(n+2) - 1` of the exact one, relative to the sum of the absolute products and
the translation; a transformed direction within `(1 + ε)^(n+1) - 1`. -/
theorem C111_apply {p : ℕ} (hp : 1 ≤ p) {rnd : K → K} (h : IsRound p rnd) (A : Fin (n + 1) → Fin (n + 1) → K) (x : Fin n → K)
    (i : Fin n) :
    |apply rnd A x i - (∑ j : Fin n, A i.castSucc j.castSucc * x j + A i.castSucc (Fin.last n))| ≤
      ((1 + 2 ^ (-(p : ℤ))) ^ (n + 2) - 1) * (∑ j : Fin n, |A i.castSucc j.castSucc * x j| + |A i.castSucc (Fin.last n)|) ∧
    |applyVector rnd A x i - ∑ j : Fin n, A i.castSucc j.castSucc * x j| ≤
      ((1 + 2 ^ (-(p : ℤ))) ^ (n + 1) - 1) * ∑ j : Fin n, |A i.castSucc j.castSucc * x j| := by
  constructor
  · have := C111_vector hp h A (Fin.snoc x 1) i.castSucc
    simp only [Fin.sum_univ_castSucc, Fin.snoc_castSucc, Fin.snoc_last, mul_one] at this
    exact this
  · exact C111_vector hp h (fun r c => A r.castSucc c.castSucc) x i

theorem zero_run {ι : Type} {p : ℕ} {rnd : K → K} (h : IsRound p rnd) {f : ι → K} {l : List ι} (hl : ∀ i ∈ l, f i = 0) {x : K}
    (hx : IsFloat p x) : l.foldl (fun x i => rnd (x + rnd (f i))) x = x := by
  induction l with
  | nil => rfl
  | cons i l ih =>
    rw [List.foldl_cons, hl i (by simp), h.fix (float_zero p), add_zero, h.fix hx]
    exact ih fun j hj => hl j (by simp [hj])

theorem single_run {ι : Type} {p : ℕ} {rnd : K → K} (h : IsRound p rnd) {f : ι → K} {l : List ι} {a : ι} (ha : a ∈ l)
    (hl : ∀ i, i ≠ a → f i = 0) (hd : l.Nodup) : l.foldl (fun x i => rnd (x + rnd (f i))) 0 = rnd (f a) := by
  obtain ⟨l1, l2, rfl⟩ := List.append_of_mem ha
  have n1 : ∀ i ∈ l1, f i = 0 := fun i hi => hl i fun e => by
    subst e
    exact (List.disjoint_of_nodup_append hd) hi (by simp)
  have n2 : ∀ i ∈ l2, f i = 0 := fun i hi => hl i fun e => by
    subst e
    exact (List.nodup_cons.1 (List.nodup_append.1 hd).2.1).1 hi
  rw [List.foldl_append, zero_run h n1 (float_zero p), List.foldl_cons, zero_add, h.fix (h.mem _), zero_run h n2 (h.mem _)]

/-- **C111.** A translation rounds once. -/
theorem C111_translate {p : ℕ} {rnd : K → K} (h : IsRound p rnd) {A : Fin (n + 1) → Fin (n + 1) → K} {x : Fin n → K} (i : Fin n)
    (hA : ∀ j : Fin n, A i.castSucc j.castSucc = if i = j then 1 else 0) (hx : IsFloat p (x i))
    (ht : IsFloat p (A i.castSucc (Fin.last n))) :
    apply rnd A x i = rnd (x i + A i.castSucc (Fin.last n)) := by
  have hf : ∀ j, j ≠ i → A i.castSucc j.castSucc * x j = 0 := fun j hj => by rw [hA, if_neg (Ne.symm hj), zero_mul]
  simp only [apply, mulVec, List.finRange_succ_last, List.foldl_append, List.foldl_map, List.foldl_cons, List.foldl_nil,
    Fin.snoc_castSucc, Fin.snoc_last, mul_one]
  rw [single_run h (List.mem_finRange i) hf (List.nodup_finRange n), hA, if_pos rfl, one_mul, h.fix hx, h.fix ht]

/-- **C111.** Where each component of the result depends on one component only - for scalings, reflections, quarter turns and exchanges
of axes - there is one rounding, and none if the factor is one or minus one. -/
theorem C111_monomial {p : ℕ} {rnd : K → K} (h : IsRound p rnd) {A : Fin (n + 1) → Fin (n + 1) → K} {x : Fin n → K} (i k : Fin n)
    (hA : ∀ j, j ≠ k.castSucc → A i.castSucc j = 0) :
    apply rnd A x i = rnd (A i.castSucc k.castSucc * x k) ∧ applyVector rnd A x i = rnd (A i.castSucc k.castSucc * x k) ∧
    (IsFloat p (x k) → A i.castSucc k.castSucc = 1 → apply rnd A x i = x k) ∧
    (IsFloat p (x k) → A i.castSucc k.castSucc = -1 → apply rnd A x i = -x k) := by
  have e : apply rnd A x i = rnd (A i.castSucc k.castSucc * x k) := by
    have := single_run h (f := fun c => A i.castSucc c * (Fin.snoc x 1 : Fin (n + 1) → K) c) (List.mem_finRange k.castSucc)
      (fun j hj => by rw [hA j hj, zero_mul]) (List.nodup_finRange _)
    rw [Fin.snoc_castSucc] at this
    exact this
  refine ⟨e, ?_, fun hx h1 => by rw [e, h1, one_mul, h.fix hx], fun hx h1 => by rw [e, h1, neg_one_mul, h.fix (float_neg hx)]⟩
  exact single_run h (f := fun c : Fin n => A i.castSucc c.castSucc * x c) (List.mem_finRange k)
    (fun j hj => by rw [hA _ (fun e => hj (Fin.castSucc_injective n e)), zero_mul]) (List.nodup_finRange _)

/-- **C111.** A point of a ray is within `(1 + ε)² - 1` of the exact one, relative to the origin and the multiple; the multiple zero is
the origin. -/
theorem C111_ray {p : ℕ} (hp : 1 ≤ p) {rnd : K → K} (h : IsRound p rnd) (o v : Fin n → K) (s : K) (i : Fin n) :
    |rayAt rnd o v s i - (o i + v i * s)| ≤ ((1 + 2 ^ (-(p : ℤ))) ^ 2 - 1) * (|o i| + |v i * s|) ∧
    (IsFloat p (o i) → rayAt rnd o v 0 i = o i) := by
  refine ⟨?_, fun ho => by rw [rayAt, mul_zero, h.fix (float_zero p), add_zero, h.fix ho]⟩
  have e0 := eps_pos (K := K) p
  have := sum_step hp h (w := v i * s) (s := o i) (S := o i) (A := |o i|) (c := 1) le_rfl
    (by rw [sub_self, abs_zero]; exact mul_nonneg (by linarith) (abs_nonneg _)) le_rfl
  rw [one_mul, ← sq] at this
  exact this

/-! ## Planes -/

/-- **C111.** The computed distance to a plane in `n` dimensions is within `(1 + ε)^(n+1) - 1` of the exact one, relative to the absolute
terms; further from the plane than that the half-space test is right. -/
theorem C111_plane {p : ℕ} (hp : 1 ≤ p) {rnd : K → K} (h : IsRound p rnd) (normal : Fin n → K) (d : K) (x : Fin n → K) :
    let δ := ((1 + 2 ^ (-(p : ℤ))) ^ (n + 1) - 1) * (∑ i, |normal i * x i| + |d|)
    |planeDistance rnd normal d x - (∑ i, normal i * x i + d)| ≤ δ ∧
    (δ < |∑ i, normal i * x i + d| → (planeContains rnd normal d x = true ↔ ∑ i, normal i * x i + d ≤ 0)) := by
  intro δ
  have hd := C104_dot hp h normal x
  have e0 := eps_pos (K := K) p
  have r := h.rel hp (dot rnd normal x + d)
  have hS : |∑ i, normal i * x i| ≤ ∑ i, |normal i * x i| := Finset.abs_sum_le_sum_abs _ _
  have main : |planeDistance rnd normal d x - (∑ i, normal i * x i + d)| ≤ δ := by
    simp only [δ]
    rw [pow_succ]
    rw [show (2 : K) ^ (-(p : ℤ)) = eps K p from rfl] at hd ⊢
    set e := eps K p
    set c := (1 + e) ^ n
    set S := ∑ i, normal i * x i
    set A := ∑ i, |normal i * x i|
    set D := dot rnd normal x
    have c1 : 1 ≤ c := one_le_pow₀ (by linarith)
    have t1 : |planeDistance rnd normal d x - (S + d)| ≤ |rnd (D + d) - (D + d)| + |D - S| := by
      refine le_trans (le_of_eq ?_) (abs_add_le _ _)
      congr 1
      rw [planeDistance]; ring
    have t2 : |D + d| ≤ c * A + |d| := by
      refine (abs_add_le _ _).trans ?_
      have := abs_sub_abs_le_abs_sub D S
      linarith
    have t3 : e * |D + d| ≤ e * (c * A + |d|) := mul_le_mul_of_nonneg_left t2 e0.le
    have t4 : 0 ≤ (c - 1) * ((1 + e) * |d|) := mul_nonneg (by linarith) (mul_nonneg (by linarith) (abs_nonneg _))
    nlinarith
  refine ⟨main, fun hlt => ?_⟩
  rw [planeContains, decide_eq_true_iff]
  rw [abs_le] at main
  constructor
  · intro hc
    by_contra hn
    push Not at hn
    rw [abs_of_pos hn] at hlt
    linarith [main.1]
  · intro hc
    rw [abs_of_nonpos hc] at hlt
    linarith [main.2]

/-- Rounding keeps the sign. -/
theorem IsRound.nonpos {p : ℕ} (hp : 1 ≤ p) {rnd : K → K} (h : IsRound p rnd) (x : K) : rnd x ≤ 0 ↔ x ≤ 0 := by
  refine ⟨fun hr => ?_, fun hx => h.le_of_le (float_zero p) hx⟩
  by_contra hn
  push Not at hn
  have := (h.bounds hp hn.le).1
  have e1 := eps_le (K := K) hp
  have : 0 < (1 - eps K p) * x := mul_pos (by linarith) hn
  linarith

/-- **C111.** For planes along an axis the half-space test is always right. -/
theorem C111_plane_axis {p : ℕ} (hp : 1 ≤ p) {rnd : K → K} (h : IsRound p rnd) (k : Fin n) (d : K) (x : Fin n → K)
    (hx : ∀ i, IsFloat p (x i)) : planeContains rnd (Pi.single k 1) d x = true ↔ x k + d ≤ 0 := by
  have e : dot rnd (Pi.single k 1) x = x k := by
    rw [C104_dot_comm]
    refine Eq.trans ?_ (C104_dot_axis h x hx k)
    congr 1
    ext i
    rw [Pi.single_apply]
  rw [planeContains, planeDistance, e, decide_eq_true_iff, h.nonpos hp]

/-- A small number is lost when added to one. -/
theorem absorb {p : ℕ} (hp : 1 ≤ p) {rnd : K → K} (h : IsRound p rnd) {δ : K} (h0 : 0 ≤ δ) (h1 : δ < 2 ^ (-(p : ℤ))) : rnd (1 + δ) = 1 := by
  have f1 : IsFloat p (1 : K) := by simpa using float_pow (K := K) hp 0
  have ge : 1 ≤ rnd (1 + δ) := h.ge_of_ge f1 (by linarith)
  have hE : (2 : K) ^ (0 : ℤ) ≤ |rnd (1 + δ)| := by
    rw [zpow_zero]
    exact ge.trans (le_abs_self _)
  obtain ⟨k, hk⟩ := grid_of_float (h.mem (1 + δ)) hE
  have n1 := h.near (1 + δ) 1 f1
  rw [show (1 : K) - (1 + δ) = -δ by ring, abs_neg, abs_of_nonneg h0] at n1
  have n2 := (abs_le.1 n1).2
  have hg : (2 : K) ^ (0 + 1 - (p : ℤ)) = 2 * 2 ^ (-(p : ℤ)) := by
    rw [show (0 : ℤ) + 1 - p = 1 + -p by ring, zadd, zpow_one]
  set g : K := 2 ^ (0 + 1 - (p : ℤ)) with hgd
  have gpos : 0 < g := two_zpow_pos _
  have hM : ((2 ^ (p - 1) : ℤ) : K) * g = 1 := by
    rw [hgd]
    rw [Int.cast_pow, Int.cast_ofNat, ← zpow_natCast, ← zadd]
    rw [show ((p - 1 : ℕ) : ℤ) + (0 + 1 - p) = 0 by omega, zpow_zero]
  have hk1 : k < 2 ^ (p - 1) + 1 := by
    have : (k : K) * g < ((2 ^ (p - 1) + 1 : ℤ) : K) * g := by
      rw [← hk, Int.cast_add, add_mul, hM, Int.cast_one, one_mul, hg]
      linarith
    exact Int.cast_lt.1 (lt_of_mul_lt_mul_right this gpos.le)
  have : rnd (1 + δ) ≤ 1 := by
    rw [hk, ← hM]
    refine mul_le_mul_of_nonneg_right (Int.cast_le.2 (by omega)) gpos.le
  exact le_antisymm this ge

/-- **C111** refuted near an oblique plane, for every precision: a point on the side of the normal is said to be in the half-space. -/
theorem C111_plane_refuted {p : ℕ} (hp : 1 ≤ p) {rnd : K → K} (h : IsRound p rnd) :
    let normal : Fin 2 → K := ![1, 2 ^ (-(p : ℤ) - 1)]
    0 < ∑ i, normal i * ![1, 1] i + -1 ∧ planeContains rnd normal (-1) ![1, 1] = true := by
  intro normal
  have f1 : IsFloat p (1 : K) := by simpa using float_pow (K := K) hp 0
  have hs : (2 : K) ^ (-(p : ℤ) - 1) < 2 ^ (-(p : ℤ)) := zpow_lt_zpow_right₀ (by norm_num) (by omega)
  have h0 := two_zpow_pos (K := K) (-(p : ℤ) - 1)
  refine ⟨by simpa [normal, Fin.sum_univ_two] using h0, ?_⟩
  have e : dot rnd normal ![1, 1] = 1 := by
    have := absorb hp h h0.le hs
    simp only [dot, multiplyAdd, normal]
    rw [show List.finRange 2 = [0, 1] from rfl]
    simp [h.fix f1, add_comm ((2 : K) ^ (-(p : ℤ) - 1)), this]
  rw [planeContains, planeDistance, e, add_neg_cancel, h.fix (float_zero p)]
  simp

/-! ## Spheres -/

/-- **C111.** A sphere certainly contains the points at less, and certainly not those at more than a distance that differs from the
radius by the error of the squares. -/
theorem C111_sphere {p : ℕ} (hp : 1 ≤ p) {rnd : K → K} (h : IsRound p rnd) (c : Fin n → K) (r : K) (x : Fin n → K) :
    ((1 + 2 ^ (-(p : ℤ))) ^ (n + 2) * ∑ i, (c i - x i) ^ 2 ≤ (1 - 2 ^ (-(p : ℤ))) * r ^ 2 → sphereContains rnd c r x = true) ∧
    ((1 + 2 ^ (-(p : ℤ))) * r ^ 2 < (1 - 2 ^ (-(p : ℤ))) ^ (n + 2) * ∑ i, (c i - x i) ^ 2 → sphereContains rnd c r x = false) := by
  obtain ⟨a, b, -⟩ := C104_dist2 hp h c x
  have hr := h.bounds hp (mul_self_nonneg r)
  rw [eps, ← sq] at hr
  rw [dist2] at a b
  rw [sphereContains, decide_eq_true_iff, decide_eq_false_iff_not, ← sq]
  exact ⟨fun hh => by linarith [hr.1], fun hh => by linarith [hr.2]⟩

theorem square_run {p : ℕ} {rnd : K → K} (h : IsRound p rnd) {w : Fin n → K} {l : List (Fin n)} (hl : ∀ i ∈ l, w i = 0) {x : K}
    (hx : IsFloat p x) : l.foldl (fun sum i => multiplyAdd rnd (w i) (w i) sum) x = x := by
  induction l with
  | nil => rfl
  | cons i l ih =>
    rw [List.foldl_cons, multiplyAdd, hl i (by simp), mul_zero, zero_add, h.fix hx]
    exact ih fun j hj => hl j (by simp [hj])

theorem mag2_single {p : ℕ} {rnd : K → K} (h : IsRound p rnd) {w : Fin n → K} {k : Fin n} (hl : ∀ i, i ≠ k → w i = 0) :
    mag2 rnd w = rnd (w k * w k) := by
  obtain ⟨l1, l2, e⟩ := List.append_of_mem (List.mem_finRange k)
  have hd := List.nodup_finRange n
  rw [e] at hd
  have n1 : ∀ i ∈ l1, w i = 0 := fun i hi => hl i fun e => by
    subst e
    exact (List.disjoint_of_nodup_append hd) hi (by simp)
  have n2 : ∀ i ∈ l2, w i = 0 := fun i hi => hl i fun e => by
    subst e
    exact (List.nodup_cons.1 (List.nodup_append.1 hd).2.1).1 hi
  rw [mag2, e, List.foldl_append, square_run h n1 (float_zero p), List.foldl_cons, multiplyAdd, add_zero, square_run h n2 (h.mem _)]

/-- **C111.** A sphere contains its centre, and around the origin the points where the axes meet its surface. -/
theorem C111_sphere_points {p : ℕ} {rnd : K → K} (h : IsRound p rnd) (c : Fin n → K) {r : K} (hr : IsFloat p r) (k : Fin n) :
    sphereContains rnd c r c = true ∧ sphereContains rnd 0 r (Pi.single k r) = true ∧ sphereContains rnd 0 r (Pi.single k (-r)) = true := by
  have z := float_zero (K := K) p
  have hs : ∀ q, IsFloat p q → ∀ i, sub rnd 0 (Pi.single k q) i = if i = k then -q else 0 := by
    intro q hq i
    rw [sub, Pi.single_apply]
    split_ifs
    · rw [Pi.zero_apply, zero_sub, h.fix (float_neg hq)]
    · rw [Pi.zero_apply, sub_zero, h.fix z]
  have hm : ∀ q, IsFloat p q → mag2 rnd (sub rnd 0 (Pi.single k q)) = rnd (q * q) := by
    intro q hq
    rw [mag2_single h (k := k) fun i hi => by rw [hs q hq, if_neg hi], hs q hq, if_pos rfl, neg_mul_neg]
  refine ⟨?_, ?_, ?_⟩
  · have : mag2 rnd (sub rnd c c) = 0 := by
      refine square_run h (fun i _ => ?_) z
      rw [sub, sub_self, h.fix z]
    rw [sphereContains, decide_eq_true_iff, this]
    exact h.ge_of_ge z (mul_self_nonneg r)
  · rw [sphereContains, decide_eq_true_iff, hm r hr]
  · rw [sphereContains, decide_eq_true_iff, hm (-r) (float_neg hr), neg_mul_neg]

/-- **C111.** Moving a point towards the centre along every axis does not take it out of a sphere, with a rounding that treats both
signs alike. -/
theorem C111_sphere_monotone {p : ℕ} {rnd : K → K} (h : IsRound p rnd) (hodd : ∀ x, rnd (-x) = -rnd x) (c : Fin n → K) (r : K)
    {x y : Fin n → K} (hxy : ∀ i, |c i - x i| ≤ |c i - y i|) (hy : sphereContains rnd c r y = true) :
    sphereContains rnd c r x = true := by
  have habs : ∀ x, |rnd x| = rnd |x| := by
    intro x
    have z : rnd 0 = 0 := h.fix (float_zero p)
    rcases le_total 0 x with hx | hx
    · rw [abs_of_nonneg hx, abs_of_nonneg]
      exact z ▸ h.mono hx
    · rw [abs_of_nonpos hx, hodd, abs_of_nonpos]
      exact z ▸ h.mono hx
  have hsq : ∀ i, sub rnd c x i * sub rnd c x i ≤ sub rnd c y i * sub rnd c y i := fun i => by
    rw [← abs_mul_abs_self (sub rnd c x i), ← abs_mul_abs_self (sub rnd c y i)]
    have : |sub rnd c x i| ≤ |sub rnd c y i| := by
      simp only [sub]
      rw [habs, habs]
      exact h.mono (hxy i)
    exact mul_le_mul this this (abs_nonneg _) (abs_nonneg _)
  have hfold : ∀ (l : List (Fin n)) (s t : K), s ≤ t →
      l.foldl (fun sum i => multiplyAdd rnd (sub rnd c x i) (sub rnd c x i) sum) s ≤
      l.foldl (fun sum i => multiplyAdd rnd (sub rnd c y i) (sub rnd c y i) sum) t := by
    intro l
    induction l with
    | nil => exact fun s t hst => hst
    | cons i l ih => exact fun s t hst => ih _ _ (h.mono (add_le_add (hsq i) hst))
  rw [sphereContains, decide_eq_true_iff] at hy ⊢
  exact (hfold (List.finRange n) 0 0 le_rfl).trans hy

/-- **C111** refuted near the surface of a sphere, for every precision: a point outside is said to be in it. -/
theorem C111_sphere_refuted {p : ℕ} (hp : 1 ≤ p) {rnd : K → K} (h : IsRound p rnd) :
    let x : Fin 2 → K := ![2 ^ (-(p : ℤ)), 1]
    1 < ∑ i, (0 - x i) ^ 2 ∧ sphereContains rnd 0 1 x = true := by
  intro x
  have f1 : IsFloat p (1 : K) := by simpa using float_pow (K := K) hp 0
  have h0 := two_zpow_pos (K := K) (-(p : ℤ))
  have hlt : (2 : K) ^ (-(p : ℤ)) < 1 := by
    rw [← zpow_zero (2 : K)]
    exact zpow_lt_zpow_right₀ (by norm_num) (by omega)
  refine ⟨by simp [x, Fin.sum_univ_two, -zpow_neg]; positivity, ?_⟩
  have sq2 : (2 : K) ^ (-(p : ℤ)) * 2 ^ (-(p : ℤ)) = 2 ^ (-(p : ℤ) + -(p : ℤ)) := (zadd _ _).symm
  have fq : rnd ((2 : K) ^ (-(p : ℤ)) * 2 ^ (-(p : ℤ))) = 2 ^ (-(p : ℤ)) * 2 ^ (-(p : ℤ)) := by
    rw [sq2]
    exact h.fix (float_pow hp _)
  have ab := absorb hp h (mul_nonneg h0.le h0.le) (show (2 : K) ^ (-(p : ℤ)) * 2 ^ (-(p : ℤ)) < 2 ^ (-(p : ℤ)) by nlinarith)
  have e0 : sub rnd 0 x 0 = -2 ^ (-(p : ℤ)) := by
    simp only [sub, x]
    simp [-zpow_neg, h.fix (float_neg (float_pow (K := K) hp (-(p : ℤ))))]
  have e1 : sub rnd 0 x 1 = -1 := by
    simp only [sub, x]
    simp [h.fix (float_neg f1)]
  rw [sphereContains, decide_eq_true_iff, mag2, show List.finRange 2 = [0, 1] from rfl]
  simp only [List.foldl_cons, List.foldl_nil, multiplyAdd, e0, e1, neg_mul_neg, add_zero, mul_one, fq, ab, h.fix f1]
  exact le_rfl

/-- Examples with three bits: a shear, a point near a plane and one near a circle. -/
example : apply (nearest 3) ![![1, 1/2, 3], ![0, 1, 0], ![0, 0, 1]] ![(5 : ℚ), 6] = ![12, 6] ∧
    planeContains (nearest 3) ![5/8, 3/4] (-1/4) ![1/8, (1/4 : ℚ)] = true ∧ 5/8 * (1/8) + 3/4 * (1/4) + -1/4 > (0 : ℚ) ∧
    sphereContains (nearest 3) 0 1 ![1/8, (1 : ℚ)] = true ∧ sphereContains (nearest 3) 0 1 ![1/2, (1 : ℚ)] = false := by
  decide +kernel

end Geomc.Flt
