import Verif.Float.VecModel
import Verif.Float.Props
import Mathlib.Algebra.BigOperators.Fin
import Mathlib.Algebra.BigOperators.Field
import Mathlib.Algebra.Order.BigOperators.Group.Finset
import Mathlib.Tactic.NormNum
import Mathlib.Tactic.GCongr
import Mathlib.Tactic.FinCases

/-! # Property C104: accuracy of the rounded vector products -/

namespace Geomc.Flt

variable {K : Type} [Field K] [LinearOrder K] [IsStrictOrderedRing K] [FloorRing K] {n : ℕ}

/-- The unit roundoff of floats with `p` bits. -/
def eps (K : Type) [Field K] (p : ℕ) : K := 2 ^ (-(p : ℤ))

theorem eps_pos (p : ℕ) : 0 < eps K p := two_zpow_pos _

theorem eps_le {p : ℕ} (hp : 1 ≤ p) : eps K p ≤ 1 / 2 := by
  unfold eps
  rw [show (1 / 2 : K) = 2 ^ (-1 : ℤ) by norm_num]
  exact zle (by omega)

theorem IsRound.rel {p : ℕ} (hp : 1 ≤ p) {rnd : K → K} (h : IsRound p rnd) (x : K) :
    |rnd x - x| ≤ eps K p * |x| := by
  by_cases hx : x = 0
  · subst hx
    rw [h.fix (float_zero p)]
    simp
  · have h0 := abs_pos.2 hx
    obtain ⟨a, b⟩ := log_spec h0
    have := round_err hp (h.near x) b.le
    refine this.trans ?_
    rw [sub_eq_add_neg, zadd, mul_comm]
    exact mul_le_mul_of_nonneg_left a (eps_pos p).le

theorem IsRound.bounds {p : ℕ} (hp : 1 ≤ p) {rnd : K → K} (h : IsRound p rnd) {x : K} (hx : 0 ≤ x) :
    (1 - eps K p) * x ≤ rnd x ∧ rnd x ≤ (1 + eps K p) * x := by
  have := abs_le.1 (h.rel hp x)
  rw [abs_of_nonneg hx] at this
  constructor <;> nlinarith [this.1, this.2]

theorem IsRound.sq_bounds {p : ℕ} (hp : 1 ≤ p) {rnd : K → K} (h : IsRound p rnd) (x : K) :
    (1 - eps K p) ^ 2 * x ^ 2 ≤ rnd x ^ 2 ∧ rnd x ^ 2 ≤ (1 + eps K p) ^ 2 * x ^ 2 := by
  have h1 := h.rel hp x
  have e0 := eps_pos (K := K) p
  have e1 := eps_le (K := K) hp
  have a : |rnd x| ≤ (1 + eps K p) * |x| := by
    have := abs_sub_abs_le_abs_sub (rnd x) x
    linarith
  have b : (1 - eps K p) * |x| ≤ |rnd x| := by
    have := abs_sub_abs_le_abs_sub x (rnd x)
    rw [abs_sub_comm] at this
    linarith
  rw [← mul_pow, ← mul_pow, ← sq_abs (rnd x), ← sq_abs ((1 - eps K p) * x), ← sq_abs ((1 + eps K p) * x),
    abs_mul, abs_mul, abs_of_pos (show 0 < 1 - eps K p by linarith),
    abs_of_pos (show 0 < 1 + eps K p by linarith)]
  constructor
  · exact pow_le_pow_left₀ (mul_nonneg (by linarith) (abs_nonneg _)) b 2
  · exact pow_le_pow_left₀ (abs_nonneg _) a 2

/-! ## The dot product -/

theorem dot_list {p : ℕ} (hp : 1 ≤ p) {rnd : K → K} (h : IsRound p rnd) (u v : Fin n → K)
    (l : List (Fin n)) :
    |l.foldl (fun sum i => multiplyAdd rnd (u i) (v i) sum) 0 - (l.map fun i => u i * v i).sum| ≤
      ((1 + eps K p) ^ l.length - 1) * (l.map fun i => |u i * v i|).sum ∧
    |(l.map fun i => u i * v i).sum| ≤ (l.map fun i => |u i * v i|).sum := by
  induction l using List.reverseRecOn with
  | nil => simp
  | append_singleton l i ih =>
    obtain ⟨ih, ih'⟩ := ih
    simp only [List.foldl_append, List.foldl_cons, List.foldl_nil, List.map_append, List.map_cons,
      List.map_nil, List.sum_append, List.sum_cons, List.sum_nil, List.length_append, List.length_cons,
      List.length_nil, add_zero, zero_add]
    set s := l.foldl (fun sum i => multiplyAdd rnd (u i) (v i) sum) 0
    set S := (l.map fun i => u i * v i).sum
    set A := (l.map fun i => |u i * v i|).sum
    set w := u i * v i
    have e0 := eps_pos (K := K) p
    set c := (1 + eps K p) ^ l.length with hc
    have c1 : 1 ≤ c := one_le_pow₀ (by linarith)
    have hr : |multiplyAdd rnd (u i) (v i) s - (w + s)| ≤ eps K p * |w + s| := h.rel hp _
    have hs : |s| ≤ c * A := by
      have := abs_sub_abs_le_abs_sub s S
      nlinarith
    refine ⟨?_, ?_⟩
    · have t1 : |multiplyAdd rnd (u i) (v i) s - (S + w)| ≤
          |multiplyAdd rnd (u i) (v i) s - (w + s)| + |s - S| := by
        refine le_trans (le_of_eq ?_) (abs_add_le _ _)
        congr 1; ring
      have t2 : |w + s| ≤ |w| + c * A := (abs_add_le _ _).trans (by linarith)
      have t3 : 0 ≤ |w| := abs_nonneg w
      have t4 : 0 ≤ (c - 1) * |w| := mul_nonneg (by linarith) t3
      have t5 : eps K p * |w + s| ≤ eps K p * (|w| + c * A) := mul_le_mul_of_nonneg_left t2 e0.le
      have t6 : 0 ≤ eps K p * ((c - 1) * |w|) := mul_nonneg e0.le t4
      rw [pow_succ, ← hc]
      nlinarith
    · exact (abs_add_le _ _).trans (by linarith)

/-- **C104.** The computed dot product of `n` components is within `(1 + ε)^n - 1` of the exact one,
relative to the sum of the absolute products. -/
theorem C104_dot {p : ℕ} (hp : 1 ≤ p) {rnd : K → K} (h : IsRound p rnd) (u v : Fin n → K) :
    |dot rnd u v - ∑ i, u i * v i| ≤ ((1 + 2 ^ (-(p : ℤ))) ^ n - 1) * ∑ i, |u i * v i| := by
  have := (dot_list hp h u v (List.finRange n)).1
  rw [List.length_finRange, ← List.ofFn_eq_map, ← List.ofFn_eq_map, List.sum_ofFn, List.sum_ofFn] at this
  exact this

/-- **C104.** The computed dot product does not depend on the order of its arguments. -/
theorem C104_dot_comm (rnd : K → K) (u v : Fin n → K) : dot rnd u v = dot rnd v u := by
  unfold dot multiplyAdd
  congr 1
  funext s i
  rw [mul_comm]

theorem dot_exact_list {p : ℕ} {rnd : K → K} (h : IsRound p rnd) (u v : Fin n → K) (l : List (Fin n))
    (hl : ∀ t, t <+: l → IsFloat p (t.map fun i => u i * v i).sum) :
    l.foldl (fun sum i => multiplyAdd rnd (u i) (v i) sum) 0 = (l.map fun i => u i * v i).sum := by
  induction l using List.reverseRecOn with
  | nil => simp
  | append_singleton l i ih =>
    have h1 := hl _ (List.prefix_refl _)
    rw [List.foldl_append, ih fun t ht => hl t (ht.trans (List.prefix_append _ _))]
    simp only [List.map_append, List.map_cons, List.map_nil, List.sum_append, List.sum_cons,
      List.sum_nil, add_zero, List.foldl_cons, List.foldl_nil] at h1 ⊢
    unfold multiplyAdd
    rw [add_comm, h.fix h1]

/-- **C104.** The dot product of integer vectors is exact as long as the absolute products sum to at
most `2^p`. -/
theorem C104_dot_integers {p : ℕ} (hp : 1 ≤ p) {rnd : K → K} (h : IsRound p rnd) (u v : Fin n → ℤ)
    (hb : ∑ i, |u i * v i| ≤ 2 ^ p) :
    dot rnd (fun i => (u i : K)) (fun i => (v i : K)) = ((∑ i, u i * v i : ℤ) : K) := by
  unfold dot
  rw [dot_exact_list h]
  · rw [← List.ofFn_eq_map, List.sum_ofFn]
    push_cast
    rfl
  · intro t ht
    have e : (t.map fun i => (u i : K) * (v i : K)).sum = (((t.map fun i => u i * v i).sum : ℤ) : K) := by
      clear ht
      induction t with
      | nil => simp
      | cons a t ih => simp only [List.map_cons, List.sum_cons]; rw [ih]; push_cast; ring
    have b1 : ∀ l : List (Fin n), |(l.map fun i => u i * v i).sum| ≤ (l.map fun i => |u i * v i|).sum := by
      intro l
      induction l with
      | nil => simp
      | cons a t ih => simp only [List.map_cons, List.sum_cons]; exact (abs_add_le _ _).trans (by linarith)
    have b0 : ∀ l : List (Fin n), 0 ≤ (l.map fun i => |u i * v i|).sum := fun l =>
      List.sum_nonneg fun x hx => by
        obtain ⟨i, _, rfl⟩ := List.mem_map.1 hx
        exact abs_nonneg _
    have b2 : (t.map fun i => |u i * v i|).sum ≤ 2 ^ p := by
      obtain ⟨r, hr⟩ := ht
      have : ((List.finRange n).map fun i => |u i * v i|).sum = ∑ i, |u i * v i| := by
        rw [← List.ofFn_eq_map, List.sum_ofFn]
      rw [← hr, List.map_append, List.sum_append] at this
      have := b0 r
      linarith
    have := mem_le (K := K) hp (t.map fun i => u i * v i).sum 0 ((b1 t).trans b2)
    rw [e]
    simpa using this

/-- **C104.** The dot product with a coordinate axis is that component, exactly. -/
theorem C104_dot_axis {p : ℕ} {rnd : K → K} (h : IsRound p rnd) (u : Fin n → K)
    (hu : ∀ i, IsFloat p (u i)) (j : Fin n) : dot rnd u (fun i => if i = j then 1 else 0) = u j := by
  have hz : ∀ t : List (Fin n), t.Nodup →
      (t.map fun i => u i * (if i = j then (1 : K) else 0)).sum = if j ∈ t then u j else 0 := by
    intro t
    induction t with
    | nil => simp
    | cons a t ih =>
      intro hn
      obtain ⟨h1, h2⟩ := List.nodup_cons.1 hn
      simp only [List.map_cons, List.sum_cons, List.mem_cons]
      rw [ih h2]
      by_cases ha : a = j
      · subst ha; simp [h1]
      · have : j ≠ a := fun e => ha e.symm
        simp [ha, this]
  unfold dot
  rw [dot_exact_list h, hz _ (List.nodup_finRange n), if_pos (List.mem_finRange j)]
  intro t ht
  rw [hz t (ht.sublist.nodup (List.nodup_finRange n))]
  split_ifs
  · exact hu j
  · exact float_zero p

/-! ## Lengths and distances -/

theorem mag2_list {p : ℕ} (hp : 1 ≤ p) {rnd : K → K} (h : IsRound p rnd) (u : Fin n → K)
    (l : List (Fin n)) :
    0 ≤ (l.map fun i => u i ^ 2).sum ∧
    (1 - eps K p) ^ l.length * (l.map fun i => u i ^ 2).sum ≤
      l.foldl (fun sum i => multiplyAdd rnd (u i) (u i) sum) 0 ∧
    l.foldl (fun sum i => multiplyAdd rnd (u i) (u i) sum) 0 ≤
      (1 + eps K p) ^ l.length * (l.map fun i => u i ^ 2).sum := by
  induction l using List.reverseRecOn with
  | nil => simp
  | append_singleton l i ih =>
    obtain ⟨a, b, c⟩ := ih
    simp only [List.foldl_append, List.foldl_cons, List.foldl_nil, List.map_append, List.map_cons,
      List.map_nil, List.sum_append, List.sum_cons, List.sum_nil, List.length_append, List.length_cons,
      List.length_nil, add_zero, zero_add]
    set s := l.foldl (fun sum i => multiplyAdd rnd (u i) (u i) sum) 0
    set S := (l.map fun i => u i ^ 2).sum
    have e0 := eps_pos (K := K) p
    have e1 := eps_le (K := K) hp
    have d0 : 0 < (1 - eps K p) ^ l.length := pow_pos (by linarith) _
    have d1 : (1 - eps K p) ^ l.length ≤ 1 := pow_le_one₀ (by linarith) (by linarith)
    have d2 : 1 ≤ (1 + eps K p) ^ l.length := one_le_pow₀ (by linarith)
    have s0 : 0 ≤ s := le_trans (mul_nonneg d0.le a) b
    have q0 : 0 ≤ u i ^ 2 := sq_nonneg _
    have hb := h.bounds hp (x := u i * u i + s) (by nlinarith)
    refine ⟨by linarith, ?_, ?_⟩
    · refine le_trans ?_ hb.1
      rw [pow_succ, mul_comm _ (1 - eps K p), mul_assoc]
      refine mul_le_mul_of_nonneg_left ?_ (by linarith)
      nlinarith
    · refine le_trans hb.2 ?_
      rw [pow_succ, mul_comm _ (1 + eps K p), mul_assoc]
      refine mul_le_mul_of_nonneg_left ?_ (by linarith)
      nlinarith

/-- **C104.** The computed squared length of `n` components is between `(1 - ε)^n` and `(1 + ε)^n` times
the exact one. -/
theorem C104_mag2 {p : ℕ} (hp : 1 ≤ p) {rnd : K → K} (h : IsRound p rnd) (u : Fin n → K) :
    (1 - 2 ^ (-(p : ℤ))) ^ n * ∑ i, u i ^ 2 ≤ mag2 rnd u ∧
    mag2 rnd u ≤ (1 + 2 ^ (-(p : ℤ))) ^ n * ∑ i, u i ^ 2 := by
  have := (mag2_list hp h u (List.finRange n)).2
  rw [List.length_finRange, ← List.ofFn_eq_map, List.sum_ofFn] at this
  exact this

theorem C104_mag2_dot (rnd : K → K) (u : Fin n → K) : mag2 rnd u = dot rnd u u := rfl

theorem low_pos {p : ℕ} (hp : 1 ≤ p) (k : ℕ) : (0 : K) < (1 - 2 ^ (-(p : ℤ))) ^ k :=
  pow_pos (by have := eps_le (K := K) hp; unfold eps at this; linarith) _

theorem sum_sq_zero (u : Fin n → K) : ∑ i, u i ^ 2 = 0 ↔ u = 0 := by
  rw [Finset.sum_eq_zero_iff_of_nonneg fun i _ => sq_nonneg _]
  constructor
  · intro h; funext i; exact pow_eq_zero_iff (by norm_num) |>.1 (h i (Finset.mem_univ i))
  · rintro rfl i _; simp

/-- **C104.** The computed squared length is never negative, and zero only for the zero vector. -/
theorem C104_mag2_zero {p : ℕ} (hp : 1 ≤ p) {rnd : K → K} (h : IsRound p rnd) (u : Fin n → K) :
    0 ≤ mag2 rnd u ∧ (mag2 rnd u = 0 ↔ u = 0) := by
  obtain ⟨a, b⟩ := C104_mag2 hp h u
  have hs : 0 ≤ ∑ i, u i ^ 2 := Finset.sum_nonneg fun i _ => sq_nonneg _
  have hl := low_pos (K := K) hp n
  refine ⟨le_trans (mul_nonneg hl.le hs) a, ?_⟩
  rw [← sum_sq_zero]
  constructor
  · intro e
    rw [e] at a
    by_contra hne
    have := mul_pos hl (lt_of_le_of_ne hs (Ne.symm hne))
    linarith
  · intro e
    rw [e, mul_zero] at a b
    linarith

theorem sub_sq {p : ℕ} (hp : 1 ≤ p) {rnd : K → K} (h : IsRound p rnd) (u v : Fin n → K) :
    (1 - 2 ^ (-(p : ℤ))) ^ 2 * ∑ i, (u i - v i) ^ 2 ≤ ∑ i, sub rnd u v i ^ 2 ∧
    ∑ i, sub rnd u v i ^ 2 ≤ (1 + 2 ^ (-(p : ℤ))) ^ 2 * ∑ i, (u i - v i) ^ 2 := by
  rw [Finset.mul_sum, Finset.mul_sum]
  exact ⟨Finset.sum_le_sum fun i _ => (h.sq_bounds hp _).1, Finset.sum_le_sum fun i _ => (h.sq_bounds hp _).2⟩

/-- **C104.** The computed squared distance is between `(1 - ε)^(n+2)` and `(1 + ε)^(n+2)` times the exact
one, and zero only if the points are equal. -/
theorem C104_dist2 {p : ℕ} (hp : 1 ≤ p) {rnd : K → K} (h : IsRound p rnd) (u v : Fin n → K) :
    (1 - 2 ^ (-(p : ℤ))) ^ (n + 2) * ∑ i, (u i - v i) ^ 2 ≤ dist2 rnd u v ∧
    dist2 rnd u v ≤ (1 + 2 ^ (-(p : ℤ))) ^ (n + 2) * ∑ i, (u i - v i) ^ 2 ∧
    (dist2 rnd u v = 0 ↔ u = v) := by
  obtain ⟨a, b⟩ := C104_mag2 hp h (sub rnd u v)
  obtain ⟨c, d⟩ := sub_sq hp h u v
  have e0 := two_zpow_pos (K := K) (-(p : ℤ))
  have l1 : (1 - 2 ^ (-(p : ℤ))) ^ (n + 2) * ∑ i, (u i - v i) ^ 2 ≤ dist2 rnd u v := by
    refine le_trans ?_ a
    rw [pow_add, mul_assoc]
    exact mul_le_mul_of_nonneg_left c (low_pos hp n).le
  have l2 : dist2 rnd u v ≤ (1 + 2 ^ (-(p : ℤ))) ^ (n + 2) * ∑ i, (u i - v i) ^ 2 := by
    refine le_trans b ?_
    rw [pow_add, mul_assoc]
    exact mul_le_mul_of_nonneg_left d (by positivity)
  refine ⟨l1, l2, ?_⟩
  have hz : u = v ↔ ∑ i, (u i - v i) ^ 2 = 0 := by
    rw [sum_sq_zero (fun i => u i - v i)]
    constructor
    · rintro rfl; funext i; simp
    · intro e; funext i; exact sub_eq_zero.1 (congrFun e i)
  rw [hz]
  have hs : 0 ≤ ∑ i, (u i - v i) ^ 2 := Finset.sum_nonneg fun i _ => sq_nonneg _
  constructor
  · intro e
    rw [e] at l1
    by_contra hne
    have := mul_pos (low_pos (K := K) hp (n + 2)) (lt_of_le_of_ne hs (Ne.symm hne))
    linarith
  · intro e
    rw [e, mul_zero] at l1 l2
    linarith

/-- **C104.** With a rounding that treats both signs alike the squared distance is symmetric. -/
theorem C104_dist2_comm {rnd : K → K} (hodd : ∀ x, rnd (-x) = -rnd x) (u v : Fin n → K) :
    dist2 rnd u v = dist2 rnd v u := by
  have : sub rnd u v = fun i => -sub rnd v u i := by
    funext i
    unfold sub
    rw [← hodd, neg_sub]
  unfold dist2 mag2 multiplyAdd
  rw [this]
  congr 1
  funext s i
  rw [neg_mul_neg]

/-- **C104.** The square of the computed length is between `(1 - ε)^(n+2)` and `(1 + ε)^(n+2)` times the
exact squared length; the length is zero only for the zero vector. -/
theorem C104_mag {p : ℕ} (hp : 1 ≤ p) {rnd sqrt : K → K} (h : IsRound p rnd)
    (hq : ∀ x, 0 ≤ x → 0 ≤ sqrt x ∧ sqrt x * sqrt x = x) (u : Fin n → K) :
    0 ≤ mag rnd sqrt u ∧
    (1 - 2 ^ (-(p : ℤ))) ^ (n + 2) * ∑ i, u i ^ 2 ≤ mag rnd sqrt u ^ 2 ∧
    mag rnd sqrt u ^ 2 ≤ (1 + 2 ^ (-(p : ℤ))) ^ (n + 2) * ∑ i, u i ^ 2 ∧
    (mag rnd sqrt u = 0 ↔ u = 0) := by
  obtain ⟨a, b⟩ := C104_mag2 hp h u
  obtain ⟨m0, _⟩ := C104_mag2_zero hp h u
  obtain ⟨q0, q1⟩ := hq _ m0
  obtain ⟨c, d⟩ := h.sq_bounds hp (sqrt (mag2 rnd u))
  rw [sq (sqrt _), q1] at c d
  have e0 := two_zpow_pos (K := K) (-(p : ℤ))
  have hs : 0 ≤ ∑ i, u i ^ 2 := Finset.sum_nonneg fun i _ => sq_nonneg _
  have l1 : (1 - 2 ^ (-(p : ℤ))) ^ (n + 2) * ∑ i, u i ^ 2 ≤ mag rnd sqrt u ^ 2 := by
    refine le_trans ?_ c
    rw [add_comm, pow_add, mul_assoc]
    exact mul_le_mul_of_nonneg_left a (low_pos hp 2).le
  have l2 : mag rnd sqrt u ^ 2 ≤ (1 + 2 ^ (-(p : ℤ))) ^ (n + 2) * ∑ i, u i ^ 2 := by
    refine le_trans d ?_
    rw [add_comm n, pow_add, mul_assoc]
    exact mul_le_mul_of_nonneg_left b (by unfold eps; positivity)
  refine ⟨?_, l1, l2, ?_⟩
  · have := (h.bounds hp q0).1
    have e1 := eps_le (K := K) hp
    exact le_trans (mul_nonneg (by linarith) q0) this
  · rw [← sum_sq_zero]
    constructor
    · intro e
      rw [e] at l1
      by_contra hne
      have := mul_pos (low_pos (K := K) hp (n + 2)) (lt_of_le_of_ne hs (Ne.symm hne))
      rw [zero_pow (by norm_num)] at l1
      linarith
    · intro e
      rw [e, mul_zero] at l1 l2
      exact pow_eq_zero_iff (by norm_num) |>.1 (le_antisymm l2 l1)

/-- **C104.** The square of the computed distance is between `(1 - ε)^(n+4)` and `(1 + ε)^(n+4)` times the
exact squared distance; it is zero only if the points are equal. -/
theorem C104_dist {p : ℕ} (hp : 1 ≤ p) {rnd sqrt : K → K} (h : IsRound p rnd)
    (hq : ∀ x, 0 ≤ x → 0 ≤ sqrt x ∧ sqrt x * sqrt x = x) (u v : Fin n → K) :
    (1 - 2 ^ (-(p : ℤ))) ^ (n + 4) * ∑ i, (u i - v i) ^ 2 ≤ dist rnd sqrt u v ^ 2 ∧
    dist rnd sqrt u v ^ 2 ≤ (1 + 2 ^ (-(p : ℤ))) ^ (n + 4) * ∑ i, (u i - v i) ^ 2 ∧
    (dist rnd sqrt u v = 0 ↔ u = v) := by
  obtain ⟨_, a, b, z⟩ := C104_mag hp h hq (sub rnd u v)
  obtain ⟨c, d⟩ := sub_sq hp h u v
  have e0 := two_zpow_pos (K := K) (-(p : ℤ))
  refine ⟨?_, ?_, ?_⟩
  · refine le_trans ?_ a
    rw [show n + 4 = (n + 2) + 2 by omega, pow_add, mul_assoc]
    exact mul_le_mul_of_nonneg_left c (low_pos hp _).le
  · refine le_trans b ?_
    rw [show n + 4 = (n + 2) + 2 by omega, pow_add _ (n + 2), mul_assoc]
    exact mul_le_mul_of_nonneg_left d (by positivity)
  · refine z.trans ?_
    rw [← (C104_dist2 hp h u v).2.2]
    exact (C104_mag2_zero hp h (sub rnd u v)).2.symm

/-- **C104.** Normalisation is defined for every non-zero vector.  Each component keeps its sign and has the
square `u i ^ 2 / ∑ u ^ 2` up to `(1 ± ε)^2 / (1 ∓ ε)^(n+2)`, and so does the squared length from 1. -/
theorem C104_unit {p : ℕ} (hp : 1 ≤ p) {rnd sqrt : K → K} (h : IsRound p rnd)
    (hq : ∀ x, 0 ≤ x → 0 ≤ sqrt x ∧ sqrt x * sqrt x = x) (u : Fin n → K) :
    (u = 0 → unit rnd sqrt u = none) ∧
    (u ≠ 0 → ∃ r, unit rnd sqrt u = some r ∧
      (∀ i, 0 ≤ r i * u i ∧
        (1 - 2 ^ (-(p : ℤ))) ^ 2 / (1 + 2 ^ (-(p : ℤ))) ^ (n + 2) * (u i ^ 2 / ∑ j, u j ^ 2) ≤ r i ^ 2 ∧
        r i ^ 2 ≤ (1 + 2 ^ (-(p : ℤ))) ^ 2 / (1 - 2 ^ (-(p : ℤ))) ^ (n + 2) * (u i ^ 2 / ∑ j, u j ^ 2)) ∧
      (1 - 2 ^ (-(p : ℤ))) ^ 2 / (1 + 2 ^ (-(p : ℤ))) ^ (n + 2) ≤ ∑ i, r i ^ 2 ∧
      ∑ i, r i ^ 2 ≤ (1 + 2 ^ (-(p : ℤ))) ^ 2 / (1 - 2 ^ (-(p : ℤ))) ^ (n + 2)) := by
  obtain ⟨m0, a, b, z⟩ := C104_mag hp h hq u
  constructor
  · intro hu
    unfold unit
    simp only
    rw [if_pos (z.2 hu)]
  · intro hu
    have hm : mag rnd sqrt u ≠ 0 := fun e => hu (z.1 e)
    have hmp : 0 < mag rnd sqrt u := lt_of_le_of_ne m0 (Ne.symm hm)
    have hs0 : ∑ i, u i ^ 2 ≠ 0 := fun e => hu ((sum_sq_zero u).1 e)
    have hs : 0 < ∑ i, u i ^ 2 := lt_of_le_of_ne (Finset.sum_nonneg fun i _ => sq_nonneg _) (Ne.symm hs0)
    set S := ∑ i, u i ^ 2 with hS
    set m := mag rnd sqrt u with hmdef
    set e : K := 2 ^ (-(p : ℤ)) with he
    have e0 : 0 < e := two_zpow_pos (K := K) (-(p : ℤ))
    have e1 : e ≤ 1 / 2 := eps_le hp
    have hl : 0 < (1 - e) ^ (n + 2) := low_pos hp _
    have hh : 0 < (1 + e) ^ (n + 2) := by positivity
    have comp : ∀ i, (1 - e) ^ 2 / (1 + e) ^ (n + 2) * (u i ^ 2 / S) ≤ rnd (u i / m) ^ 2 ∧
        rnd (u i / m) ^ 2 ≤ (1 + e) ^ 2 / (1 - e) ^ (n + 2) * (u i ^ 2 / S) := by
      intro i
      obtain ⟨c, d⟩ := h.sq_bounds hp (u i / m)
      rw [div_pow] at c d
      have hm2 : 0 < m ^ 2 := by positivity
      constructor
      · refine le_trans ?_ c
        rw [div_mul_div_comm, ← mul_div_assoc]
        exact div_le_div_of_nonneg_left (by positivity) hm2 b
      · refine le_trans d ?_
        rw [div_mul_div_comm, ← mul_div_assoc]
        exact div_le_div_of_nonneg_left (by unfold eps; positivity) (mul_pos hl hs) a
    refine ⟨fun i => rnd (u i / m), ?_, ?_, ?_, ?_⟩
    · unfold unit
      simp only
      rw [if_neg hm]
    · intro i
      refine ⟨?_, comp i⟩
      have key : 0 ≤ rnd (u i / m) * (u i / m) := by
        have := h.rel hp (u i / m)
        have e1' : eps K p ≤ 1 := by have := eps_le (K := K) hp; linarith
        have t : |rnd (u i / m) - u i / m| ≤ |u i / m| :=
          this.trans (by nlinarith [abs_nonneg (u i / m)])
        have t2 := sq_le_sq.2 t
        nlinarith [sq_nonneg (rnd (u i / m))]
      have : rnd (u i / m) * u i = rnd (u i / m) * (u i / m) * m := by field_simp
      simp only
      rw [this]
      exact mul_nonneg key m0
    · have : (1 - e) ^ 2 / (1 + e) ^ (n + 2) = ∑ i, (1 - e) ^ 2 / (1 + e) ^ (n + 2) * (u i ^ 2 / S) := by
        rw [← Finset.mul_sum, ← Finset.sum_div, ← hS, div_self hs0, mul_one]
      rw [this]
      exact Finset.sum_le_sum fun i _ => (comp i).1
    · have : (1 + e) ^ 2 / (1 - e) ^ (n + 2) = ∑ i, (1 + e) ^ 2 / (1 - e) ^ (n + 2) * (u i ^ 2 / S) := by
        rw [← Finset.mul_sum, ← Finset.sum_div, ← hS, div_self hs0, mul_one]
      rw [this]
      exact Finset.sum_le_sum fun i _ => (comp i).2

/-! ## The cross product -/

/-- The exact cross product. -/
def exactCross (u v : Fin 3 → K) : Fin 3 → K :=
  ![u 1 * v 2 - u 2 * v 1, u 2 * v 0 - u 0 * v 2, u 0 * v 1 - u 1 * v 0]

/-- **C104.** Every component of the computed cross product has relative error at most `3 ε`, whatever
cancellation takes place. -/
theorem C104_cross {p : ℕ} (hp : 1 ≤ p) {rnd : K → K} (h : IsRound p rnd) {u v : Fin 3 → K}
    (hu : ∀ i, IsFloat p (u i)) (hv : ∀ i, IsFloat p (v i)) (i : Fin 3) :
    |cross rnd u v i - exactCross u v i| ≤ 3 * 2 ^ (-(p : ℤ)) * |exactCross u v i| := by
  fin_cases i
  · exact (C95_relative hp h (hu 1) (hv 2) (hu 2) (hv 1)).1
  · exact (C95_relative hp h (hu 2) (hv 0) (hu 0) (hv 2)).1
  · exact (C95_relative hp h (hu 0) (hv 1) (hu 1) (hv 0)).1

/-- **C104.** The computed cross product is zero exactly for parallel vectors, in particular for a vector
with itself. -/
theorem C104_cross_zero {p : ℕ} (hp : 2 ≤ p) {rnd : K → K} (h : IsRound p rnd) {u v : Fin 3 → K}
    (hu : ∀ i, IsFloat p (u i)) (hv : ∀ i, IsFloat p (v i)) :
    (∀ i, cross rnd u v i = 0 ↔ exactCross u v i = 0) ∧ (∀ i, cross rnd u u i = 0) ∧
    (∀ c : K, v = (fun i => c * u i) → ∀ i, cross rnd u v i = 0) := by
  have key : ∀ w : Fin 3 → K, (∀ i, IsFloat p (w i)) → ∀ i, cross rnd u w i = 0 ↔ exactCross u w i = 0 := by
    intro w hw i
    have := C104_cross (by omega) h hu hw i
    constructor
    · intro e
      rw [e, zero_sub, abs_neg] at this
      have e1 : (2 : K) ^ (-(p : ℤ)) ≤ 2 ^ (-2 : ℤ) := zle (by omega)
      rw [show (2 : K) ^ (-2 : ℤ) = 1 / 4 by norm_num] at e1
      by_contra hne
      have := abs_pos.2 hne
      nlinarith
    · intro e
      rw [e, abs_zero, mul_zero, sub_zero] at this
      exact abs_eq_zero.1 (le_antisymm this (abs_nonneg _))
  refine ⟨key v hv, fun i => (key u hu i).2 ?_, ?_⟩
  · fin_cases i <;> simp [exactCross] <;> ring
  · rintro c rfl i
    refine (key _ hv i).2 ?_
    fin_cases i <;> simp [exactCross] <;> ring

/-- **C104, refuted**: swapping the arguments of the cross product does not negate it exactly.  `err` corrects
only the second product, so the two orders round differently; both for 24 and for 53 bits. -/
theorem C104_cross_antisymmetric_refuted :
    (∃ u v : Fin 3 → ℚ, (∀ i, IsFloat 24 (u i)) ∧ (∀ i, IsFloat 24 (v i)) ∧
      cross (nearest 24) u v 2 ≠ -cross (nearest 24) v u 2) ∧
    (∃ u v : Fin 3 → ℚ, (∀ i, IsFloat 53 (u i)) ∧ (∀ i, IsFloat 53 (v i)) ∧
      cross (nearest 53) u v 2 ≠ -cross (nearest 53) v u 2) := by
  have int : ∀ (p : ℕ) (m : ℤ), |m| < 2 ^ p → IsFloat p ((m : ℤ) : ℚ) :=
    fun p m hm => ⟨m, 0, hm, by simp⟩
  refine ⟨⟨fun i => ((![9538756, 14566115, 0] : Fin 3 → ℤ) i : ℚ),
    fun i => ((![16239281, 9644966, 0] : Fin 3 → ℤ) i : ℚ), ?_, ?_, ?_⟩,
    ⟨fun i => ((![8182388925985954, 4813617621595208, 0] : Fin 3 → ℤ) i : ℚ),
    fun i => ((![6463586668679730, 8779925018940545, 0] : Fin 3 → ℤ) i : ℚ), ?_, ?_, ?_⟩⟩
  · intro i; apply int; fin_cases i <;> decide
  · intro i; apply int; fin_cases i <;> decide
  · decide +kernel
  · intro i; apply int; fin_cases i <;> decide
  · intro i; apply int; fin_cases i <;> decide
  · decide +kernel

/-- Rounded to three bits, `(3, 4, 5) · (7, 1, 2) = 35` is computed as 32: 21 is rounded to 20, 24 is a
float, and 34 is rounded to 32. -/
example : dot (nearest 3) ![(3 : ℚ), 4, 5] ![7, 1, 2] = 32 := by decide +kernel

/-- Lengths and distances of a vector of 24-bit floats. -/
example : mag2 (nearest 24) ![(3 : ℚ), 4] = 25 ∧ dist2 (nearest 24) ![(1 : ℚ), 7] ![4, 3] = 25 := by
  decide +kernel

/-- Two almost parallel vectors: the exact third component is -1, and so is the computed one, where the
separately rounded products cancel to zero. -/
example : cross (nearest 24) ![(16777215 : ℚ), 16777214, 0] ![16777214, 16777213, 0] 2 = -1 ∧
    naiveDiff (nearest 24) (16777215 : ℚ) 16777213 16777214 16777214 = 0 := by
  decide +kernel

end Geomc.Flt
