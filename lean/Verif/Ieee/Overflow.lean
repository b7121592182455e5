import Verif.Ieee.Boxes
import Verif.Float.Tiny
import Mathlib.Tactic.Positivity
import Mathlib.Tactic.Ring

/-! # C109: vectors and spheres near the largest floating-point numbers -/

namespace Geomc.Ieee

variable {K : Type} {n : ℕ} [Field K] [LinearOrder K] [IsStrictOrderedRing K]

/-- A rounding that overflows from `top` on and does not below `bot`; `u` and `η` are its relative and absolute errors. -/
structure Overflows (R : K → Option K) (bot top u η : K) : Prop where
  top_pos : 0 < top
  u_nonneg : 0 ≤ u
  eta_nonneg : 0 ≤ η
  over : ∀ x, top ≤ |x| → R x = none
  under : ∀ x, |x| < bot → ∃ y, R x = some y
  sign : ∀ x y, R x = some y → 0 ≤ x → 0 ≤ y
  err : ∀ x y, R x = some y → |y - x| ≤ u * |x| + η

/-- A sum of squares so far: not negative, and perhaps infinite. -/
def Sum : Fl K → Prop
  | .fin z _ => 0 ≤ z
  | .inf t => t = false
  | .nan => False

variable {R : K → Option K} {bot top u η : K}

theorem ofReal_nonneg (h : Overflows R bot top u η) {x : K} (hx : 0 ≤ x) (s : Bool) : Sum (ofReal R s x) := by
  unfold ofReal
  cases e : R x with
  | none => simpa [Sum] using hx
  | some y => exact h.sign x y e hx

theorem ofReal_over (h : Overflows R bot top u η) {x : K} (hx : top ≤ x) (s : Bool) : ofReal R s x = .inf false := by
  have h0 := h.top_pos
  rw [ofReal, h.over x (hx.trans (le_abs_self x))]
  simp [(h0.le.trans hx)]

/-- A number that is finite or infinite. -/
def Wide : Fl K → Prop
  | .nan => False
  | _ => True

/-- A number whose square overflows. -/
def Big (top : K) : Fl K → Prop
  | .fin x _ => top ≤ x * x
  | _ => True

theorem square_step (h : Overflows R bot top u η) {a s : Fl K} (ha : Wide a) (hs : Sum s) :
    Sum (a.fma R a s) ∧ (s = .inf false → a.fma R a s = .inf false) ∧
      (Big top a → a.fma R a s = .inf false) := by
  rcases a with ⟨x, t⟩ | t | _
  · rcases s with ⟨z, w⟩ | w | _
    · have hz : 0 ≤ z := hs
      refine ⟨ofReal_nonneg h (add_nonneg (mul_self_nonneg x) hz) _, fun e => (by cases e), fun hx => ?_⟩
      exact ofReal_over h (by have : top ≤ x * x := hx; linarith) _
    · have hw : w = false := hs
      subst hw
      exact ⟨rfl, fun _ => rfl, fun _ => rfl⟩
    · exact absurd hs id
  · have e : (Fl.inf t : Fl K).mul R (.inf t) = .inf false := by simp [Fl.mul]
    rcases s with ⟨z, w⟩ | w | _
    · have e' : (Fl.inf t : Fl K).fma R (.inf t) (.fin z w) = .inf false := by
        rw [Fl.fma]
        · rw [e]; rfl
        · simp
      rw [e']
      exact ⟨rfl, fun _ => rfl, fun _ => rfl⟩
    · have hw : w = false := hs
      subst hw
      have e' : (Fl.inf t : Fl K).fma R (.inf t) (.inf false) = .inf false := by
        rw [Fl.fma]
        · rw [e]; rfl
        · simp
      rw [e']
      exact ⟨rfl, fun _ => rfl, fun _ => rfl⟩
    · exact absurd hs id
  · exact absurd ha id

theorem mag2_fold (h : Overflows R bot top u η) {v : Fin n → Fl K} (hv : ∀ i, Wide (v i)) (l : List (Fin n)) {s : Fl K} (hs : Sum s) :
    let r := l.foldl (fun s i => (v i).fma R (v i) s) s
    Sum r ∧ (s = .inf false → r = .inf false) ∧
      ((∃ i ∈ l, Big top (v i)) → r = .inf false) := by
  induction l generalizing s with
  | nil => exact ⟨hs, id, by simp⟩
  | cons i l ih =>
    have h1 := square_step h (hv i) hs
    have h2 := ih h1.1
    refine ⟨h2.1, fun e => h2.2.1 (h1.2.1 e), ?_⟩
    rintro ⟨j, hj, hx⟩
    rcases List.mem_cons.1 hj with rfl | hj
    · exact h2.2.1 (h1.2.2 hx)
    · exact h2.2.2 ⟨j, hj, hx⟩

/-- The squared length of a vector without NaN is a nonnegative number or infinite. -/
theorem mag2_sum (h : Overflows R bot top u η) {v : Fin n → Fl K} (hv : ∀ i, Wide (v i)) : Sum (mag2 R v) :=
  (mag2_fold h hv (List.finRange n) (s := .fin 0 false) le_rfl).1

/-- **C109** refuted: a finite vector with a component whose square overflows has an infinite length, whatever its true length, and its
direction is the zero vector. -/
theorem C109_unit_refuted (h : Overflows R bot top u η) (root : K → K) (x : Fin n → K) (s : Fin n → Bool) {i : Fin n} (hi : top ≤ x i * x i) :
    mag2 R (fun i => .fin (x i) (s i)) = .inf false ∧ mag R root (fun i => .fin (x i) (s i)) = .inf false ∧
      ∀ j, ∃ t, unit R root (fun i => .fin (x i) (s i)) j = .fin 0 t := by
  have h1 : mag2 R (fun i => .fin (x i) (s i)) = .inf false :=
    (mag2_fold h (v := fun i => .fin (x i) (s i)) (fun _ => trivial) (List.finRange n) (s := .fin 0 false) le_rfl).2.2
      ⟨i, List.mem_finRange i, hi⟩
  have h2 : mag R root (fun i => .fin (x i) (s i)) = .inf false := by rw [mag, h1]; rfl
  refine ⟨h1, h2, fun j => ?_⟩
  simp only [unit, h2]
  exact ⟨_, rfl⟩

theorem sub_wide {a b : Fl K} (ha : a.Finite) (hb : b.Finite) : Wide (a.sub R b) := by
  rcases a with ⟨x, s⟩ | s | _
  · rcases b with ⟨y, t⟩ | t | _
    · simp only [Fl.sub, Fl.neg, Fl.add, ofReal]
      cases R (x + -y) <;> exact trivial
    · exact absurd hb id
    · exact absurd hb id
  · exact absurd ha id
  · exact absurd ha id

/-- **C109** refuted: the distance of finite points is infinite if a difference of coordinates has a square that overflows, or itself
overflows. -/
theorem C109_dist_refuted (h : Overflows R bot top u η) (root : K → K) {a b : Fin n → Fl K} (ha : ∀ i, (a i).Finite) (hb : ∀ i, (b i).Finite)
    {i : Fin n} (hi : Big top ((a i).sub R (b i))) : dist R root a b = .inf false := by
  have h1 : mag2 R (vsub R a b) = .inf false :=
    (mag2_fold h (v := vsub R a b) (fun i => sub_wide (ha i) (hb i)) (List.finRange n) (s := .fin 0 false) le_rfl).2.2
      ⟨i, List.mem_finRange i, hi⟩
  rw [dist, mag, h1]
  rfl

/-- **C109** refuted: a sphere whose squared radius overflows contains every finite point. -/
theorem C109_sphere_refuted (h : Overflows R bot top u η) {c p : Fin n → Fl K} (hc : ∀ i, (c i).Finite) (hp : ∀ i, (p i).Finite) {r : K} (s : Bool)
    (hr : top ≤ r * r) : sphereContains R c (.fin r s) p = true := by
  have h1 := mag2_sum h (v := vsub R c p) fun i => sub_wide (hc i) (hp i)
  have h2 : (Fl.fin r s).mul R (.fin r s) = .inf false := ofReal_over h hr _
  rw [sphereContains, h2]
  generalize mag2 R (vsub R c p) = m at h1
  rcases m with ⟨z, t⟩ | t | _
  · rfl
  · have : t = false := h1
    subst this
    rfl
  · exact absurd h1 id

/-- **C109** refuted: the dot product of perpendicular vectors can be infinite, of either sign depending on the order of the coordinates. -/
theorem C109_dot_refuted (h : Overflows R bot top u η) {x : K} (hx : top ≤ x * x) (s : Bool) :
    dot R ![.fin x s, .fin x s] ![.fin x s, .fin (-x) s] = .inf false ∧ dot R ![.fin x s, .fin x s] ![.fin (-x) s, .fin x s] = .inf true := by
  have h0 := h.top_pos
  have hn : R (-(x * x)) = none := h.over _ (by rw [abs_neg]; exact hx.trans (le_abs_self _))
  have hp : R (x * x) = none := h.over _ (hx.trans (le_abs_self _))
  have hlt : 0 < x * x := h0.trans_le hx
  constructor
  · simp [dot, List.finRange_succ, Fl.fma, ofReal, hp, not_lt_of_gt hlt]
  · have : -(x * x) < 0 := by linarith
    simp [dot, List.finRange_succ, Fl.fma, ofReal, hn, hlt]

/-! ## Without overflow -/

theorem partial_sum (h : Overflows R bot top u η) (x : Fin n → K) (s : Fin n → Bool) (l : List (Fin n)) {z : K} (hz : 0 ≤ z) (t : Bool)
    (hl : (1 + u) ^ l.length * (z + (l.map fun i => x i * x i + η).sum) < bot) :
    ∃ y t', l.foldl (fun a i => (Fl.fin (x i) (s i)).fma R (.fin (x i) (s i)) a) (.fin z t) = .fin y t' ∧ 0 ≤ y ∧
      y ≤ (1 + u) ^ l.length * (z + (l.map fun i => x i * x i + η).sum) := by
  induction l generalizing z t with
  | nil => exact ⟨z, t, rfl, hz, by simp⟩
  | cons i l ih =>
    have hu := h.u_nonneg
    have hη := h.eta_nonneg
    have hsum : 0 ≤ (l.map fun i => x i * x i + η).sum :=
      List.sum_nonneg (by simp; intro a _; exact add_nonneg (mul_self_nonneg _) hη)
    have hxi := mul_self_nonneg (x i)
    have hp : 1 ≤ (1 + u) ^ l.length := one_le_pow₀ (by linarith)
    simp only [List.length_cons, List.map_cons, List.sum_cons, pow_succ] at hl ⊢
    have step : ∀ y, R (x i * x i + z) = some y → 0 ≤ y → (1 + u) ^ l.length * (y + (l.map fun i => x i * x i + η).sum) < bot →
        (1 + u) ^ l.length * (y + (l.map fun i => x i * x i + η).sum) ≤
          (1 + u) ^ l.length * (1 + u) * (z + (x i * x i + η + (l.map fun i => x i * x i + η).sum)) →
        ∃ y t', (i :: l).foldl (fun a i => (Fl.fin (x i) (s i)).fma R (.fin (x i) (s i)) a) (.fin z t) = .fin y t' ∧ 0 ≤ y ∧
          y ≤ (1 + u) ^ l.length * (1 + u) * (z + (x i * x i + η + (l.map fun i => x i * x i + η).sum)) := by
      intro y e hy hlt hle
      have hstep : ∃ t', (Fl.fin (x i) (s i)).fma R (.fin (x i) (s i)) (.fin z t) = .fin y t' := by
        simp only [Fl.fma, ofReal, e]
        exact ⟨_, rfl⟩
      obtain ⟨t', ht'⟩ := hstep
      rw [List.foldl_cons, ht']
      obtain ⟨y', t'', h1, h2, h3⟩ := ih hy t' hlt
      exact ⟨y', t'', h1, h2, h3.trans hle⟩
    clear ih
    generalize List.foldl _ _ _ = F at step
    generalize (l.map fun i => x i * x i + η).sum = S at *
    generalize (1 + u) ^ l.length = P at *
    generalize x i * x i = w at *
    have hP0 : 0 ≤ P := by linarith
    have h3 : w + z ≤ (1 + u) * (w + z) + η + S := by nlinarith [mul_nonneg hu (add_nonneg hxi hz)]
    have hb : (1 + u) * (w + z) + η + S ≤ (1 + u) * (z + (w + η + S)) := by
      nlinarith [mul_nonneg hu hsum, mul_nonneg hu hη]
    have hb2 := mul_le_mul_of_nonneg_left hb hP0
    have h4 : (1 + u) * (w + z) + η + S ≤ P * ((1 + u) * (w + z) + η + S) := le_mul_of_one_le_left (by positivity) hp
    have habs : |w + z| = w + z := abs_of_nonneg (add_nonneg hxi hz)
    have hlt : |w + z| < bot := by
      rw [habs]
      have := mul_assoc P (1 + u) (z + (w + η + S))
      linarith
    obtain ⟨y, e⟩ := h.under _ hlt
    have he := h.err _ y e
    have hy0 := h.sign _ y e (add_nonneg hxi hz)
    have hy1 : y ≤ (1 + u) * (w + z) + η := by
      rw [habs] at he
      have := (abs_le.1 he).2
      linarith
    have hle : P * (y + S) ≤ P * ((1 + u) * (z + (w + η + S))) := by
      refine _root_.le_trans (mul_le_mul_of_nonneg_left ?_ hP0) hb2
      linarith
    have hy2 : P * (y + S) < bot := lt_of_le_of_lt hle (by linarith [mul_assoc P (1 + u) (z + (w + η + S))])
    have hz2 : P * (y + S) ≤ P * (1 + u) * (z + (w + η + S)) := hle.trans_eq (by ring)
    exact step y e hy0 hy2 hz2

/-- **C109**: as long as the true squared length, with room for the rounding errors, is below the overflow threshold, the computed one is
finite. -/
theorem C109_finite (h : Overflows R bot top u η) (x : Fin n → K) (s : Fin n → Bool) (hl : (1 + u) ^ n * ∑ i, (x i * x i + η) < bot) :
    ∃ y t, mag2 R (fun i => .fin (x i) (s i)) = .fin y t ∧ 0 ≤ y ∧ y ≤ (1 + u) ^ n * ∑ i, (x i * x i + η) := by
  have e : ((List.finRange n).map fun i => x i * x i + η).sum = ∑ i, (x i * x i + η) := by
    rw [← List.ofFn_eq_map, List.sum_ofFn]
  have := partial_sum h x s (List.finRange n) (z := 0) le_rfl false (by simpa [e] using hl)
  simpa [mag2, e] using this

/-! ## The floating-point numbers -/

/-- Rounding among numbers with magnitudes below `2^e`, given a rounding among all. -/
def limit (e : ℤ) (rnd : K → K) (x : K) : Option K := if |rnd x| < 2 ^ e then some (rnd x) else none

open Flt in
/-- **C109**: `float` and `double` are such numbers: the numbers with `p` bits that are multiples of `2^q` and below `2^e` in
magnitude (24, -149 and 128; 53, -1074 and 1024). -/
theorem C109_format [FloorRing K] {p : ℕ} (hp : 1 ≤ p) {q e : ℤ} (hq : q + p ≤ e) {rnd : K → K} (h : IsRoundE p q rnd) :
    Overflows (limit e rnd) ((2 ^ p - 1) * 2 ^ (e - p)) (2 ^ e) (2 ^ (-(p : ℤ))) (2 ^ (q - 1)) := by
  have hone : IsFloatE p q ((2 : K) ^ e) := by
    have := floatE_mul (K := K) hp (q := q) (e := e) (by omega) 1 (by simpa using one_le_pow₀ (M₀ := ℤ) (by norm_num : (1 : ℤ) ≤ 2))
    simpa using this
  have hneg : ∀ {y : K}, IsFloatE p q y → IsFloatE p q (-y) := by
    rintro y ⟨m, e, h1, h2, h3⟩
    exact ⟨-m, e, by rwa [abs_neg], h2, by rw [h3]; push_cast; ring⟩
  have h2p : (1 : ℤ) ≤ 2 ^ p := one_le_pow₀ (by norm_num)
  have hbot : IsFloatE p q (((2 : K) ^ p - 1) * 2 ^ (e - p)) :=
    ⟨2 ^ p - 1, e - p, by rw [abs_of_nonneg (by linarith)]; linarith, by omega, by push_cast; ring⟩
  have hlt : ((2 : K) ^ p - 1) * 2 ^ (e - p) < 2 ^ e := by
    have : (2 : K) ^ e = 2 ^ p * 2 ^ (e - p) := by
      rw [← zpow_natCast, ← zadd]; congr 1; ring
    rw [this]
    have := two_zpow_pos (K := K) (e - p)
    nlinarith
  refine ⟨two_zpow_pos e, (two_zpow_pos _).le, (two_zpow_pos _).le, fun x hx => if_neg (_root_.not_lt.2 ?_), fun x hx => ?_, fun x y hy h0 => ?_,
    fun x y hy => ?_⟩
  · rcases _root_.le_total 0 x with h0 | h0
    · rw [abs_of_nonneg h0] at hx
      have := h.near x _ hone
      rw [abs_of_nonpos (sub_nonpos.2 hx)] at this
      have := (abs_le.1 this).1
      exact _root_.le_trans (by linarith) (le_abs_self _)
    · rw [abs_of_nonpos h0] at hx
      have := h.near x _ (hneg hone)
      rw [abs_of_nonneg (show 0 ≤ -2 ^ e - x by linarith)] at this
      have := (abs_le.1 this).2
      exact _root_.le_trans (by linarith) (neg_le_abs _)
  · refine ⟨rnd x, if_pos (lt_of_le_of_lt ?_ hlt)⟩
    have hx' := abs_lt.1 hx
    have h1 := h.near x _ hbot
    have h2 := h.near x _ (hneg hbot)
    rw [abs_of_nonneg (show 0 ≤ (2 ^ p - 1) * 2 ^ (e - p) - x by linarith)] at h1
    rw [abs_of_nonpos (show -((2 ^ p - 1) * 2 ^ (e - p)) - x ≤ 0 by linarith)] at h2
    have := (abs_le.1 h1).2
    have := (abs_le.1 h2).1
    exact abs_le.2 ⟨by linarith, by linarith⟩
  · unfold limit at hy
    split_ifs at hy
    cases hy
    have := h.near x 0 (floatE_zero p q)
    rw [zero_sub, abs_neg, abs_of_nonneg h0] at this
    linarith [(abs_le.1 this).1]
  · unfold limit at hy
    split_ifs at hy
    cases hy
    refine _root_.le_trans (C106_round hp h x) (max_le ?_ ?_)
    · have := two_zpow_pos (K := K) (q - 1)
      linarith
    · have := mul_nonneg (two_zpow_pos (K := K) (-(p : ℤ))).le (abs_nonneg x)
      linarith

/-- **C109** refuted, for `double`: the unit vector of a vector with a coordinate of magnitude `2^512` or more is zero, though the vector
itself is finite up to `2^1024`. -/
theorem C109_double_refuted [FloorRing K] (root : K → K) (x : Fin n → K) (s : Fin n → Bool) {i : Fin n} (hi : 2 ^ (512 : ℤ) ≤ |x i|) (j : Fin n) :
    ∃ t, unit (limit 1024 (Flt.nearestE 53 (-1074))) root (fun i => .fin (x i) (s i)) j = .fin 0 t := by
  refine (C109_unit_refuted (C109_format (p := 53) (by norm_num) (by norm_num) (Flt.C106_nearest (by norm_num) _)) root x s (i := i) ?_).2.2 j
  have h0 : (0 : K) ≤ 2 ^ (512 : ℤ) := (Flt.two_zpow_pos _).le
  calc (2 : K) ^ (1024 : ℤ) = 2 ^ (512 : ℤ) * 2 ^ (512 : ℤ) := by rw [← Flt.zadd]; norm_num
    _ ≤ |x i| * |x i| := mul_le_mul hi hi h0 (abs_nonneg _)
    _ = x i * x i := abs_mul_abs_self _

/-! ## Examples -/

/-- Rounding that keeps every number below 100. -/
def keep (x : ℚ) : Option ℚ := if |x| < 100 then some x else none

theorem keep_overflows : Overflows keep 100 100 0 0 := by
  refine ⟨by norm_num, le_rfl, le_rfl, fun x hx => if_neg (_root_.not_lt.2 hx), fun x hx => ⟨x, if_pos hx⟩, ?_, ?_⟩ <;>
  · intro x y hy
    unfold keep at hy
    split_ifs at hy
    cases hy
    simp

/-- The unit vector of `(12, 5)` is zero, that of `(6, 8)` (with a squared length of 100) as well; a sphere of radius 10 contains points at
a distance of 90. -/
example : unit keep id (n := 2) ![.fin 12 false, .fin 5 false] 0 = .fin 0 false ∧ mag2 keep (n := 2) ![.fin 6 false, .fin 8 false] = .inf false ∧
    mag2 keep (n := 2) ![.fin 6 false, .fin 7 false] = .fin 85 false ∧
    sphereContains keep (n := 2) ![.fin 0 false, .fin 0 false] (.fin 10 false) ![.fin 90 false, .fin 0 false] = true ∧
    dist keep id (n := 1) ![.fin 60 false] ![.fin (-60) false] = .inf false ∧
    sphereContains keep (n := 2) ![.fin 0 false, .fin 0 false] (.fin 9 false) ![.fin 90 false, .fin 0 false] = false := by decide +kernel

end Geomc.Ieee
