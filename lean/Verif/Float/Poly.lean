import Verif.Float.PolyModel
import Verif.Float.RotUse
import Verif.Basis.Props

/-! # Property C134: Legendre and Chebyshev polynomials in floating point -/

namespace Geomc.Flt

variable {K : Type} [Field K] [LinearOrder K] [IsStrictOrderedRing K]

/-! ## Recurrences of three terms -/

/-- A sequence with `e (k+2) = (1 + a k) x e (k+1) - a k e k` up to `D`, for `0 ≤ a k ≤ 1`: the two recurrences of the library. -/
structure Rec (x : K) (a : ℕ → K) (n : ℕ) (D : K) (e : ℕ → K) : Prop where
  step : ∀ k, k + 2 ≤ n → |e (k + 2) - ((1 + a k) * x * e (k + 1) - a k * e k)| ≤ D

/-- The quadratic form that such a recurrence never increases. -/
theorem rec_form {x : K} (hx : |x| ≤ 1) {a : ℕ → K} (ha : ∀ k, 0 ≤ a k ∧ a k ≤ 1) {n : ℕ} {D q : K} (D0 : 0 ≤ D) (q0 : 0 ≤ q) {e : ℕ → K} (h : Rec x a n D e)
    (h0 : (e 1 - x * e 0) ^ 2 + (1 - x ^ 2) * e 0 ^ 2 ≤ q ^ 2) (k : ℕ) (hk : k + 1 ≤ n) :
    (e (k + 1) - x * e k) ^ 2 + (1 - x ^ 2) * e k ^ 2 ≤ (q + k * D) ^ 2 := by
  have hx2 : 0 ≤ 1 - x ^ 2 := by
    rw [sub_nonneg, ← sq_abs]
    exact pow_le_one₀ (abs_nonneg _) hx
  induction k with
  | zero => simpa using h0
  | succ k ih =>
    have ih := ih (by omega)
    have hs := h.step k hk
    obtain ⟨a0, a1⟩ := ha k
    generalize a k = α at *
    set δ := e (k + 2) - ((1 + α) * x * e (k + 1) - α * e k) with hδ
    set y := x * e (k + 1) - e k with hy
    have e1 : e (k + 1 + 1) - x * e (k + 1) = α * y + δ := by
      rw [hδ, hy]
      ring
    have e2 : (e (k + 1) - x * e k) ^ 2 + (1 - x ^ 2) * e k ^ 2 = y ^ 2 + (1 - x ^ 2) * e (k + 1) ^ 2 := by
      rw [hy]
      ring
    rw [e1]
    rw [e2] at ih
    push_cast
    have w0 : 0 ≤ q + k * D := by positivity
    have hy2 : |y| ≤ q + k * D := abs_le_of_sq_le_sq' (by nlinarith [mul_nonneg hx2 (sq_nonneg (e (k + 1)))]) w0 |> abs_le.2
    have hy3 : |α * y * δ| ≤ (q + k * D) * D := by
      rw [abs_mul, abs_mul, abs_of_nonneg a0]
      refine mul_le_mul ?_ hs (abs_nonneg _) w0
      nlinarith [abs_nonneg y]
    have hd2 : δ ^ 2 ≤ D ^ 2 := by
      rw [← sq_abs δ]
      exact pow_le_pow_left₀ (abs_nonneg _) hs 2
    have hay : (α * y) ^ 2 ≤ y ^ 2 := by
      rw [mul_pow]
      nlinarith [sq_nonneg y, pow_le_one₀ (n := 2) a0 a1]
    have := (abs_le.1 hy3).2
    nlinarith

/-- So its terms grow at most by the initial form, and quadratically with the errors. -/
theorem rec_bound {x : K} (hx : |x| ≤ 1) {a : ℕ → K} (ha : ∀ k, 0 ≤ a k ∧ a k ≤ 1) {n : ℕ} {D q : K} (D0 : 0 ≤ D) (q0 : 0 ≤ q) {e : ℕ → K} (h : Rec x a n D e)
    (h0 : (e 1 - x * e 0) ^ 2 + (1 - x ^ 2) * e 0 ^ 2 ≤ q ^ 2) (k : ℕ) (hk : k ≤ n) : |e k| ≤ |e 0| + k * q + D * (k ^ 2 / 2) := by
  have hx2 : 0 ≤ 1 - x ^ 2 := by
    rw [sub_nonneg, ← sq_abs]
    exact pow_le_one₀ (abs_nonneg _) hx
  induction k with
  | zero => simp
  | succ k ih =>
    have ih := ih (by omega)
    have f := rec_form hx ha D0 q0 h h0 k hk
    have g : |e (k + 1) - x * e k| ≤ q + k * D :=
      abs_le_of_sq_le_sq' (by nlinarith [mul_nonneg hx2 (sq_nonneg (e k))]) (by positivity) |> abs_le.2
    have t := abs_add_le (e (k + 1) - x * e k) (x * e k)
    rw [sub_add_cancel, abs_mul] at t
    have m := mul_le_mul_of_nonneg_right hx (abs_nonneg (e k))
    push_cast
    nlinarith

/-- The error of a computed sequence against the exact one, if the errors of the steps are relative to the size of the terms. -/
theorem rec_error {x : K} (hx : |x| ≤ 1) {a : ℕ → K} (ha : ∀ k, 0 ≤ a k ∧ a k ≤ 1) {n : ℕ} {u v : ℕ → K} {V c : K} (V0 : 0 ≤ V) (c0 : 0 ≤ c)
    (hu0 : u 0 = v 0) (hu1 : u 1 = v 1) (hv : ∀ k, v (k + 2) = (1 + a k) * x * v (k + 1) - a k * v k) (hV : ∀ k ≤ n, |v k| ≤ V) (hc : 3 * c * n ^ 2 ≤ 1)
    (hstep : ∀ k, k + 2 ≤ n → |u (k + 2) - ((1 + a k) * x * u (k + 1) - a k * u k)| ≤ c * (2 * |u (k + 1)| + |u k|)) (k : ℕ) (hk : k ≤ n) :
    |u k - v k| ≤ 3 * c * V * k ^ 2 := by
  induction k using Nat.strong_induction_on with
  | _ k ih =>
    have hsmall : ∀ j < k, |u j| ≤ 2 * V := fun j hj => by
      have h1 := ih j hj (by omega)
      have h2 := hV j (by omega)
      have h3 : (j : K) ^ 2 ≤ (n : K) ^ 2 := pow_le_pow_left₀ (by positivity) (by exact_mod_cast (show j ≤ n by omega)) 2
      have h4 : 3 * c * V * (j : K) ^ 2 ≤ V := by
        have h5 := mul_le_mul_of_nonneg_left h3 (show 0 ≤ 3 * c * V by positivity)
        have h6 := mul_le_mul_of_nonneg_left hc V0
        nlinarith
      have := abs_add_le (u j - v j) (v j)
      rw [sub_add_cancel] at this
      linarith
    have R : Rec x a k (6 * c * V) fun j => u j - v j := ⟨fun j hj => by
      have h1 := hstep j (by omega)
      have h2 := hsmall (j + 1) (by omega)
      have h3 := hsmall j (by omega)
      have h4 : u (j + 2) - v (j + 2) - ((1 + a j) * x * (u (j + 1) - v (j + 1)) - a j * (u j - v j)) = u (j + 2) - ((1 + a j) * x * u (j + 1) - a j * u j) := by
        rw [hv]
        ring
      rw [h4]
      have h5 := mul_le_mul_of_nonneg_left (show 2 * |u (j + 1)| + |u j| ≤ 6 * V by linarith) c0
      linarith⟩
    have := rec_bound hx ha (by positivity) le_rfl R (by simp [hu0, hu1]) k le_rfl
    simp only [hu0, sub_self, abs_zero, mul_zero, zero_add] at this
    linarith

/-! ## The loops as sequences -/

section Loops
omit [LinearOrder K] [IsStrictOrderedRing K]
open Geomc.Basis

theorem leg_loop (x : K) (k : ℕ) : legendreLoop x k = (legendre (k : ℤ) x, legendre ((k + 1 : ℕ) : ℤ) x, legendre ((k + 1 : ℕ) : ℤ) x) := by
  have two : ∀ j : ℕ, (legendreLoop x j).2.1 = (legendreLoop x j).2.2 := fun j => by cases j <;> rfl
  have succ : ∀ j : ℕ, (legendreLoop x j).2.2 = legendre ((j + 1 : ℕ) : ℤ) x := fun j => by
    rw [legendre, if_neg (by push_cast; omega)]
    simp
  have first : (legendreLoop x k).1 = legendre (k : ℤ) x := by
    cases k with
    | zero => simp [legendreLoop, legendre]
    | succ k => rw [← succ k, ← two k]; rfl
  ext
  · exact first
  · exact (two k).trans (succ k)
  · exact succ k

theorem leg_rec (x : K) (k : ℕ) : legendre ((k + 2 : ℕ) : ℤ) x =
    ((2 * ((k + 1 : ℕ) : K) + 1) * x * legendre ((k + 1 : ℕ) : ℤ) x - ((k + 1 : ℕ) : K) * legendre (k : ℤ) x) / (((k + 1 : ℕ) : K) + 1) := by
  have h := leg_loop x (k + 1)
  rw [legendreLoop, leg_loop x k] at h
  exact ((Prod.mk.inj (Prod.mk.inj h).2).1).symm

theorem leg_loopF (rnd : K → K) (x : K) (k : ℕ) : legendreLoopF rnd x k = (legendreF rnd (k : ℤ) x, legendreF rnd ((k + 1 : ℕ) : ℤ) x) := by
  have succ : ∀ j : ℕ, (legendreLoopF rnd x j).2 = legendreF rnd ((j + 1 : ℕ) : ℤ) x := fun j => by
    rw [legendreF, if_neg (by push_cast; omega)]
    simp
  have first : (legendreLoopF rnd x k).1 = legendreF rnd (k : ℤ) x := by
    cases k with
    | zero => simp [legendreLoopF, legendreF]
    | succ k => rw [← succ k]; rfl
  ext
  · exact first
  · exact succ k

theorem leg_recF (rnd : K → K) (x : K) (k : ℕ) : legendreF rnd ((k + 2 : ℕ) : ℤ) x =
    legendreNext rnd x (k + 1) (legendreF rnd (k : ℤ) x) (legendreF rnd ((k + 1 : ℕ) : ℤ) x) := by
  have h := leg_loopF rnd x (k + 1)
  rw [legendreLoopF, leg_loopF rnd x k] at h
  exact ((Prod.mk.inj h).2).symm

theorem cheb_loop (kind : ℤ) (x : K) (k : ℕ) : chebyshevLoop (kind : K) x k = (chebyshev kind (k : ℤ) x, chebyshev kind ((k + 1 : ℕ) : ℤ) x, chebyshev kind ((k + 1 : ℕ) : ℤ) x) := by
  have two : ∀ j : ℕ, (chebyshevLoop (kind : K) x j).2.1 = (chebyshevLoop (kind : K) x j).2.2 := fun j => by cases j <;> rfl
  have succ : ∀ j : ℕ, (chebyshevLoop (kind : K) x j).2.2 = chebyshev kind ((j + 1 : ℕ) : ℤ) x := fun j => by
    rw [chebyshev, if_neg (by push_cast; omega)]
    simp
  have first : (chebyshevLoop (kind : K) x k).1 = chebyshev kind (k : ℤ) x := by
    cases k with
    | zero => simp [chebyshevLoop, chebyshev]
    | succ k => rw [← succ k, ← two k]; rfl
  ext
  · exact first
  · exact (two k).trans (succ k)
  · exact succ k

theorem cheb_rec (kind : ℤ) (x : K) (k : ℕ) : chebyshev kind ((k + 2 : ℕ) : ℤ) x =
    2 * x * chebyshev kind ((k + 1 : ℕ) : ℤ) x - chebyshev kind (k : ℤ) x := by
  have h := cheb_loop kind x (k + 1)
  rw [chebyshevLoop, cheb_loop kind x k] at h
  exact ((Prod.mk.inj (Prod.mk.inj h).2).1).symm

theorem cheb_loopF (rnd : K → K) (kind : ℤ) (x : K) (k : ℕ) :
    chebyshevLoopF rnd (rnd (rnd (kind : K) * x)) x k = (chebyshevF rnd kind (k : ℤ) x, chebyshevF rnd kind ((k + 1 : ℕ) : ℤ) x) := by
  have succ : ∀ j : ℕ, (chebyshevLoopF rnd (rnd (rnd (kind : K) * x)) x j).2 = chebyshevF rnd kind ((j + 1 : ℕ) : ℤ) x := fun j => by
    rw [chebyshevF, if_neg (by push_cast; omega)]
    simp
  have first : (chebyshevLoopF rnd (rnd (rnd (kind : K) * x)) x k).1 = chebyshevF rnd kind (k : ℤ) x := by
    cases k with
    | zero => simp [chebyshevLoopF, chebyshevF]
    | succ k => rw [← succ k]; rfl
  ext
  · exact first
  · exact succ k

theorem cheb_recF (rnd : K → K) (kind : ℤ) (x : K) (k : ℕ) : chebyshevF rnd kind ((k + 2 : ℕ) : ℤ) x =
    rnd (rnd (rnd (2 * x) * chebyshevF rnd kind ((k + 1 : ℕ) : ℤ) x) - chebyshevF rnd kind (k : ℤ) x) := by
  have h := cheb_loopF rnd kind x (k + 1)
  rw [chebyshevLoopF, cheb_loopF rnd kind x k] at h
  exact ((Prod.mk.inj h).2).symm

end Loops

/-! ## Sizes of the exact polynomials -/

open Geomc.Basis

/-- The coefficients of the recurrence of the Legendre polynomials. -/
theorem leg_coeff (k : ℕ) : 0 ≤ ((k + 1 : ℕ) : K) / (((k + 1 : ℕ) : K) + 1) ∧ ((k + 1 : ℕ) : K) / (((k + 1 : ℕ) : K) + 1) ≤ 1 := by
  have : (0 : K) < ((k + 1 : ℕ) : K) := by positivity
  exact ⟨by positivity, by rw [div_le_one (by positivity)]; linarith⟩

theorem leg_rec' (x : K) (k : ℕ) : legendre ((k + 2 : ℕ) : ℤ) x =
    (1 + ((k + 1 : ℕ) : K) / (((k + 1 : ℕ) : K) + 1)) * x * legendre ((k + 1 : ℕ) : ℤ) x - ((k + 1 : ℕ) : K) / (((k + 1 : ℕ) : K) + 1) * legendre (k : ℤ) x := by
  have : ((k + 1 : ℕ) : K) + 1 ≠ 0 := by positivity
  rw [leg_rec]
  field_simp
  ring

/-- The Legendre polynomials are at most one on the interval. -/
theorem leg_size {x : K} (hx : |x| ≤ 1) (n : ℕ) : |legendre (n : ℤ) x| ≤ 1 := by
  have hx2 : 0 ≤ 1 - x ^ 2 := by
    rw [sub_nonneg, ← sq_abs]
    exact pow_le_one₀ (abs_nonneg _) hx
  rcases hx2.eq_or_lt with h1 | h1
  · have : x = 1 ∨ x = -1 := by
      rcases mul_eq_zero.1 (show (x - 1) * (x + 1) = 0 by linear_combination h1) with h | h
      · exact Or.inl (by linarith)
      · exact Or.inr (by linarith)
    have c := C64_legendre_poly (K := K) n
    rcases this with rfl | rfl
    · rw [c.2.1, abs_one]
    · rw [c.2.2, abs_pow, abs_neg, abs_one, one_pow]
  · obtain ⟨q, hq⟩ : ∃ e : ℕ → K, e = fun k : ℕ => legendre (k : ℤ) x := ⟨_, rfl⟩
    have R : ∀ k, (q (k + 1) - x * q k) ^ 2 + (1 - x ^ 2) * q k ^ 2 ≤ 1 - x ^ 2 := fun k => by
      induction k with
      | zero => simp [hq, legendre, legendreLoop]
      | succ k ih =>
        have h := leg_rec' x k
        obtain ⟨a0, a1⟩ := leg_coeff (K := K) k
        generalize ((k + 1 : ℕ) : K) / (((k + 1 : ℕ) : K) + 1) = α at *
        have h' : q (k + 1 + 1) = (1 + α) * x * q (k + 1) - α * q k := by rw [hq]; exact h
        rw [h']
        have hα : α ^ 2 ≤ 1 := pow_le_one₀ a0 a1
        nlinarith [mul_nonneg (sub_nonneg.2 hα) (sq_nonneg (x * q (k + 1) - q k))]
    have h2 := R n
    have h3 : (1 - x ^ 2) * (q n) ^ 2 ≤ (1 - x ^ 2) * 1 := by nlinarith [sq_nonneg (q (n + 1) - x * q n)]
    have h4 : (q n) ^ 2 ≤ 1 := le_of_mul_le_mul_left h3 h1
    rw [hq] at h4
    exact (sq_le_one_iff_abs_le_one _).1 h4

/-- The Chebyshev polynomials of the first kind are at most one on the interval. -/
theorem cheb_size {x : K} (hx : |x| ≤ 1) (n : ℕ) : |chebyshev 1 (n : ℤ) x| ≤ 1 := by
  have hx2 : 0 ≤ 1 - x ^ 2 := by
    rw [sub_nonneg, ← sq_abs]
    exact pow_le_one₀ (abs_nonneg _) hx
  rcases hx2.eq_or_lt with h1 | h1
  · have hx' : x ^ 2 = 1 := by linarith
    obtain ⟨q, hq⟩ : ∃ e : ℕ → K, e = fun k : ℕ => chebyshev 1 (k : ℤ) x := ⟨_, rfl⟩
    have R : ∀ k, q (k + 1) = x * q k ∧ q k ^ 2 = 1 := fun k => by
      induction k with
      | zero => simp [hq, chebyshev, chebyshevLoop]
      | succ k ih =>
        have h : q (k + 1 + 1) = 2 * x * q (k + 1) - q k := by rw [hq]; exact cheb_rec 1 x k
        refine ⟨?_, ?_⟩
        · rw [h, ih.1]
          linear_combination q k * hx'
        · rw [ih.1, mul_pow, hx', ih.2, one_mul]
    have h4 := (R n).2.le
    rw [hq] at h4
    exact (sq_le_one_iff_abs_le_one _).1 h4
  · obtain ⟨q, hq⟩ : ∃ e : ℕ → K, e = fun k : ℕ => chebyshev 1 (k : ℤ) x := ⟨_, rfl⟩
    have R : ∀ k, (q (k + 1) - x * q k) ^ 2 + (1 - x ^ 2) * q k ^ 2 = 1 - x ^ 2 := fun k => by
      induction k with
      | zero => simp [hq, chebyshev, chebyshevLoop]
      | succ k ih =>
        have h : q (k + 1 + 1) = 2 * x * q (k + 1) - q k := by rw [hq]; exact cheb_rec 1 x k
        rw [h]
        linear_combination ih
    have h2 := R n
    have h3 : (1 - x ^ 2) * (q n) ^ 2 ≤ (1 - x ^ 2) * 1 := by nlinarith [sq_nonneg (q (n + 1) - x * q n)]
    have h4 : (q n) ^ 2 ≤ 1 := le_of_mul_le_mul_left h3 h1
    rw [hq] at h4
    exact (sq_le_one_iff_abs_le_one _).1 h4

/-- Those of the second kind are at most `n + 1`. -/
theorem cheb_size_two {x : K} (hx : |x| ≤ 1) (n : ℕ) : |chebyshev 2 (n : ℤ) x| ≤ n + 1 := by
  have R : Rec x (fun _ => 1) n 0 fun k => chebyshev 2 (k : ℤ) x :=
    ⟨fun k _ => by
      have := cheb_rec 2 x k
      rw [this]
      ring_nf
      simp⟩
  have := rec_bound hx (a := fun _ => 1) (fun _ => ⟨zero_le_one, le_rfl⟩) (q := 1) le_rfl zero_le_one R (by simp [chebyshev, chebyshevLoop]; ring_nf; simp) n le_rfl
  simp [chebyshev] at this
  simpa [chebyshev, add_comm] using this

/-! ## Errors of one step -/

variable [FloorRing K] {p : ℕ} {rnd : K → K}

/-- Whole numbers up to `1 / eps` are floating-point numbers. -/
theorem rnd_nat (hp : 1 ≤ p) (h : IsRound p rnd) {k : ℕ} (hk : k * eps K p ≤ 1) : rnd (k : K) = k := by
  refine h.fix ?_
  have := float_int (K := K) hp (k := (k : ℤ)) ?_
  · simpa using this
  · rw [eps, zpow_neg, zpow_natCast, ← div_eq_mul_inv, div_le_one (by positivity)] at hk
    rw [abs_of_nonneg (by positivity)]
    exact_mod_cast hk

/-- The computed term of the Legendre polynomials. -/
theorem leg_step (hp : 1 ≤ p) (h : IsRound p rnd) {x : K} (hx : |x| ≤ 1) {i : ℕ} (hi : ((2 * i + 1 : ℕ) : K) * eps K p ≤ 1) (p0 p1 : K) :
    |legendreNext rnd x i p0 p1 - ((1 + (i : K) / ((i : K) + 1)) * x * p1 - (i : K) / ((i : K) + 1) * p0)| ≤
      ((1 + eps K p) ^ 4 - 1) * (2 * |p1| + |p0|) := by
  have e0 := eps_pos (K := K) p
  have hle : ∀ j : ℕ, j ≤ 2 * i + 1 → (j : K) * eps K p ≤ 1 := fun j hj =>
    (mul_le_mul_of_nonneg_right (by exact_mod_cast hj) e0.le).trans hi
  have r1 := rnd_nat hp h hi
  have r2 := rnd_nat hp h (hle i (by omega))
  have r3 := rnd_nat hp h (hle (i + 1) (by omega))
  have i0 : (0 : K) < (i : K) + 1 := by positivity
  rw [legendreNext, r1, r2, show (i : K) + 1 = ((i + 1 : ℕ) : K) by push_cast; ring, r3]
  have m1 := (((Near.refl (eps K p) ((2 * i + 1 : ℕ) : K)).mul e0.le (Near.refl (eps K p) x)).round hp h le_rfl).mul e0.le (Near.refl (eps K p) p1) |>.round hp h le_rfl
  have m2 := ((Near.refl (eps K p) (i : K)).mul e0.le (Near.refl (eps K p) p0)).round hp h le_rfl
  have m3 := ((m1.sub (m2.mono e0.le (by norm_num))).round hp h le_rfl).mul e0.le (Near.refl (eps K p) ((i + 1 : ℕ) : K)⁻¹) |>.round hp h le_rfl
  have m4 := m3.weaken e0.le (Z := 2 * |p1| + |p0|) (by
    rw [abs_inv, abs_of_pos (show (0 : K) < ((i + 1 : ℕ) : K) by positivity), ← div_eq_mul_inv, div_le_iff₀ (by positivity),
      abs_of_nonneg (show (0 : K) ≤ ((2 * i + 1 : ℕ) : K) by positivity), abs_of_nonneg (show (0 : K) ≤ (i : K) by positivity)]
    push_cast
    have t0 := abs_nonneg p0
    have t1 := abs_nonneg p1
    have i1 : (0 : K) ≤ i := by positivity
    have := mul_le_mul_of_nonneg_left hx (show (0 : K) ≤ (2 * (i : K) + 1) * |p1| by positivity)
    nlinarith)
  have := m4.1
  rw [← div_eq_mul_inv] at this
  convert this using 2
  have : ((i + 1 : ℕ) : K) ≠ 0 := by positivity
  push_cast at this ⊢
  field_simp
  ring

/-- The computed term of the Chebyshev polynomials. -/
theorem cheb_step (hp : 1 ≤ p) (h : IsRound p rnd) {x : K} (fx : IsFloat p x) (hx : |x| ≤ 1) (t0 t1 : K) :
    |rnd (rnd (rnd (2 * x) * t1) - t0) - ((1 + 1) * x * t1 - 1 * t0)| ≤ ((1 + eps K p) ^ 2 - 1) * (2 * |t1| + |t0|) := by
  have e0 := eps_pos (K := K) p
  rw [h.fix (x := 2 * x) (by rw [mul_comm]; exact float_double fx)]
  have m1 := ((Near.refl (eps K p) (2 * x * t1)).round hp h le_rfl).sub ((Near.refl (eps K p) t0).mono e0.le (Nat.zero_le 1)) |>.round hp h le_rfl
  have m2 := m1.weaken e0.le (Z := 2 * |t1| + |t0|) (by
    rw [abs_mul, abs_mul, abs_two]
    nlinarith [abs_nonneg t1])
  have := m2.1
  convert this using 2
  ring

/-! ## The polynomials -/

/-- Room for the whole numbers of the loop. -/
theorem loop_room {n : ℕ} {c : K} (c1 : 4 ≤ c) (hn : c * n ^ 2 * eps K p ≤ 1) {i : ℕ} (hi : i + 1 ≤ n) : ((2 * i + 1 : ℕ) : K) * eps K p ≤ 1 := by
  refine le_trans (mul_le_mul_of_nonneg_right ?_ (eps_pos (K := K) p).le) hn
  have h1 : ((2 * i + 1 : ℕ) : K) ≤ 4 * (n : K) ^ 2 := by
    exact_mod_cast (show 2 * i + 1 ≤ 4 * n ^ 2 by nlinarith)
  exact h1.trans (mul_le_mul_of_nonneg_right c1 (by positivity))

/-- **C134.** On the interval from -1 to 1 the computed Legendre polynomial of degree `n` is within `13 n² eps` of the exact one, as long as that
is at most one: in single precision up to degree a thousand, in double up to twenty million. -/
theorem C134_legendre (hp : 10 ≤ p) (h : IsRound p rnd) {x : K} (hx : |x| ≤ 1) {n : ℕ} (hn : 13 * (n : K) ^ 2 * eps K p ≤ 1) :
    |legendreF rnd n x - legendre n x| ≤ 13 * n ^ 2 * eps K p := by
  have e0 := eps_pos (K := K) p
  have p4 := pow_four_le e0 (eps_small hp)
  have c0 : 0 ≤ (1 + eps K p) ^ 4 - 1 := sub_nonneg.2 (one_le_pow₀ (by linarith))
  have n0 : (0 : K) ≤ (n : K) ^ 2 := by positivity
  have hc : 3 * ((1 + eps K p) ^ 4 - 1) * (n : K) ^ 2 ≤ 13 * n ^ 2 * eps K p := by nlinarith
  refine le_trans (rec_error (n := n) (k := n) (c := (1 + eps K p) ^ 4 - 1) (V := 1) hx leg_coeff (u := fun k : ℕ => legendreF rnd (k : ℤ) x)
    (v := fun k : ℕ => legendre (k : ℤ) x) zero_le_one c0 (by simp [legendreF, legendre]) (by simp [legendreF, legendreLoopF, legendre, legendreLoop])
    (leg_rec' x) (fun k _ => leg_size hx k) (hc.trans hn) (fun k hk => ?_) le_rfl) (by rw [mul_one]; exact hc)
  simp only [leg_recF]
  exact leg_step (by omega) h hx (loop_room (by norm_num) hn (by omega)) _ _

/-- **C134.** The computed Chebyshev polynomial of the first kind of degree `n` is within `7 n² eps` of the exact one. -/
theorem C134_chebyshev_first (hp : 10 ≤ p) (h : IsRound p rnd) {x : K} (fx : IsFloat p x) (hx : |x| ≤ 1) {n : ℕ} (hn : 7 * (n : K) ^ 2 * eps K p ≤ 1) :
    |chebyshevF rnd 1 n x - (Polynomial.Chebyshev.T K n).eval x| ≤ 7 * n ^ 2 * eps K p := by
  have e0 := eps_pos (K := K) p
  have e1 := eps_small (K := K) hp
  have c0 : 0 ≤ (1 + eps K p) ^ 2 - 1 := sub_nonneg.2 (one_le_pow₀ (by linarith))
  have n0 : (0 : K) ≤ (n : K) ^ 2 := by positivity
  have p2 : (1 + eps K p) ^ 2 - 1 ≤ 21 / 10 * eps K p := by nlinarith
  have hc : 3 * ((1 + eps K p) ^ 2 - 1) * (n : K) ^ 2 ≤ 7 * n ^ 2 * eps K p := by nlinarith
  have r1 : rnd 1 = 1 := by simpa using rnd_nat (K := K) (k := 1) (by omega) h (by rw [Nat.cast_one, one_mul]; linarith)
  rw [← (C64_chebyshev n x).1]
  refine le_trans (rec_error (n := n) (k := n) (c := (1 + eps K p) ^ 2 - 1) (V := 1) hx (a := fun _ => 1) (fun _ => ⟨zero_le_one, le_rfl⟩)
    (u := fun k : ℕ => chebyshevF rnd 1 (k : ℤ) x) (v := fun k : ℕ => chebyshev 1 (k : ℤ) x) zero_le_one c0 (by simp [chebyshevF, chebyshev])
    (by simp [chebyshevF, chebyshevLoopF, chebyshev, chebyshevLoop, r1, h.fix fx])
    (fun k => by simp only [cheb_rec]; ring) (fun k _ => cheb_size hx k) (hc.trans hn) (fun k _ => ?_) le_rfl) (by rw [mul_one]; exact hc)
  simp only [cheb_recF]
  exact cheb_step (by omega) h fx hx _ _

/-- **C134.** That of the second kind, whose values reach `n + 1`, is within `7 n² (n + 1) eps`. -/
theorem C134_chebyshev_second (hp : 10 ≤ p) (h : IsRound p rnd) {x : K} (fx : IsFloat p x) (hx : |x| ≤ 1) {n : ℕ} (hn : 7 * (n : K) ^ 2 * eps K p ≤ 1) :
    |chebyshevF rnd 2 n x - (Polynomial.Chebyshev.U K n).eval x| ≤ 7 * n ^ 2 * (n + 1) * eps K p := by
  have e0 := eps_pos (K := K) p
  have e1 := eps_small (K := K) hp
  have c0 : 0 ≤ (1 + eps K p) ^ 2 - 1 := sub_nonneg.2 (one_le_pow₀ (by linarith))
  have n0 : (0 : K) ≤ (n : K) ^ 2 := by positivity
  have p2 : (1 + eps K p) ^ 2 - 1 ≤ 21 / 10 * eps K p := by nlinarith
  have hc : 3 * ((1 + eps K p) ^ 2 - 1) * (n : K) ^ 2 ≤ 7 * n ^ 2 * eps K p := by nlinarith
  have r2 : rnd 2 = 2 := by simpa using rnd_nat (K := K) (k := 2) (by omega) h (by rw [Nat.cast_two]; linarith)
  rw [← (C64_chebyshev n x).2]
  refine le_trans (rec_error (n := n) (k := n) (c := (1 + eps K p) ^ 2 - 1) (V := n + 1) hx (a := fun _ => 1) (fun _ => ⟨zero_le_one, le_rfl⟩)
    (u := fun k : ℕ => chebyshevF rnd 2 (k : ℤ) x) (v := fun k : ℕ => chebyshev 2 (k : ℤ) x) (by positivity) c0 (by simp [chebyshevF, chebyshev])
    (by simp [chebyshevF, chebyshevLoopF, chebyshev, chebyshevLoop, r2, h.fix (show IsFloat p (2 * x) by rw [mul_comm]; exact float_double fx)])
    (fun k => by simp only [cheb_rec]; ring) (fun k hk => (cheb_size_two hx k).trans (add_le_add (Nat.cast_le.2 hk) le_rfl))
    (hc.trans hn) (fun k _ => ?_) le_rfl) ?_
  · simp only [cheb_recF]
    exact cheb_step (by omega) h fx hx _ _
  · have := mul_le_mul_of_nonneg_right hc (show (0 : K) ≤ (n : K) + 1 by positivity)
    linarith

/-- **C134.** The computed integral of the Legendre polynomial of degree `n` from -1 to `x` is within `(13 n + 8) eps` of the exact one: dividing the
difference of two polynomials by `2 n + 1` takes one factor `n` from their errors. -/
theorem C134_legendre_integral (hp : 10 ≤ p) (h : IsRound p rnd) {x : K} (hx : |x| ≤ 1) {n : ℕ} (hn : 13 * ((n : K) + 1) ^ 2 * eps K p ≤ 1) :
    |legendreIntegralF rnd n x - legendreIntegral n x| ≤ (13 * n + 8) * eps K p := by
  have e0 := eps_pos (K := K) p
  have e1 := eps_small (K := K) hp
  cases n with
  | zero =>
    have r := h.rel (by omega) (x + 1)
    have : |x + 1| ≤ 2 := (abs_add_le _ _).trans (by rw [abs_one]; linarith)
    simp only [legendreIntegralF, legendreIntegral, Nat.cast_zero, le_refl, if_true, mul_zero, zero_add]
    nlinarith
  | succ m =>
    have m0 : (0 : K) ≤ m := by positivity
    have d2 := C134_legendre hp h hx (n := m + 2) (by push_cast at hn ⊢; convert hn using 3; ring)
    have d0 := C134_legendre hp h hx (n := m) (le_trans (mul_le_mul_of_nonneg_right (by push_cast; nlinarith) e0.le) hn)
    have s2 := leg_size hx (m + 2)
    have s0 := leg_size hx m
    have lF : legendreIntegralF rnd ((m + 1 : ℕ) : ℤ) x =
        rnd (rnd (legendreF rnd ((m + 2 : ℕ) : ℤ) x - legendreF rnd (m : ℤ) x) / rnd ((2 * (m + 1) + 1 : ℕ) : K)) := by
      rw [legendreIntegralF, if_neg (by push_cast; omega), leg_recF]
      simp only [Int.toNat_natCast, Nat.add_sub_cancel, leg_loopF]
    have lE : legendreIntegral ((m + 1 : ℕ) : ℤ) x = (legendre ((m + 2 : ℕ) : ℤ) x - legendre (m : ℤ) x) / ((2 * (m + 1) + 1 : ℕ) : K) := by
      rw [legendreIntegral, if_neg (by push_cast; omega), leg_rec]
      simp only [Int.toNat_natCast, Nat.add_sub_cancel, leg_loop]
      push_cast
      rfl
    have r := rnd_nat (by omega) h (loop_room (n := m + 2) (c := 13) (i := m + 1) (by norm_num) (by push_cast at hn ⊢; convert hn using 3; ring) le_rfl)
    rw [lF, lE, r]
    generalize legendreF rnd ((m + 2 : ℕ) : ℤ) x = u2 at *
    generalize legendreF rnd (m : ℤ) x = u0 at *
    generalize legendre ((m + 2 : ℕ) : ℤ) x = v2 at *
    generalize legendre (m : ℤ) x = v0 at *
    have N0 : (0 : K) < ((2 * (m + 1) + 1 : ℕ) : K) := by positivity
    have nr := (((Near.refl (eps K p) (u2 - u0)).round (by omega) h le_rfl).mul e0.le (Near.refl (eps K p) ((2 * (m + 1) + 1 : ℕ) : K)⁻¹) |>.round (by omega) h le_rfl).1
    rw [← div_eq_mul_inv, ← div_eq_mul_inv, abs_inv, abs_of_pos N0, ← div_eq_mul_inv] at nr
    have du : |u2 - u0 - (v2 - v0)| ≤ 13 * (((m + 2 : ℕ) : K) ^ 2 + m ^ 2) * eps K p := by
      rw [show u2 - u0 - (v2 - v0) = (u2 - v2) - (u0 - v0) by ring]
      exact (abs_sub _ _).trans (by linarith)
    have su : |u2 - u0| ≤ 4 := by
      have t := abs_sub v2 v0
      have t2 := abs_add_le (u2 - u0 - (v2 - v0)) (v2 - v0)
      rw [sub_add_cancel] at t2
      have : 13 * (((m + 2 : ℕ) : K) ^ 2 + m ^ 2) * eps K p ≤ 2 := by
        push_cast at hn ⊢
        nlinarith [mul_nonneg m0 e0.le]
      linarith
    have t := abs_sub_le (rnd (rnd (u2 - u0) / ((2 * (m + 1) + 1 : ℕ) : K))) ((u2 - u0) / ((2 * (m + 1) + 1 : ℕ) : K)) ((v2 - v0) / ((2 * (m + 1) + 1 : ℕ) : K))
    rw [← sub_div (u2 - u0), abs_div (u2 - u0 - (v2 - v0)), abs_of_pos N0] at t
    refine t.trans ((add_le_add nr le_rfl).trans ?_)
    rw [← mul_div_assoc, ← add_div, div_le_iff₀ N0]
    have p2 : (1 + eps K p) ^ 2 - 1 ≤ 21 / 10 * eps K p := by nlinarith
    have c0 : 0 ≤ (1 + eps K p) ^ 2 - 1 := sub_nonneg.2 (one_le_pow₀ (by linarith))
    have h1 : ((1 + eps K p) ^ 2 - 1) * |u2 - u0| ≤ 21 / 10 * eps K p * 4 := mul_le_mul p2 su (abs_nonneg _) (by positivity)
    refine (add_le_add h1 du).trans ?_
    push_cast
    nlinarith [mul_nonneg m0 e0.le, mul_nonneg (mul_nonneg m0 m0) e0.le]

/-! ## The ends of the interval, and reflection -/

theorem rnd_sign (hp : 1 ≤ p) (h : IsRound p rnd) {s : K} (hs : s = 1 ∨ s = -1) {k : ℕ} (hk : (k : K) * eps K p ≤ 1) (j : ℕ) :
    rnd (s ^ j * k) = s ^ j * k := by
  have hj : s ^ j = 1 ∨ s ^ j = -1 := by
    rcases hs with rfl | rfl
    · exact Or.inl (one_pow j)
    · exact neg_one_pow_eq_or K j
  have r : IsFloat p (k : K) := by
    have := h.mem (k : K)
    rwa [rnd_nat hp h hk] at this
  rcases hj with e | e <;> rw [e]
  · rw [one_mul]
    exact h.fix r
  · rw [neg_one_mul]
    exact h.fix (float_neg r)

/-- **C134.** At both ends of the interval the computed values are exact: `1` and `(-1)^n` for the Legendre polynomials and the Chebyshev polynomials
of the first kind, `n + 1` and `(-1)^n (n + 1)` for those of the second. -/
theorem C134_ends (hp : 2 ≤ p) (h : IsRound p rnd) {s : K} (hs : s = 1 ∨ s = -1) {n : ℕ} (hn : (2 * n : ℕ) * eps K p ≤ 1) :
    legendreF rnd n s = s ^ n ∧ chebyshevF rnd 1 n s = s ^ n ∧ chebyshevF rnd 2 n s = s ^ n * (n + 1 : ℕ) := by
  have e0 := eps_pos (K := K) p
  have s2 : s * s = 1 := by rcases hs with rfl | rfl <;> norm_num
  have e4 : eps K p ≤ 1 / 4 := by
    rw [eps]
    exact (zle (K := K) (show -(p : ℤ) ≤ -2 by omega)).trans (by norm_num)
  have small : ∀ k : ℕ, k ≤ 4 → (k : K) * eps K p ≤ 1 := fun k hk => by
    have : (k : K) ≤ 4 := by exact_mod_cast hk
    nlinarith
  have room : ∀ k : ℕ, k ≤ 2 * n → (k : K) * eps K p ≤ 1 := fun k hk =>
    (mul_le_mul_of_nonneg_right (by exact_mod_cast hk) e0.le).trans hn
  have R : ∀ k : ℕ, (k : K) * eps K p ≤ 1 → ∀ j, rnd (s ^ j * k) = s ^ j * k := fun k hk => rnd_sign (by omega) h hs hk
  have N : ∀ k : ℕ, (k : K) * eps K p ≤ 1 → rnd (k : K) = k := fun k hk => rnd_nat (by omega) h hk
  have L : ∀ k : ℕ, (k ≤ n → legendreF rnd k s = s ^ k) ∧ (k + 1 ≤ n → legendreF rnd (k + 1 : ℕ) s = s ^ (k + 1)) := fun k => by
    induction k with
    | zero => simp [legendreF, legendreLoopF]
    | succ k ih =>
      refine ⟨ih.2, fun hk => ?_⟩
      rw [show k + 1 + 1 = k + 2 by rfl, leg_recF, ih.1 (by omega), ih.2 (by omega), legendreNext, N _ (room (2 * (k + 1) + 1) (by omega)), N _ (room (k + 1) (by omega)),
        show ((k + 1 : ℕ) : K) + 1 = (k + 2 : ℕ) by push_cast; ring, N _ (room (k + 2) (by omega))]
      have a1 : ((2 * (k + 1) + 1 : ℕ) : K) * s = s ^ 1 * (2 * (k + 1) + 1 : ℕ) := by ring
      rw [a1, R _ (room _ (by omega))]
      have a2 : s ^ 1 * ((2 * (k + 1) + 1 : ℕ) : K) * s ^ (k + 1) = s ^ (k + 2) * (2 * (k + 1) + 1 : ℕ) := by ring
      have a3 : ((k + 1 : ℕ) : K) * s ^ k = s ^ k * (k + 1 : ℕ) := by ring
      rw [a2, a3, R _ (room _ (by omega)), R _ (room _ (by omega))]
      have a4 : s ^ (k + 2) * ((2 * (k + 1) + 1 : ℕ) : K) - s ^ k * (k + 1 : ℕ) = s ^ (k + 2) * (k + 2 : ℕ) := by
        push_cast
        linear_combination (s ^ k * (k + 1)) * s2
      rw [a4, R _ (room _ (by omega)), mul_div_cancel_right₀ _ (by positivity)]
      have := R 1 (small 1 (by norm_num)) (k + 2)
      rwa [Nat.cast_one, mul_one] at this
  have T : ∀ k : ℕ, chebyshevF rnd 1 k s = s ^ k ∧ chebyshevF rnd 1 (k + 1 : ℕ) s = s ^ (k + 1) := fun k => by
    have o := N 1 (small 1 (by norm_num))
    have o1 := R 1 (small 1 (by norm_num))
    rw [Nat.cast_one] at o o1
    simp only [mul_one] at o1
    induction k with
    | zero =>
      have := o1 1
      rw [pow_one] at this
      simp [chebyshevF, chebyshevLoopF, o, this]
    | succ k ih =>
      refine ⟨ih.2, ?_⟩
      rw [show k + 1 + 1 = k + 2 by rfl, cheb_recF, ih.1, ih.2, show 2 * s = s ^ 1 * (2 : ℕ) by push_cast; ring, R 2 (small 2 (by norm_num)),
        show s ^ 1 * ((2 : ℕ) : K) * s ^ (k + 1) = s ^ (k + 2) * (2 : ℕ) by ring, R 2 (small 2 (by norm_num)),
        show s ^ (k + 2) * ((2 : ℕ) : K) - s ^ k = s ^ (k + 2) by push_cast; linear_combination s ^ k * s2, o1]
  have U : ∀ k : ℕ, (k ≤ n → chebyshevF rnd 2 k s = s ^ k * (k + 1 : ℕ)) ∧ (k + 1 ≤ n → chebyshevF rnd 2 (k + 1 : ℕ) s = s ^ (k + 1) * (k + 2 : ℕ)) := fun k => by
    have o := N 2 (small 2 (by norm_num))
    rw [Nat.cast_two] at o
    induction k with
    | zero =>
      have := R 2 (small 2 (by norm_num)) 1
      rw [pow_one, Nat.cast_two, mul_comm] at this
      exact ⟨by simp [chebyshevF], fun _ => by simp [chebyshevF, chebyshevLoopF, o, this]; ring⟩
    | succ k ih =>
      refine ⟨ih.2, fun hk => ?_⟩
      rw [show k + 1 + 1 = k + 2 by rfl, cheb_recF, ih.1 (by omega), ih.2 (by omega), show 2 * s = s ^ 1 * (2 : ℕ) by push_cast; ring, R 2 (small 2 (by norm_num)),
        show s ^ 1 * ((2 : ℕ) : K) * (s ^ (k + 1) * (k + 2 : ℕ)) = s ^ (k + 2) * (2 * (k + 2) : ℕ) by push_cast; ring, R _ (room _ (by omega)),
        show s ^ (k + 2) * ((2 * (k + 2) : ℕ) : K) - s ^ k * (k + 1 : ℕ) = s ^ (k + 2) * (k + 1 + 2 : ℕ) by push_cast; linear_combination (s ^ k * (k + 1)) * s2,
        R (k + 1 + 2) (by rcases Nat.lt_or_ge (k + 1 + 2) 5 with g | g
                          · exact small _ (by omega)
                          · exact room _ (by omega))]
  exact ⟨(L n).1 le_rfl, (T n).1, (U n).1 le_rfl⟩

/-- **C134.** With a rounding that treats both signs alike, the computed values of odd degree are odd functions and those of even degree even ones,
to the last bit. -/
theorem C134_reflected (hodd : ∀ y, rnd (-y) = -rnd y) (kind : ℤ) (n : ℕ) (x : K) :
    legendreF rnd n (-x) = (-1) ^ n * legendreF rnd n x ∧ chebyshevF rnd kind n (-x) = (-1) ^ n * chebyshevF rnd kind n x := by
  have flip : ∀ (j : ℕ) (y : K), rnd ((-1) ^ j * y) = (-1) ^ j * rnd y := fun j y => by
    rcases neg_one_pow_eq_or K j with e | e <;> rw [e]
    · simp
    · simp [hodd]
  have L : ∀ k : ℕ, legendreF rnd k (-x) = (-1) ^ k * legendreF rnd k x ∧ legendreF rnd (k + 1 : ℕ) (-x) = (-1) ^ (k + 1) * legendreF rnd (k + 1 : ℕ) x := fun k => by
    induction k with
    | zero => simp [legendreF, legendreLoopF]
    | succ k ih =>
      refine ⟨ih.2, ?_⟩
      rw [show k + 1 + 1 = k + 2 by rfl, leg_recF, leg_recF, ih.1, ih.2, legendreNext, legendreNext, mul_neg, hodd]
      generalize rnd (rnd ((2 * (k + 1) + 1 : ℕ) : K) * x) = A
      generalize legendreF rnd ((k + 1 : ℕ) : ℤ) x = B
      generalize legendreF rnd (k : ℤ) x = C
      rw [show -A * ((-1) ^ (k + 1) * B) = (-1) ^ (k + 2) * (A * B) by ring, flip,
        show rnd ((k + 1 : ℕ) : K) * ((-1) ^ k * C) = (-1) ^ (k + 2) * (rnd ((k + 1 : ℕ) : K) * C) by ring, flip, ← mul_sub, flip, mul_div_assoc, flip]
  have T : ∀ k : ℕ, chebyshevF rnd kind k (-x) = (-1) ^ k * chebyshevF rnd kind k x ∧
      chebyshevF rnd kind (k + 1 : ℕ) (-x) = (-1) ^ (k + 1) * chebyshevF rnd kind (k + 1 : ℕ) x := fun k => by
    induction k with
    | zero => simp [chebyshevF, chebyshevLoopF, hodd]
    | succ k ih =>
      refine ⟨ih.2, ?_⟩
      rw [show k + 1 + 1 = k + 2 by rfl, cheb_recF, cheb_recF, ih.1, ih.2, mul_neg, hodd]
      generalize rnd (2 * x) = A
      generalize chebyshevF rnd kind ((k + 1 : ℕ) : ℤ) x = B
      generalize chebyshevF rnd kind (k : ℤ) x = C
      rw [show -A * ((-1) ^ (k + 1) * B) = (-1) ^ (k + 2) * (A * B) by ring, flip,
        show (-1) ^ k * C = (-1) ^ (k + 2) * C by ring, ← mul_sub, flip]
  exact ⟨(L n).1, (T n).1⟩

/-- **C134.** Without rounding these are the exact functions. -/
theorem C134_exact (kind n : ℤ) (x : K) : legendreF id n x = legendre n x ∧ legendreIntegralF id n x = legendreIntegral n x ∧
    chebyshevF id kind n x = chebyshev kind n x := by
  have L : ∀ k, legendreLoopF id x k = ((legendreLoop x k).1, (legendreLoop x k).2.1) ∧ (legendreLoop x k).2.1 = (legendreLoop x k).2.2 := fun k => by
    induction k with
    | zero => exact ⟨rfl, rfl⟩
    | succ k ih =>
      refine ⟨?_, rfl⟩
      rw [legendreLoopF, legendreLoop, ih.1]
      simp [legendreNext]
  have T : ∀ k, chebyshevLoopF id ((kind : K) * x) x k = ((chebyshevLoop (kind : K) x k).1, (chebyshevLoop (kind : K) x k).2.1) ∧
      (chebyshevLoop (kind : K) x k).2.1 = (chebyshevLoop (kind : K) x k).2.2 := fun k => by
    induction k with
    | zero => exact ⟨rfl, rfl⟩
    | succ k ih =>
      refine ⟨?_, rfl⟩
      rw [chebyshevLoopF, chebyshevLoop, ih.1]
      simp
  refine ⟨?_, ?_, ?_⟩
  · rw [legendreF, legendre, (L _).1, ← (L _).2]
  · rw [legendreIntegralF, legendreIntegral]
    split_ifs with hn
    · rfl
    · have : (n : K) = (n.toNat : K) := by
        have h := Int.toNat_of_nonneg (show 0 ≤ n by omega)
        exact_mod_cast congrArg (Int.cast : ℤ → K) h.symm
      rw [this, (L _).1]
      simp [legendreNext]
  · rw [chebyshevF, chebyshev]
    simp only [id_eq]
    rw [(T _).1, ← (T _).2]

omit [FloorRing K] in
/-- **C134.** A degree of zero or less gives one. -/
theorem C134_degree (kind : ℤ) {n : ℤ} (hn : n ≤ 0) (x : K) : legendreF rnd n x = 1 ∧ chebyshevF rnd kind n x = 1 := by
  rw [legendreF, chebyshevF, if_pos hn, if_pos hn]
  exact ⟨rfl, rfl⟩

/-- **C134** refuted for the range: with half precision, rounding to nearest, a Chebyshev polynomial of the first kind exceeds one at 1277/2048. -/
theorem C134_range_refuted : ∃ x : ℚ, IsFloat 11 x ∧ |x| ≤ 1 ∧ 1 < chebyshevF (nearest 11) 1 7 x := by
  refine ⟨1277 / 2048, ⟨1277, -11, by norm_num, by norm_num⟩, by norm_num [abs_le], ?_⟩
  decide +kernel

/-- **C134** refuted for relative errors: near a root the computed value can be zero though the exact one, of either family, is not. -/
theorem C134_relative_refuted : ∃ x y : ℚ, IsFloat 11 x ∧ IsFloat 11 y ∧ |x| ≤ 1 ∧ |y| ≤ 1 ∧ legendreF (nearest 11) 3 x = 0 ∧ legendre 3 x ≠ 0 ∧
    chebyshevF (nearest 11) 1 2 y = 0 ∧ chebyshev 1 2 y ≠ 0 := by
  refine ⟨1586 / 2048, 1448 / 2048, ⟨1586, -11, by norm_num, by norm_num⟩, ⟨1448, -11, by norm_num, by norm_num⟩, by norm_num [abs_le], by norm_num [abs_le], ?_, ?_, ?_, ?_⟩ <;>
    decide +kernel

example : legendreF (nearest 11) 4 (5 / 16 : ℚ) = 207 / 4096 ∧ chebyshevF (nearest 11) 2 5 (5 / 16 : ℚ) = 509 / 512 ∧
    legendreIntegralF (nearest 11) 3 (5 / 16 : ℚ) = 1891 / 32768 := by
  decide +kernel

/-- The bounds at work: single precision, degree five hundred. -/
example : IsRound 24 (nearest 24 : ℚ → ℚ) ∧ 13 * ((500 : ℕ) : ℚ) ^ 2 * eps ℚ 24 ≤ 1 / 5 ∧ IsFloat 24 (5 / 16 : ℚ) :=
  ⟨C95_nearest (by norm_num), by norm_num [eps], ⟨5, -4, by norm_num, by norm_num⟩⟩

end Geomc.Flt
