import Mathlib.Analysis.Normed.Algebra.QuaternionExponential
import Mathlib.Analysis.Real.Pi.Bounds
import Verif.Quat.Props

/-!
# C74: exponential, logarithm and powers of quaternions
-/

namespace Geomc.Quat

open Geomc.Vec

theorem norm_im (q : Fin 4 → ℝ) : ‖(toQ q).im‖ = Real.sqrt (mag2 (imag q)) := by
  rw [mag2_eq, dot3]
  have h : Quaternion.normSq (toQ q).im = imag q 0 * imag q 0 + imag q 1 * imag q 1 + imag q 2 * imag q 2 := by
    rw [Quaternion.normSq_def']
    simp [imag]
    ring
  rw [← h, Quaternion.normSq_eq_norm_mul_self, Real.sqrt_mul_self (norm_nonneg _)]

theorem mk_real (r : ℝ) : toQ (mk (0 : Fin 3 → ℝ) r) = (r : Quaternion ℝ) := by
  apply Quaternion.ext <;> simp [mk]

/-- **C74**: `exp` is the quaternion exponential (the sum of the exponential series). -/
theorem C74_exp (q : Fin 4 → ℝ) : toQ (exp q) = NormedSpace.exp (toQ q) := by
  rw [Quaternion.exp_eq, norm_im, ← Real.exp_eq_exp_ℝ, exp]
  simp only
  split_ifs with h
  · rw [mk_real, h]
    apply Quaternion.ext <;> simp <;> rfl
  · apply Quaternion.ext <;> simp [mk, imag] <;> ring

theorem mag2_split (q : Fin 4 → ℝ) : mag2 q = q 3 ^ 2 + mag2 (imag q) := by
  rw [mag2_eq, mag2_eq, dot4, dot3]
  simp [imag]
  ring

theorem imag_mk (v : Fin 3 → ℝ) (w : ℝ) : imag (mk v w) = v := by
  ext i
  fin_cases i <;> simp [imag, mk]

theorem mk_imag (q : Fin 4 → ℝ) : mk (imag q) (q 3) = q := by
  ext i
  fin_cases i <;> simp [imag, mk]

/-- The polar form of a quaternion with nonzero vector part. -/
theorem polar (q : Fin 4 → ℝ) (hi : imag q ≠ 0) :
    let Q := Real.sqrt (mag2 q)
    let V := Real.sqrt (mag2 (imag q))
    let θ := Real.arccos (q 3 / Q)
    0 < Q ∧ 0 < V ∧ V * V = mag2 (imag q) ∧ Q * Real.cos θ = q 3 ∧ Q * Real.sin θ = V ∧ 0 < θ ∧ θ < Real.pi := by
  intro Q V θ
  have hv : 0 < mag2 (imag q) := by rw [mag2_eq]; exact self_dot_pos hi
  have hq : 0 < mag2 q := by rw [mag2_split]; positivity
  have hQ : 0 < Q := Real.sqrt_pos.2 hq
  have hV : 0 < V := Real.sqrt_pos.2 hv
  have hQQ : Q * Q = mag2 q := Real.mul_self_sqrt hq.le
  have hVV : V * V = mag2 (imag q) := Real.mul_self_sqrt hv.le
  have hs : q 3 ^ 2 + V * V = Q * Q := by rw [hVV, hQQ, ← mag2_split]
  have hlt : |q 3| < Q := by
    apply abs_lt_of_sq_lt_sq _ hQ.le
    nlinarith [mul_pos hV hV]
  have hb := abs_lt.1 hlt
  have h1 : -1 < q 3 / Q := by rw [lt_div_iff₀ hQ]; linarith
  have h2 : q 3 / Q < 1 := by rw [div_lt_iff₀ hQ]; linarith
  have hc : Real.cos θ = q 3 / Q := Real.cos_arccos h1.le h2.le
  refine ⟨hQ, hV, hVV, by rw [hc]; field_simp, ?_, Real.arccos_pos.2 h2, ?_⟩
  · have : Real.sin θ = Real.sqrt (1 - (q 3 / Q) ^ 2) := Real.sin_arccos _
    rw [this, show 1 - (q 3 / Q) ^ 2 = (V / Q) ^ 2 by field_simp; linear_combination -hs,
      Real.sqrt_sq (div_pos hV hQ).le]
    field_simp
  · apply lt_of_le_of_ne (Real.arccos_le_pi _)
    intro h
    have := Real.cos_pi
    rw [← h] at this
    have h3 : Real.cos θ = -1 := this
    linarith [hc]

theorem imag_zero_iff (q : Fin 4 → ℝ) : Real.sqrt (mag2 (imag q)) = 0 ↔ imag q = 0 := by
  rw [mag2_eq, Real.sqrt_eq_zero (self_dot_nonneg _), self_dot_eq_zero]

/-- **C74**: `log` is undefined exactly for real quaternions, and otherwise a logarithm. -/
theorem C74_log (q : Fin 4 → ℝ) :
    (log q = none ↔ imag q = 0) ∧ ∀ l, log q = some l → exp l = q := by
  by_cases hi : imag q = 0
  · have : log q = none := by
      rw [log, if_pos (Or.inr ((imag_zero_iff q).2 hi))]
    rw [this]
    simp [hi]
  · obtain ⟨hQ, hV, hVV, hc, hs, h0, -⟩ := polar q hi
    rw [log, if_neg (by push Not; exact ⟨hQ.ne', hV.ne'⟩)]
    simp only at *
    refine ⟨by simp [hi], fun l hl => ?_⟩
    obtain rfl := Option.some.inj hl
    generalize Real.sqrt (mag2 q) = Q at *
    generalize hVd : Real.sqrt (mag2 (imag q)) = V at *
    generalize Real.arccos (q 3 / Q) = θ at *
    have hm : Real.sqrt (mag2 (imag (mk (fun i => θ * imag q i / V) (Real.log Q)))) = θ := by
      rw [imag_mk]
      have : mag2 (fun i => θ * imag q i / V) = θ * θ := by
        rw [show (fun i => θ * imag q i / V) = (θ / V) • imag q by
          ext i
          rw [Pi.smul_apply, smul_eq_mul]
          ring, mag2_eq, smul_dotProduct, dotProduct_smul, ← mag2_eq, ← hVV, smul_eq_mul, smul_eq_mul]
        field_simp
      rw [this, Real.sqrt_mul_self h0.le]
    rw [exp]
    simp only
    rw [hm, if_neg h0.ne', imag_mk]
    have h3 : mk (fun i => θ * imag q i / V) (Real.log Q) 3 = Real.log Q := rfl
    rw [h3, Real.exp_log hQ]
    conv_rhs => rw [← mk_imag q]
    rw [hc]
    congr 1
    ext i
    rw [hs]
    field_simp

/-- **C74**: on vector parts shorter than `π`, `log` inverts `exp`. -/
theorem C74_log_exp (q : Fin 4 → ℝ) (h0 : imag q ≠ 0) (hpi : Real.sqrt (mag2 (imag q)) < Real.pi) :
    log (exp q) = some q := by
  have hm0 : 0 < mag2 (imag q) := by rw [mag2_eq]; exact self_dot_pos h0
  have hm : 0 < Real.sqrt (mag2 (imag q)) := Real.sqrt_pos.2 hm0
  have hmm := Real.mul_self_sqrt hm0.le
  rw [exp]
  simp only
  rw [if_neg hm.ne']
  generalize hM : Real.sqrt (mag2 (imag q)) = m at *
  have hsin : 0 < Real.sin m := Real.sin_pos_of_pos_of_lt_pi hm hpi
  have hk := Real.exp_pos (q 3)
  generalize hkd : Real.exp (q 3) = k at *
  have hv : mag2 (fun i => k * Real.sin m * imag q i / m) = (k * Real.sin m) ^ 2 := by
    rw [show (fun i => k * Real.sin m * imag q i / m) = (k * Real.sin m / m) • imag q by
      ext i
      rw [Pi.smul_apply, smul_eq_mul]
      ring, mag2_eq, smul_dotProduct, dotProduct_smul, ← mag2_eq, ← hmm, smul_eq_mul, smul_eq_mul]
    field_simp
  have hV : Real.sqrt (mag2 (imag (mk (fun i => k * Real.sin m * imag q i / m) (k * Real.cos m)))) = k * Real.sin m := by
    rw [imag_mk, hv, Real.sqrt_sq (mul_pos hk hsin).le]
  have hQ : Real.sqrt (mag2 (mk (fun i => k * Real.sin m * imag q i / m) (k * Real.cos m))) = k := by
    rw [mag2_split, imag_mk, hv]
    have : mk (fun i => k * Real.sin m * imag q i / m) (k * Real.cos m) 3 = k * Real.cos m := rfl
    rw [this, show (k * Real.cos m) ^ 2 + (k * Real.sin m) ^ 2 = k ^ 2 by
      linear_combination k ^ 2 * Real.sin_sq_add_cos_sq m, Real.sqrt_sq hk.le]
  rw [log]
  rw [hQ, hV, if_neg (by push Not; exact ⟨hk.ne', (mul_pos hk hsin).ne'⟩), imag_mk]
  have h3 : mk (fun i => k * Real.sin m * imag q i / m) (k * Real.cos m) 3 = k * Real.cos m := rfl
  rw [h3, mul_div_cancel_left₀ _ hk.ne', Real.arccos_cos hm.le hpi.le, ← hkd, Real.log_exp]
  congr 1
  conv_rhs => rw [← mk_imag q]
  congr 1
  ext i
  rw [hkd]
  field_simp

/-- **C74** refuted: the logarithm of a positive real (such as the identity rotation) is undefined, though it has one. -/
theorem C74_log_refuted : log identity = none ∧ exp (0 : Fin 4 → ℝ) = identity := by
  constructor
  · rw [(C74_log identity).1]
    ext i
    fin_cases i <;> simp [imag, identity]
  · apply toQ_inj
    rw [C74_exp, (C40_conj 0).2]
    have : toQ (0 : Fin 4 → ℝ) = 0 := by apply Quaternion.ext <;> rfl
    rw [this, NormedSpace.exp_zero]

/-- What `pow` returns for a quaternion with nonzero vector part. -/
theorem pow_eq (q : Fin 4 → ℝ) (hi : imag q ≠ 0) :
    ∃ θ Q : ℝ, ∃ n : Fin 3 → ℝ, n ⬝ᵥ n = 1 ∧ 0 < Q ∧ q = mk (fun j => Q * (n j * Real.sin θ)) (Q * Real.cos θ) ∧
      ∀ a, pow q a = some (mk (fun j => Q ^ a * (n j * Real.sin (a * θ))) (Q ^ a * Real.cos (a * θ))) := by
  obtain ⟨hQ, hV, hVV, hc, hs, h0, -⟩ := polar q hi
  refine ⟨Real.arccos (q 3 / Real.sqrt (mag2 q)), Real.sqrt (mag2 q),
    fun i => imag q i / Real.sqrt (mag2 (imag q)), ?_, hQ, ?_, fun a => ?_⟩
  · rw [show (fun i => imag q i / Real.sqrt (mag2 (imag q))) = (1 / Real.sqrt (mag2 (imag q))) • imag q by
      ext i
      rw [Pi.smul_apply, smul_eq_mul]
      ring, smul_dotProduct, dotProduct_smul, ← mag2_eq, ← hVV, smul_eq_mul, smul_eq_mul]
    field_simp
    rw [Real.sqrt_sq hV.le]
  · conv_lhs => rw [← mk_imag q]
    rw [hc]
    congr 1
    ext j
    rw [show ∀ x y z w : ℝ, x * (y / z * w) = (x * w) * y / z by intros; ring, hs]
    field_simp
  · rw [pow, powWith, if_neg hQ.ne', unit, if_neg hV.ne']
    simp only [Option.map_some, id]
    congr 1
    ext i
    fin_cases i <;> simp [mk]

/-- **C74**: away from the reals, floating point powers obey the law of exponents, and natural exponents give
iterated products. -/
theorem C74_pow (q : Fin 4 → ℝ) (hi : imag q ≠ 0) :
    (∀ a b, ∃ x y, pow q a = some x ∧ pow q b = some y ∧ pow q (a + b) = some (mult x y)) ∧
    ∀ n : ℕ, ∃ x, pow q n = some x ∧ toQ x = toQ q ^ n := by
  obtain ⟨θ, Q, n, hn, hQ, hq, hp⟩ := pow_eq q hi
  rw [dot3] at hn
  have hadd : ∀ a b, ∃ x y, pow q a = some x ∧ pow q b = some y ∧ pow q (a + b) = some (mult x y) := by
    intro a b
    refine ⟨_, _, hp a, hp b, ?_⟩
    rw [hp (a + b)]
    congr 1
    rw [Real.rpow_add hQ, add_mul, Real.sin_add, Real.cos_add]
    ext i
    fin_cases i <;> simp only [mult, mk, Matrix.cons_val_zero, Matrix.cons_val_one, Matrix.cons_val, Fin.zero_eta,
      Fin.mk_one, Fin.reduceFinMk]
    · ring
    · ring
    · ring
    · linear_combination (Q ^ a * Q ^ b * Real.sin (a * θ) * Real.sin (b * θ)) * hn
  refine ⟨hadd, fun m => ?_⟩
  induction m with
  | zero =>
    refine ⟨_, hp _, ?_⟩
    rw [pow_zero, ← (C40_conj q).2]
    congr 1
    ext i
    fin_cases i <;> simp [mk, identity]
  | succ m ih =>
    obtain ⟨x, e, hx⟩ := ih
    obtain ⟨x', y, e1, e2, e3⟩ := hadd m 1
    rw [e] at e1
    obtain rfl := Option.some.inj e1
    have h1 := hp 1
    rw [e2, Real.rpow_one, one_mul, ← hq] at h1
    obtain rfl := Option.some.inj h1
    refine ⟨_, by rw [Nat.cast_add, Nat.cast_one]; exact e3, ?_⟩
    rw [C40_mul, hx, pow_succ]

/-- **C74** refuted: every power of the zero quaternion is one (so its square is one, not zero); the power of any other
real quaternion is undefined; and with an integer exponent the angle is truncated, so the square of `i` is not `-1`. -/
theorem C74_pow_refuted :
    (∀ a, pow 0 a = some identity) ∧
    (∀ (q : Fin 4 → ℝ) (a : ℝ), imag q = 0 → q ≠ 0 → pow q a = none) ∧
    (∃ x, powInt (![1, 0, 0, 0] : Fin 4 → ℝ) 2 = some x ∧ x ≠ mult ![1, 0, 0, 0] ![1, 0, 0, 0]) := by
  refine ⟨fun a => ?_, fun q a hi hq => ?_, ?_⟩
  · rw [pow, powWith, if_pos]
    rw [mag2_eq]
    simp
  · have hm : Real.sqrt (mag2 q) ≠ 0 := by
      rw [mag2_eq]
      exact (Real.sqrt_pos.2 (self_dot_pos hq)).ne'
    rw [pow, powWith, if_neg hm, unit, if_pos ((imag_zero_iff q).2 hi)]
    rfl
  · have hq : mag2 (![1, 0, 0, 0] : Fin 4 → ℝ) = 1 := by rw [mag2_eq, dot4]; simp
    have hi : mag2 (imag (![1, 0, 0, 0] : Fin 4 → ℝ)) = 1 := by rw [mag2_eq, dot3]; simp [imag]
    have hf : ⌊Real.pi / 2⌋ = 1 := by
      rw [Int.floor_eq_iff]
      have h1 := Real.pi_gt_three
      have h2 := Real.pi_lt_four
      constructor <;> push_cast <;> linarith
    refine ⟨_, by
      rw [powInt, powWith, hq, Real.sqrt_one, if_neg one_ne_zero, unit, hi, Real.sqrt_one, if_neg one_ne_zero]
      rfl, fun h => ?_⟩
    have h0 := congrFun h 0
    have h3 : (![1, 0, 0, 0] : Fin 4 → ℝ) 3 = 0 := rfl
    simp only [mk, mult, imag, h3, zero_div, Real.arccos_zero, hf] at h0
    simp at h0
    have : 0 < Real.sin 2 := Real.sin_pos_of_pos_of_lt_pi (by norm_num) (by have := Real.pi_gt_three; linarith)
    linarith

end Geomc.Quat
