import Verif.Float.AlignModel
import Verif.Float.Gjk
import Verif.Affine.Rotation

/-! # Property C132: the rotation aligning two directions in floating point -/

namespace Geomc.Flt

variable {K : Type} [Field K] [LinearOrder K] [IsStrictOrderedRing K] [FloorRing K] {p : ℕ} {rnd : K → K}

/-! ## The factor `(1 - c) / (1 - c²)` -/

/-- No float is closer to one than `ε`, other than one itself. -/
theorem float_gap {x : K} (hx : IsFloat p x) (h1 : x ≠ 1) : eps K p ≤ |1 - x| := by
  obtain ⟨m, e, hm, rfl⟩ := hx
  rw [eps]
  rcases le_total 0 e with he | he
  · obtain ⟨k, rfl⟩ := Int.eq_ofNat_of_zero_le he
    have hz : (1 : K) - (m : K) * 2 ^ ((k : ℕ) : ℤ) = ((1 - m * 2 ^ k : ℤ) : K) := by push_cast; rw [zpow_natCast]
    rw [hz] 
    have hne : (1 - m * 2 ^ k : ℤ) ≠ 0 := by
      intro h
      apply h1
      have : ((1 - m * 2 ^ k : ℤ) : K) = 0 := by rw [h]; simp
      rw [← hz] at this
      linarith
    have h2 : (1 : ℤ) ≤ |1 - m * 2 ^ k| := Int.one_le_abs hne
    have h3 : (1 : K) ≤ |((1 - m * 2 ^ k : ℤ) : K)| := by exact_mod_cast h2
    refine le_trans ?_ h3
    have := zle (K := K) (show -(p : ℤ) ≤ 0 by omega)
    simpa using this
  · obtain ⟨k, hk⟩ := Int.eq_ofNat_of_zero_le (show 0 ≤ -e by omega)
    obtain rfl : e = -(k : ℤ) := by omega
    have hp2 : (0 : K) < 2 ^ (-(k : ℤ)) := two_zpow_pos _
    have hz : (1 : K) - (m : K) * 2 ^ (-(k : ℤ)) = ((2 ^ k - m : ℤ) : K) * 2 ^ (-(k : ℤ)) := by
      push_cast
      rw [sub_mul, zpow_neg, zpow_natCast, mul_inv_cancel₀ (by positivity)]
    have hne : (2 ^ k - m : ℤ) ≠ 0 := by
      intro h
      apply h1
      rw [h] at hz
      push_cast at hz
      linarith
    rw [hz, abs_mul, abs_of_pos hp2]
    have h2 : (1 : ℤ) ≤ |2 ^ k - m| := Int.one_le_abs hne
    rcases le_total k p with hkp | hkp
    · have h3 : (1 : K) ≤ |((2 ^ k - m : ℤ) : K)| := by exact_mod_cast h2
      have h4 := zle (K := K) (show -(p : ℤ) ≤ -(k : ℤ) by omega)
      nlinarith
    · have h5 : (2 : ℤ) ^ k - 2 ^ p + 1 ≤ |2 ^ k - m| := by
        refine le_trans ?_ (le_abs_self _)
        have := (abs_lt.1 hm).2
        have h6 : m < 2 ^ p := by exact_mod_cast this
        omega
      have h6 : (2 : K) ^ k - 2 ^ p + 1 ≤ |((2 ^ k - m : ℤ) : K)| := by exact_mod_cast h5
      rcases Nat.eq_or_lt_of_le hkp with rfl | hlt
      · have h3 : (1 : K) ≤ |((2 ^ p - m : ℤ) : K)| := by exact_mod_cast h2
        nlinarith
      · have h7 : (2 : K) ^ k - 2 ^ p ≥ 2 ^ (k - 1) := by
          obtain ⟨j, rfl⟩ : ∃ j, k = j + 1 := ⟨k - 1, by omega⟩
          have : (2 : K) ^ p ≤ 2 ^ j := pow_le_pow_right₀ (by norm_num) (by omega)
          rw [Nat.add_sub_cancel, pow_succ]
          linarith
        have h8 : (2 : K) ^ (k - 1) * 2 ^ (-(k : ℤ)) = 1 / 2 := by
          obtain ⟨j, rfl⟩ : ∃ j, k = j + 1 := ⟨k - 1, by omega⟩
          rw [Nat.add_sub_cancel, zpow_neg, zpow_natCast, pow_succ]
          field_simp
        have h9 : (2 : K) ^ (-(p : ℤ)) ≤ 1 / 2 ∨ p = 0 := by
          rcases Nat.eq_zero_or_pos p with h | h
          · exact Or.inr h
          · exact Or.inl (eps_le (K := K) h)
        rcases h9 with h9 | rfl
        · refine h9.trans ?_
          rw [← h8]
          exact mul_le_mul_of_nonneg_right (by linarith) hp2.le
        · have : m = 0 := by
            have := hm
            simpa using this
          subst this
          simp only [Int.sub_zero, pow_zero, CharP.cast_eq_zero, neg_zero, zpow_zero] at *
          rw [zpow_neg, zpow_natCast]
          push_cast
          rw [abs_of_pos (by positivity), mul_inv_cancel₀ (by positivity)]

/-- The divisor has the sign of `1 - |c|` and is at least as large. -/
theorem divisor_sign (hp : 1 ≤ p) (h : IsRound p rnd) {c : K} (hc : IsFloat p c) :
    (|c| < 1 → 1 - |c| ≤ 1 - rnd (c * c)) ∧ (1 < |c| → 1 - rnd (c * c) ≤ 1 - |c|) := by
  have fc : IsFloat p |c| := by
    rcases abs_choice c with e | e <;> rw [e]
    · exact hc
    · exact float_neg hc
  have e : c * c = |c| * |c| := (abs_mul_abs_self c).symm
  have h0 := abs_nonneg c
  constructor
  · intro h1
    have := h.le_of_le (x := c * c) fc (by rw [e]; nlinarith)
    linarith
  · intro h1
    have := h.ge_of_ge (x := c * c) fc (by rw [e]; nlinarith)
    linarith

theorem divisor_pos (hp : 1 ≤ p) (h : IsRound p rnd) {c : K} (hc : IsFloat p c) (h1 : |c| ≠ 1) :
    eps K p ≤ |1 - rnd (c * c)| ∧ 0 < (1 - |c|) * (1 - rnd (c * c)) := by
  have fc : IsFloat p |c| := by
    rcases abs_choice c with e | e <;> rw [e]
    · exact hc
    · exact float_neg hc
  have g := float_gap fc h1
  rcases lt_or_gt_of_ne h1 with hl | hl
  · have := (divisor_sign hp h hc).1 hl
    rw [abs_of_pos (by linarith)] at g ⊢
    exact ⟨by linarith, mul_pos (by linarith) (by linarith)⟩
  · have := (divisor_sign hp h hc).2 hl
    rw [abs_of_neg (by linarith)] at g ⊢
    exact ⟨by linarith, mul_pos_of_neg_of_neg (by linarith) (by linarith)⟩

/-- **C132.** The matrix is always defined: the divisor is not zero. -/
theorem C132_defined (hp : 1 ≤ p) (h : IsRound p rnd) (dir tgt : Fin 3 → K) : (rotmatAlignF rnd dir tgt).isSome = true := by
  rw [rotmatAlignF]
  simp only
  split_ifs with h1 h2
  · rfl
  · rfl
  · have fc : IsFloat p (dot rnd dir tgt) := h.mem _
    have := (divisor_pos hp h fc h1).1
    have e0 := eps_pos (K := K) p
    have hd : ¬ rnd (1 - rnd (dot rnd dir tgt * dot rnd dir tgt)) = 0 := by
      rw [h.zero_iff hp]
      intro h0
      rw [h0, abs_zero] at this
      linarith
    rw [Option.isSome_map, alignFactor, if_neg hd]
    rfl

/-- The computed factor against `1 / (1 + c)`: the first error is relative, the second is that of `c * c`. -/
theorem factor_near (hp : 10 ≤ p) (h : IsRound p rnd) {c : K} (hc : IsFloat p c) (h1 : |c| ≠ 1) (hm : -1 < c) :
    ∃ k k' : K, alignFactor rnd c = some k' ∧ 0 ≤ k ∧ |k' - k| ≤ 4 * eps K p * |k| ∧
      |k - 1 / (1 + c)| ≤ eps K p * c ^ 2 / (|1 - rnd (c * c)| * (1 + c)) := by
  have e0 := eps_pos (K := K) p
  have e1 : eps K p ≤ 1 / 1024 := by
    have := zle (K := K) (show -(p : ℤ) ≤ -10 by omega)
    rw [eps]
    refine this.trans (by norm_num)
  obtain ⟨g1, g2⟩ := divisor_pos (by omega) h hc h1
  set D := 1 - rnd (c * c) with hD
  have hD0 : D ≠ 0 := by rintro e; rw [e, abs_zero] at g1; linarith
  have hd : ¬ rnd D = 0 := by rwa [h.zero_iff (by omega)]
  refine ⟨(1 - c) / D, rnd (rnd (1 - c) / rnd D), ?_, ?_, ?_, ?_⟩
  · rw [alignFactor, ← hD, if_neg hd]
  · rcases lt_or_gt_of_ne h1 with hl | hl
    · have : 0 < 1 - c := by have := le_abs_self c; linarith
      have hp1 : 0 < 1 - |c| := by linarith
      exact div_nonneg this.le (pos_of_mul_pos_right g2 hp1.le).le
    · have hc1 : 1 < c := by
        rcases abs_choice c with e | e
        · linarith
        · linarith
      rw [abs_of_pos (by linarith)] at g2
      have hD1 : D < 0 := by nlinarith
      exact div_nonneg_of_nonpos (by linarith) hD1.le
  · have a := h.rel (by omega) (1 - c)
    have b := near_inv (d := eps K p) (by linarith) (h.rel (by omega) D)
    have m := near_round (by omega) h (near_mul a b)
    rw [← div_eq_mul_inv, ← div_eq_mul_inv] at m
    refine m.trans (mul_le_mul_of_nonneg_right ?_ (abs_nonneg _))
    have h5 : (1 + eps K p) * (1 + (1 / (1 - eps K p) - 1)) * (1 + eps K p) ≤ 1 + 4 * eps K p := by
      rw [show (1 + eps K p) * (1 + (1 / (1 - eps K p) - 1)) * (1 + eps K p) = (1 + eps K p) ^ 2 / (1 - eps K p) by ring,
        div_le_iff₀ (by linarith)]
      nlinarith
    have h6 : (1 + ((1 + eps K p) * (1 + (1 / (1 - eps K p) - 1)) - 1)) * (1 + eps K p) - 1 =
        (1 + eps K p) * (1 + (1 / (1 - eps K p) - 1)) * (1 + eps K p) - 1 := by ring
    rw [h6]
    linarith
  · have h2 : 1 + c ≠ 0 := by linarith
    have h3 : (1 - c) / D - 1 / (1 + c) = (rnd (c * c) - c * c) / (D * (1 + c)) := by
      rw [div_sub_div _ _ hD0 h2]
      congr 1
      rw [hD]
      ring
    rw [h3, abs_div, abs_mul, abs_of_pos (show 0 < 1 + c by linarith)]
    refine div_le_div_of_nonneg_right ?_ (mul_nonneg (abs_nonneg _) (by linarith))
    have := h.rel (show 1 ≤ p by omega) (c * c)
    rw [abs_of_nonneg (mul_self_nonneg c)] at this
    rwa [pow_two]

/-! ## The matrix elements -/

/-- The elements other than the products of the cross product with itself. -/
def turn (q : Fin 3 → K) (c : K) : Matrix (Fin 3) (Fin 3) K := !![c, -q 2, q 1; q 2, c, -q 0; -q 1, q 0, c]

/-- The matrix `q qᵀ / (1 + c) + c 1 + [q]` of the exact products of the two directions. -/
def alignExact (dir tgt : Fin 3 → K) (i j : Fin 3) : K :=
  exactCross dir tgt i * exactCross dir tgt j / (1 + ∑ l, dir l * tgt l) + turn (exactCross dir tgt) (∑ l, dir l * tgt l) i j

theorem element (rnd : K → K) {dir tgt : Fin 3 → K} (h1 : |dot rnd dir tgt| ≠ 1) {k : K} (hk : alignFactor rnd (dot rnd dir tgt) = some k) :
    ∃ M, rotmatAlignF rnd dir tgt = some M ∧ (∀ i j : Fin 3, M i.castSucc j.castSucc =
      rnd (rnd (rnd (cross rnd dir tgt j * cross rnd dir tgt i) * k) + turn (cross rnd dir tgt) (dot rnd dir tgt) i j)) ∧
      (∀ i : Fin 3, M i.castSucc 3 = 0 ∧ M 3 i.castSucc = 0) ∧ M 3 3 = 1 := by
  rw [rotmatAlignF, if_neg h1, hk]
  refine ⟨_, rfl, fun i j => ?_, fun i => ?_, rfl⟩
  · fin_cases i <;> fin_cases j <;> simp [turn, sub_eq_add_neg] <;> rfl
  · fin_cases i <;> exact ⟨rfl, rfl⟩

omit [FloorRing K] in
theorem cross_sq (d a : Fin 3 → K) : ∑ i, exactCross d a i ^ 2 = (∑ i, d i ^ 2) * (∑ i, a i ^ 2) - (∑ i, d i * a i) ^ 2 := by
  simp only [Fin.sum_univ_three, exactCross, Matrix.cons_val_zero, Matrix.cons_val_one, Matrix.cons_val]
  ring

omit [FloorRing K] in
theorem abs_mul_le_sq (q : Fin 3 → K) (i j : Fin 3) : |q i * q j| ≤ ∑ l, q l ^ 2 := by
  have hi := Finset.single_le_sum (f := fun l => q l ^ 2) (fun l _ => sq_nonneg _) (Finset.mem_univ i)
  have hj := Finset.single_le_sum (f := fun l => q l ^ 2) (fun l _ => sq_nonneg _) (Finset.mem_univ j)
  rw [abs_le]
  constructor
  · nlinarith [sq_nonneg (q i + q j)]
  · nlinarith [sq_nonneg (q i - q j)]

theorem eps_small (hp : 10 ≤ p) : eps K p ≤ 1 / 1024 := by
  have := zle (K := K) (show -(p : ℤ) ≤ -10 by omega)
  rw [eps]
  exact this.trans (by norm_num)

/-- The computed inner product of two nearly unit directions. -/
theorem dot_unit (hp : 10 ≤ p) (h : IsRound p rnd) {d a : Fin 3 → K} (hd : ∑ i, d i ^ 2 ≤ 1 + 8 * eps K p) (ha : ∑ i, a i ^ 2 ≤ 1 + 8 * eps K p) :
    |dot rnd d a - ∑ i, d i * a i| ≤ 4 * eps K p ∧ |∑ i, d i * a i| ≤ 1 + 8 * eps K p := by
  have e0 := eps_pos (K := K) p
  have e1 := eps_small (K := K) hp
  have s : ∑ i, |d i * a i| ≤ 1 + 8 * eps K p := by
    have : ∑ i, |d i * a i| ≤ ∑ i, (d i ^ 2 / 2 + a i ^ 2 / 2) := Finset.sum_le_sum fun i _ => by
      rw [abs_le]
      constructor
      · nlinarith [sq_nonneg (d i + a i)]
      · nlinarith [sq_nonneg (d i - a i)]
    rw [Finset.sum_add_distrib, ← Finset.sum_div, ← Finset.sum_div] at this
    linarith
  refine ⟨(C104_dot (by omega) h d a).trans ?_, (Finset.abs_sum_le_sum_abs _ _).trans s⟩
  have hs0 : (0 : K) ≤ ∑ i, |d i * a i| := Finset.sum_nonneg fun i _ => abs_nonneg _
  change ((1 + eps K p) ^ 3 - 1) * _ ≤ _
  have h3 : (1 + eps K p) ^ 3 - 1 ≤ 301 / 100 * eps K p := by
    have e2 : eps K p ^ 2 ≤ eps K p / 1024 := by nlinarith
    have e3 : eps K p ^ 3 ≤ eps K p / 1024 := by nlinarith
    have : (1 + eps K p) ^ 3 - 1 = 3 * eps K p + 3 * eps K p ^ 2 + eps K p ^ 3 := by ring
    linarith
  calc _ ≤ 301 / 100 * eps K p * (1 + 8 * eps K p) := mul_le_mul h3 s hs0 (by positivity)
    _ ≤ 4 * eps K p := by nlinarith

omit [FloorRing K] in
theorem small_sum {e : K} (e0 : 0 < e) (e1 : e ≤ 1 / 1024) :
    e * (1 + ((1 + ((1 + 3 * e) * (1 + 3 * e) * (1 + e) - 1)) * (1 + 4 * e) - 1)) + ((1 + ((1 + 3 * e) * (1 + 3 * e) * (1 + e) - 1)) * (1 + 4 * e) - 1) ≤
      13 * e := by
  have f : ∀ n : ℕ, e ^ (n + 2) ≤ e / 1024 := fun n => by
    have h1 : e ^ n ≤ 1 := pow_le_one₀ e0.le (by linarith)
    have h2 : e ^ (n + 2) = e ^ n * (e * e) := by ring
    have h3 : e * e ≤ e * (1 / 1024) := mul_le_mul_of_nonneg_left e1 e0.le
    have h4 : e ^ n * (e * e) ≤ 1 * (e * e) := mul_le_mul_of_nonneg_right h1 (mul_self_nonneg e)
    rw [h2]
    linarith
  have e2 := f 0
  have e3 := f 1
  have e4 := f 2
  have e5 := f 3
  norm_num at e2 e3 e4 e5
  have : e * (1 + ((1 + ((1 + 3 * e) * (1 + 3 * e) * (1 + e) - 1)) * (1 + 4 * e) - 1)) + ((1 + ((1 + 3 * e) * (1 + 3 * e) * (1 + e) - 1)) * (1 + 4 * e) - 1)
      = 12 * e + 54 * e ^ 2 + 112 * e ^ 3 + 105 * e ^ 4 + 36 * e ^ 5 := by ring
  rw [this]
  linarith

omit [FloorRing K] in
theorem align_sizes {e c c₀ w D Q : K} (e0 : 0 < e) (e1 : e ≤ 1 / 1024) (hc : |c - c₀| ≤ 4 * e) (hc0 : |c₀| ≤ 1 + 8 * e) (hw : w = 1 + c₀)
    (w0 : 64 * e ≤ w) (hQ : Q ≤ (1 + 8 * e) ^ 2 - c₀ ^ 2) (hD : e ≤ |D|) (hDc : |D - (1 - c ^ 2)| ≤ e * c ^ 2) :
    Q ≤ 3 * w ∧ 15 / 16 * w ≤ 1 + c ∧ c ^ 2 ≤ 103 / 100 ∧ Q ≤ 28 * |D| := by
  obtain ⟨c1, c2⟩ := abs_le.1 hc
  obtain ⟨c3, c4⟩ := abs_le.1 hc0
  have e2 : e ^ 2 ≤ e / 1024 := by nlinarith
  have cabs : |c| ≤ 1 + 12 * e := abs_le.2 ⟨by linarith, by linarith⟩
  have csq : c ^ 2 ≤ 103 / 100 := by
    rw [← sq_abs]
    have h1 := abs_nonneg c
    have h2 : |c| ≤ 1012 / 1000 := by linarith
    nlinarith
  refine ⟨?_, by linarith, csq, ?_⟩
  · have h1 : (1 + 8 * e) ^ 2 - c₀ ^ 2 = w * (2 - w) + 16 * e + 64 * e ^ 2 := by rw [hw]; ring
    have h2 : 0 ≤ w * w := mul_self_nonneg w
    have h3 : w * (2 - w) = 2 * w - w * w := by ring
    linarith
  · have h1 : 1 - c ^ 2 ≤ |D| + e * c ^ 2 := by
      have := (abs_le.1 hDc).1
      have := le_abs_self D
      linarith
    have h2 : c ^ 2 - c₀ ^ 2 ≤ 82 / 10 * e := by
      have h3 : |c + c₀| ≤ 205 / 100 := abs_le.2 ⟨by linarith, by linarith⟩
      have h4 : |(c - c₀) * (c + c₀)| ≤ 4 * e * (205 / 100) := by
        rw [abs_mul]
        exact mul_le_mul hc h3 (abs_nonneg _) (by linarith)
      have := le_abs_self ((c - c₀) * (c + c₀))
      rw [show (c - c₀) * (c + c₀) = c ^ 2 - c₀ ^ 2 by ring] at this h4
      linarith
    have h3 : e * c ^ 2 ≤ e * (103 / 100) := mul_le_mul_of_nonneg_left csq e0.le
    have h4 : (1 + 8 * e) ^ 2 = 1 + 16 * e + 64 * e ^ 2 := by ring
    linarith

omit [FloorRing K] in
theorem factor_product {e c c₀ w D y k : K} (e0 : 0 < e) (hc : |c - c₀| ≤ 4 * e) (hw : w = 1 + c₀) (w1 : 0 < w) (D0 : 0 < |D|)
    (y1 : |y| ≤ 3 * w) (hcw : 15 / 16 * w ≤ 1 + c) (csq : c ^ 2 ≤ 103 / 100) (y2 : |y| ≤ 28 * |D|)
    (hk : |k - 1 / (1 + c)| ≤ e * c ^ 2 / (|D| * (1 + c))) : |y * k - y / w| ≤ 44 * e / w ∧ |y / w| ≤ 3 := by
  have hcp : 0 < 1 + c := by linarith
  have inv : 1 / (1 + c) ≤ 16 / 15 / w := by
    rw [div_le_div_iff₀ hcp w1]
    linarith
  have yw : |y / w| ≤ 3 := by
    rw [abs_div, abs_of_pos w1, div_le_iff₀ w1]
    exact y1
  refine ⟨?_, yw⟩
  set i := 1 / (1 + c) with hi
  have i0 : 0 < i := by positivity
  have b1 : |y * k - y * i| ≤ 29 * e * i := by
    rw [← mul_sub, abs_mul]
    calc _ ≤ 28 * |D| * (e * c ^ 2 / (|D| * (1 + c))) := mul_le_mul y2 hk (abs_nonneg _) (by positivity)
      _ = 28 * c ^ 2 * (e * i) := by rw [hi]; field_simp
      _ ≤ 29 * (e * i) := mul_le_mul_of_nonneg_right (by linarith) (by positivity)
      _ = _ := by ring
  have b2 : |y * i - y / w| ≤ 12 * e * i := by
    have : y * i - y / w = y / w * (c₀ - c) * i := by
      have h0 : 1 + c₀ ≠ 0 := by rw [← hw]; exact w1.ne'
      rw [hi, hw]
      field_simp
      ring
    rw [this, abs_mul, abs_mul, abs_of_pos i0]
    refine mul_le_mul_of_nonneg_right ?_ i0.le
    rw [abs_sub_comm c₀]
    calc _ ≤ 3 * (4 * e) := mul_le_mul yw hc (abs_nonneg _) (by norm_num)
      _ = _ := by ring
  have b3 := abs_sub_le (y * k) (y * i) (y / w)
  have b4 : 41 * e * i ≤ 41 * e * (16 / 15 / w) := mul_le_mul_of_nonneg_left inv (by positivity)
  have b5 : 41 * e * (16 / 15 / w) ≤ 44 * e / w := by
    rw [show 41 * e * (16 / 15 / w) = 656 / 15 * e / w by ring]
    exact div_le_div_of_nonneg_right (by linarith) w1.le
  have b6 : 29 * e * i + 12 * e * i = 41 * e * i := by ring
  linarith

/-- The scalar estimate behind `C132_element`. -/
theorem product_near {e w y v k k' t : K} (e0 : 0 < e) (e1 : e ≤ 1 / 1024) (w1 : 0 < w) (w0 : 64 * e ≤ w)
    (a1 : |y * k - y / w| ≤ 44 * e / w) (yw : |y / w| ≤ 3) (hk' : |k' - k| ≤ 4 * e * |k|)
    (hv : |v - y| ≤ ((1 + 3 * e) * (1 + 3 * e) * (1 + e) - 1) * |y|) (ht : |t - v * k'| ≤ e * |v * k'|) : |t - y / w| ≤ 52 * e + 44 * e / w := by
  have a0 : 44 * e / w ≤ 44 / 64 := by
    rw [div_le_iff₀ w1]
    linarith
  have a2 : |y * k| ≤ 4 := by
    have := abs_sub_abs_le_abs_sub (y * k) (y / w)
    linarith
  have a3 : |t - y * k| ≤ 13 * e * |y * k| := by
    have m := near_mul hv hk'
    have hk2 : |t - y * k| ≤ |t - v * k'| + |v * k' - y * k| := abs_sub_le _ _ _
    have h5 : |v * k'| ≤ |y * k| + |v * k' - y * k| := by
      have := abs_sub_abs_le_abs_sub (v * k') (y * k)
      linarith
    have h7 := mul_le_mul_of_nonneg_right (small_sum e0 e1) (abs_nonneg (y * k))
    generalize |y * k| = Y at *
    generalize (1 + ((1 + 3 * e) * (1 + 3 * e) * (1 + e) - 1)) * (1 + 4 * e) - 1 = δ at *
    have h6 : e * |v * k'| ≤ e * (Y + δ * Y) := mul_le_mul_of_nonneg_left (by linarith) e0.le
    rw [show (e * (1 + δ) + δ) * Y = e * (Y + δ * Y) + δ * Y by ring] at h7
    linarith
  have a4 := abs_sub_le t (y * k) (y / w)
  have a5 : 13 * e * |y * k| ≤ 13 * e * 4 := mul_le_mul_of_nonneg_left a2 (by positivity)
  linarith

omit [LinearOrder K] [IsStrictOrderedRing K] [FloorRing K] in
theorem turn_cases (P : Fin 3 → Fin 3 → K → K → Prop) (q v : Fin 3 → K) (c c' : K) (hc : ∀ i j, P i j c c') (hq : ∀ i j l, P i j (q l) (v l)) (hn : ∀ i j l, P i j (-q l) (-v l))
    (i j : Fin 3) : P i j (turn q c i j) (turn v c' i j) := by
  fin_cases i <;> fin_cases j
  · exact hc _ _
  · exact hn _ _ _
  · exact hq _ _ _
  · exact hq _ _ _
  · exact hc _ _
  · exact hn _ _ _
  · exact hn _ _ _
  · exact hq _ _ _
  · exact hc _ _

/-- The computed element, whatever the factor is found by. -/
theorem entry_near (hp : 10 ≤ p) (h : IsRound p rnd) {dir tgt : Fin 3 → K} (hd : ∀ i, IsFloat p (dir i)) (ht : ∀ i, IsFloat p (tgt i))
    (ud : ∑ i, dir i ^ 2 ≤ 1 + 8 * eps K p) (ut : ∑ i, tgt i ^ 2 ≤ 1 + 8 * eps K p) (hw : 64 * eps K p ≤ 1 + ∑ i, dir i * tgt i) {k k' D : K}
    (hD : eps K p ≤ |D|) (hDc : |D - (1 - dot rnd dir tgt ^ 2)| ≤ eps K p * dot rnd dir tgt ^ 2) (kk : |k' - k| ≤ 4 * eps K p * |k|)
    (kc : |k - 1 / (1 + dot rnd dir tgt)| ≤ eps K p * dot rnd dir tgt ^ 2 / (|D| * (1 + dot rnd dir tgt)) ∨ k = 1 / (1 + dot rnd dir tgt)) (i j : Fin 3) :
    |rnd (rnd (rnd (cross rnd dir tgt j * cross rnd dir tgt i) * k') + turn (cross rnd dir tgt) (dot rnd dir tgt) i j) - alignExact dir tgt i j| ≤
      (64 + 48 / (1 + ∑ i, dir i * tgt i)) * eps K p ∧ |alignExact dir tgt i j| ≤ 41 / 10 := by
  have e0 := eps_pos (K := K) p
  have e1 := eps_small (K := K) hp
  obtain ⟨hc, hc0⟩ := dot_unit hp h ud ut
  set c₀ := ∑ i, dir i * tgt i with hc₀
  have hQ : ∑ l, exactCross dir tgt l ^ 2 ≤ (1 + 8 * eps K p) ^ 2 - c₀ ^ 2 := by
    rw [cross_sq, ← hc₀, pow_two (1 + 8 * eps K p)]
    have := mul_le_mul ud ut (Finset.sum_nonneg fun i _ => sq_nonneg _) (by linarith)
    linarith
  obtain ⟨q1, q2, q3, q4⟩ := align_sizes e0 e1 hc hc0 rfl hw hQ hD hDc
  have w1 : 0 < 1 + c₀ := by linarith
  have yy := abs_mul_le_sq (exactCross dir tgt) j i
  have D0 : 0 < |D| := by linarith
  have kc' : |k - 1 / (1 + dot rnd dir tgt)| ≤ eps K p * dot rnd dir tgt ^ 2 / (|D| * (1 + dot rnd dir tgt)) := by
    rcases kc with kc | kc
    · exact kc
    · rw [kc, sub_self, abs_zero]
      have : 0 < 1 + dot rnd dir tgt := by linarith
      positivity
  obtain ⟨a1, a2⟩ := factor_product (y := exactCross dir tgt j * exactCross dir tgt i) e0 hc rfl w1 D0 (yy.trans q1) q2 q3 (yy.trans q4) kc'
  have hv : ∀ l, |cross rnd dir tgt l - exactCross dir tgt l| ≤ 3 * eps K p * |exactCross dir tgt l| := C104_cross (by omega) h hd ht
  have hvv := near_round (show 1 ≤ p by omega) h (near_mul (hv j) (hv i))
  have hvv' : |rnd (cross rnd dir tgt j * cross rnd dir tgt i) - exactCross dir tgt j * exactCross dir tgt i| ≤
      ((1 + 3 * eps K p) * (1 + 3 * eps K p) * (1 + eps K p) - 1) * |exactCross dir tgt j * exactCross dir tgt i| := by
    refine hvv.trans (le_of_eq ?_)
    ring
  have t1 := product_near e0 e1 w1 hw a1 a2 kk hvv' (h.rel (by omega) _)
  have q11 : ∀ l, |exactCross dir tgt l| ≤ 11 / 10 := fun l => by
    have := (abs_mul_le_sq (exactCross dir tgt) l l).trans hQ
    rw [abs_mul, ← pow_two] at this
    have e2 : eps K p ^ 2 ≤ eps K p / 1024 := by nlinarith
    have h4 : (1 + 8 * eps K p) ^ 2 = 1 + 16 * eps K p + 64 * eps K p ^ 2 := by ring
    have h5 := sq_nonneg c₀
    refine abs_le_of_sq_le_sq' ?_ (by norm_num) |>.2
    linarith
  have hq3 : ∀ l, |cross rnd dir tgt l - exactCross dir tgt l| ≤ 4 * eps K p := fun l => by
    refine (hv l).trans ?_
    have := mul_le_mul_of_nonneg_left (q11 l) (show 0 ≤ 3 * eps K p by positivity)
    linarith
  have t2 := turn_cases (fun _ _ x y => |y - x| ≤ 4 * eps K p ∧ |x| ≤ 11 / 10) (exactCross dir tgt) (cross rnd dir tgt) c₀ (dot rnd dir tgt)
    (fun _ _ => ⟨hc, by linarith⟩) (fun _ _ l => ⟨hq3 l, q11 l⟩)
    (fun _ _ l => ⟨by rw [neg_sub_neg, abs_sub_comm]; exact hq3 l, by rw [abs_neg]; exact q11 l⟩) i j
  rw [alignExact, ← hc₀, mul_comm (exactCross dir tgt i)]
  generalize turn (exactCross dir tgt) c₀ i j = o at *
  generalize turn (cross rnd dir tgt) (dot rnd dir tgt) i j = o' at *
  generalize rnd (rnd (cross rnd dir tgt j * cross rnd dir tgt i) * k') = t at *
  generalize exactCross dir tgt j * exactCross dir tgt i / (1 + c₀) = y at *
  have r1 := h.rel (show 1 ≤ p by omega) (t + o')
  obtain ⟨t2, t3⟩ := t2
  have a0 : 44 * eps K p / (1 + c₀) ≤ 44 / 64 := by
    rw [div_le_iff₀ w1]
    linarith
  have s1 : |t + o' - (y + o)| ≤ 56 * eps K p + 44 * eps K p / (1 + c₀) := by
    rw [show t + o' - (y + o) = (t - y) + (o' - o) by ring]
    refine (abs_add_le _ _).trans ?_
    linarith
  have h3 := abs_add_le y o
  have s2 : |t + o'| ≤ 6 := by
    have h2 := abs_sub_abs_le_abs_sub (t + o') (y + o)
    linarith
  have s3 : eps K p * |t + o'| ≤ eps K p * 6 := mul_le_mul_of_nonneg_left s2 e0.le
  have s4 := abs_sub_le (rnd (t + o')) (t + o') (y + o)
  have s5 : (64 + 48 / (1 + c₀)) * eps K p = 64 * eps K p + 44 * eps K p / (1 + c₀) + 4 * eps K p / (1 + c₀) := by ring
  have s6 : 0 ≤ 4 * eps K p / (1 + c₀) := by positivity
  exact ⟨by linarith, by linarith⟩

theorem square_near (hp : 1 ≤ p) (h : IsRound p rnd) (c : K) : |1 - rnd (c * c) - (1 - c ^ 2)| ≤ eps K p * c ^ 2 := by
  have := h.rel hp (c * c)
  rw [abs_of_nonneg (mul_self_nonneg c)] at this
  rw [pow_two, show ∀ x y : K, 1 - x - (1 - y) = -(x - y) by intros; ring, abs_neg]
  exact this

/-- **C132.** For nearly unit directions that are not nearly opposite, every element of the matrix is within
`(64 + 48 / (1 + cos)) ε` of the exact one, unless the inner product is computed as exactly 1. -/
theorem C132_element (hp : 10 ≤ p) (h : IsRound p rnd) {dir tgt : Fin 3 → K} (hd : ∀ i, IsFloat p (dir i)) (ht : ∀ i, IsFloat p (tgt i))
    (ud : ∑ i, dir i ^ 2 ≤ 1 + 8 * eps K p) (ut : ∑ i, tgt i ^ 2 ≤ 1 + 8 * eps K p) (hw : 64 * eps K p ≤ 1 + ∑ i, dir i * tgt i)
    (h1 : dot rnd dir tgt ≠ 1) :
    ∃ M, rotmatAlignF rnd dir tgt = some M ∧ (∀ i j : Fin 3, |M i.castSucc j.castSucc - alignExact dir tgt i j| ≤
        (64 + 48 / (1 + ∑ i, dir i * tgt i)) * eps K p) ∧ (∀ i : Fin 3, M i.castSucc 3 = 0 ∧ M 3 i.castSucc = 0) ∧ M 3 3 = 1 := by
  have e0 := eps_pos (K := K) p
  have hc := (dot_unit hp h ud ut).1
  have fc : IsFloat p (dot rnd dir tgt) := h.mem _
  have hm : -1 < dot rnd dir tgt := by
    have := (abs_le.1 hc).1
    linarith
  have h1' : |dot rnd dir tgt| ≠ 1 := by
    intro e
    rcases abs_choice (dot rnd dir tgt) with g | g
    · exact h1 (by linarith)
    · linarith
  obtain ⟨k, k', hk', -, kk, kc⟩ := factor_near hp h fc h1' hm
  obtain ⟨M, hM, hel, hz, h33⟩ := element rnd h1' hk'
  refine ⟨M, hM, fun i j => ?_, hz, h33⟩
  rw [hel]
  exact (entry_near hp h hd ht ud ut hw (divisor_pos (by omega) h fc h1').1 (square_near (by omega) h _) kk (Or.inl kc) i j).1

/-! ## Aligning a vector -/

theorem aligned (rnd : K → K) {src tgt v r : Fin 3 → K} (hr : alignF rnd src tgt v = some r) (i : Fin 3) :
    let m := fun j => rnd (rnd (rnd (cross rnd src tgt j * cross rnd src tgt i) * rnd (1 / rnd (1 + dot rnd src tgt))) + turn (cross rnd src tgt) (dot rnd src tgt) i j)
    r i = rnd (rnd (rnd (m 0 * v 0) + rnd (m 1 * v 1)) + rnd (m 2 * v 2)) := by
  rw [alignF] at hr
  simp only at hr
  split_ifs at hr
  obtain rfl := Option.some.inj hr
  fin_cases i <;> simp [turn, sub_eq_add_neg]

theorem row_near (hp : 10 ≤ p) (h : IsRound p rnd) {m R : Fin 3 → K} {B : K} (hm : ∀ j, |m j - R j| ≤ B ∧ |R j| ≤ 41 / 10) (B1 : B ≤ 9 / 10) (v : Fin 3 → K) :
    |rnd (rnd (rnd (m 0 * v 0) + rnd (m 1 * v 1)) + rnd (m 2 * v 2)) - ∑ j, R j * v j| ≤ (B + 16 * eps K p) * ∑ j, |v j| := by
  have e0 := eps_pos (K := K) p
  have e1 := eps_small (K := K) hp
  have n := fun j => (Near.refl (eps K p) (m j * v j)).round (show 1 ≤ p by omega) h le_rfl
  have nn := (((((n 0).add (n 1)).round (show 1 ≤ p by omega) h le_rfl).add ((n 2).mono e0.le (show 0 + 1 ≤ 0 + 1 + 1 by norm_num))).round (show 1 ≤ p by omega) h le_rfl).1
  have h3 : (1 + eps K p) ^ (0 + 1 + 1 + 1) - 1 ≤ 301 / 100 * eps K p := by
    have e2 : eps K p ^ 2 ≤ eps K p / 1024 := by nlinarith
    have e3 : eps K p ^ 3 ≤ eps K p / 1024 := by nlinarith
    have : (1 + eps K p) ^ (0 + 1 + 1 + 1) - 1 = 3 * eps K p + 3 * eps K p ^ 2 + eps K p ^ 3 := by ring
    linarith
  have hs : ∀ j, |m j * v j| ≤ 5 * |v j| := fun j => by
    rw [abs_mul]
    refine mul_le_mul_of_nonneg_right ?_ (abs_nonneg _)
    have := abs_sub_abs_le_abs_sub (m j) (R j)
    linarith [(hm j).1, (hm j).2]
  have hd : ∀ j, |m j * v j - R j * v j| ≤ B * |v j| := fun j => by
    rw [← sub_mul, abs_mul]
    exact mul_le_mul_of_nonneg_right (hm j).1 (abs_nonneg _)
  have s0 : 0 ≤ |m 0 * v 0| + |m 1 * v 1| + |m 2 * v 2| := by positivity
  have a1 := nn.trans (mul_le_mul_of_nonneg_right h3 s0)
  have a2 := mul_le_mul_of_nonneg_left (add_le_add (add_le_add (hs 0) (hs 1)) (hs 2)) (show 0 ≤ 301 / 100 * eps K p by positivity)
  have a3 := abs_sub_le (rnd (rnd (rnd (m 0 * v 0) + rnd (m 1 * v 1)) + rnd (m 2 * v 2))) (m 0 * v 0 + m 1 * v 1 + m 2 * v 2) (∑ j, R j * v j)
  have a4 : |m 0 * v 0 + m 1 * v 1 + m 2 * v 2 - ∑ j, R j * v j| ≤ B * ∑ j, |v j| := by
    rw [Fin.sum_univ_three, Fin.sum_univ_three, show m 0 * v 0 + m 1 * v 1 + m 2 * v 2 - (R 0 * v 0 + R 1 * v 1 + R 2 * v 2) =
      (m 0 * v 0 - R 0 * v 0) + (m 1 * v 1 - R 1 * v 1) + (m 2 * v 2 - R 2 * v 2) by ring]
    have b1 := abs_add_le ((m 0 * v 0 - R 0 * v 0) + (m 1 * v 1 - R 1 * v 1)) (m 2 * v 2 - R 2 * v 2)
    have b2 := abs_add_le (m 0 * v 0 - R 0 * v 0) (m 1 * v 1 - R 1 * v 1)
    have b3 := hd 0
    have b4 := hd 1
    have b5 := hd 2
    linarith
  have a5 : 301 / 100 * eps K p * (5 * |v 0| + 5 * |v 1| + 5 * |v 2|) ≤ 16 * eps K p * ∑ j, |v j| := by
    rw [Fin.sum_univ_three, show 301 / 100 * eps K p * (5 * |v 0| + 5 * |v 1| + 5 * |v 2|) = 1505 / 100 * eps K p * (|v 0| + |v 1| + |v 2|) by ring]
    exact mul_le_mul_of_nonneg_right (by linarith) (by positivity)
  rw [add_mul]
  linarith

/-- **C132.** `align` of a vector, for nearly unit directions that are not nearly opposite. -/
theorem C132_vector (hp : 10 ≤ p) (h : IsRound p rnd) {src tgt : Fin 3 → K} (hd : ∀ i, IsFloat p (src i)) (ht : ∀ i, IsFloat p (tgt i))
    (ud : ∑ i, src i ^ 2 ≤ 1 + 8 * eps K p) (ut : ∑ i, tgt i ^ 2 ≤ 1 + 8 * eps K p) (hw : 64 * eps K p ≤ 1 + ∑ i, src i * tgt i) (v : Fin 3 → K) :
    ∃ r, alignF rnd src tgt v = some r ∧ ∀ i, |r i - ∑ j, alignExact src tgt i j * v j| ≤
      (80 + 48 / (1 + ∑ i, src i * tgt i)) * eps K p * ∑ j, |v j| := by
  have e0 := eps_pos (K := K) p
  have e1 := eps_small (K := K) hp
  have hc := (dot_unit hp h ud ut).1
  have w1 : 0 < 1 + ∑ i, src i * tgt i := by linarith
  have hm : 0 < 1 + dot rnd src tgt := by
    have := (abs_le.1 hc).1
    linarith
  have hd0 : rnd (1 + dot rnd src tgt) ≠ 0 := by
    rw [Ne, h.zero_iff (by omega)]
    exact hm.ne'
  have kk : |rnd (1 / rnd (1 + dot rnd src tgt)) - 1 / (1 + dot rnd src tgt)| ≤ 4 * eps K p * |1 / (1 + dot rnd src tgt)| := by
    have b := near_round (show 1 ≤ p by omega) h (near_inv (d := eps K p) (by linarith) (h.rel (show 1 ≤ p by omega) (1 + dot rnd src tgt)))
    rw [← one_div, ← one_div] at b
    refine b.trans (mul_le_mul_of_nonneg_right ?_ (abs_nonneg _))
    have h5 : (1 + (1 / (1 - eps K p) - 1)) * (1 + eps K p) ≤ 1 + 4 * eps K p := by
      rw [show (1 + (1 / (1 - eps K p) - 1)) * (1 + eps K p) = (1 + eps K p) / (1 - eps K p) by ring, div_le_iff₀ (by linarith)]
      nlinarith
    linarith
  have hsome : ∃ r, alignF rnd src tgt v = some r := by
    rw [alignF, if_neg hd0]
    exact ⟨_, rfl⟩
  obtain ⟨r, hr⟩ := hsome
  refine ⟨r, hr, fun i => ?_⟩
  rw [aligned rnd hr i]
  have hent : ∀ j, |rnd (rnd (rnd (cross rnd src tgt j * cross rnd src tgt i) * rnd (1 / rnd (1 + dot rnd src tgt))) +
        turn (cross rnd src tgt) (dot rnd src tgt) i j) - alignExact src tgt i j| ≤ (64 + 48 / (1 + ∑ i, src i * tgt i)) * eps K p ∧
      |alignExact src tgt i j| ≤ 41 / 10 := by
    intro j
    by_cases h1 : dot rnd src tgt = 1
    · refine entry_near hp h hd ht ud ut hw (D := eps K p) (le_abs_self _) ?_ kk (Or.inr rfl) i j
      rw [h1, one_pow, sub_self, sub_zero, mul_one, abs_of_pos e0]
    · have fc : IsFloat p (dot rnd src tgt) := h.mem _
      have h1' : |dot rnd src tgt| ≠ 1 := by
        intro e
        rcases abs_choice (dot rnd src tgt) with g | g
        · exact h1 (by linarith)
        · linarith
      exact entry_near hp h hd ht ud ut hw (divisor_pos (by omega) h fc h1').1 (square_near (by omega) h _) kk (Or.inr rfl) i j
  have B1 : (64 + 48 / (1 + ∑ i, src i * tgt i)) * eps K p ≤ 9 / 10 := by
    have : 48 / (1 + ∑ i, src i * tgt i) * eps K p ≤ 48 / 64 := by
      rw [div_mul_eq_mul_div, div_le_iff₀ w1]
      linarith
    rw [add_mul]
    linarith
  have eB : (80 + 48 / (1 + ∑ i, src i * tgt i)) * eps K p = (64 + 48 / (1 + ∑ i, src i * tgt i)) * eps K p + 16 * eps K p := by ring
  rw [eB]
  exact row_near hp h hent B1 v

/-! ## What the matrix does -/

section
variable {dir tgt : Fin 3 → K}

omit [LinearOrder K] [IsStrictOrderedRing K] [FloorRing K] in
theorem exact_apply (hw : 1 + ∑ i, dir i * tgt i ≠ 0) (i : Fin 3) :
    ∑ j, alignExact dir tgt i j * dir j = (∑ j, dir j ^ 2) * tgt i ∧ ∑ j, alignExact dir tgt j i * tgt j = (∑ j, tgt j ^ 2) * dir i := by
  simp only [Fin.sum_univ_three, alignExact] at hw ⊢
  generalize hW : 1 + (dir 0 * tgt 0 + dir 1 * tgt 1 + dir 2 * tgt 2) = w at *
  fin_cases i <;> simp only [turn, exactCross, Matrix.of_apply, Matrix.cons_val_zero, Matrix.cons_val_one, Matrix.cons_val, Fin.zero_eta, Fin.mk_one, Fin.reduceFinMk] <;>
    constructor <;> field_simp <;> ring

end

end Geomc.Flt
