import Verif.Float.RotOneModel
import Verif.Float.RotThm

/-! # Property C133: rotations about a point, without an inverse -/

namespace Geomc.Flt

variable {K : Type} [Field K] [LinearOrder K] [IsStrictOrderedRing K] [FloorRing K] {p : ℕ} {rnd : K → K} {k ctr : Fin 3 → K} {c s : K}

/-- Differences of two products are as good as three roundings. -/
theorem Near.diffOfProducts (hp : 1 ≤ p) (h : IsRound p rnd) {k : ℕ} {a b c d x X : K} (ha : IsFloat p a) (hb : IsFloat p b) (hc : IsFloat p c)
    (hd : IsFloat p d) (hx : Near (eps K p) k (a * b - c * d) x X) : Near (eps K p) (k + 3) (Flt.diffOfProducts rnd a b c d) x X := by
  have e0 := eps_pos (K := K) p
  refine hx.pow e0.le ((C95_relative hp h ha hb hc hd).1.trans (mul_le_mul_of_nonneg_right ?_ (abs_nonneg _)))
  have : (2 : K) ^ (-(p : ℤ)) = eps K p := rfl
  rw [this]
  nlinarith [sq_nonneg (eps K p), mul_pos e0 (mul_pos e0 e0)]

/-- **C133.** The elements of the linear part. -/
theorem C133_one_element (hp : 1 ≤ p) (h : IsRound p rnd) (k ctr : Fin 3 → K) (c s : K) (i j : Fin 3) :
    |rotmatAboutF rnd k ctr c s i j.castSucc - aboutLin k c s i j| ≤ ((1 + eps K p) ^ 5 - 1) * linSize k c s i j := by
  have D : ∀ x y z : K, |rnd (rnd (x * x) + rnd (c * rnd (rnd (y * y) + rnd (z * z)))) - (x ^ 2 + c * (y ^ 2 + z ^ 2))| ≤
      ((1 + eps K p) ^ 5 - 1) * (x ^ 2 + |c| * (y ^ 2 + z ^ 2)) := fun x y z => by
    have := both_diag (rnd := rnd) hp h x y z c
    rwa [add_zero, h.fix (h.mem _)] at this
  have O := fun a b d => both_off (rnd := rnd) hp h a b c d s
  fin_cases i <;> fin_cases j
  · exact fit (D (k 0) (k 1) (k 2)) rfl (by simp [-mul_eq_mul_left_iff, aboutLin, turn, Fin.sum_univ_three]; ring) (by simp [-mul_eq_mul_left_iff, linSize, turn, Fin.sum_univ_three, abs_mul]; try ring)
  · exact fit (O (k 0) (k 1) (k 2)).2 rfl (by simp [-mul_eq_mul_left_iff, aboutLin, turn, Fin.sum_univ_three]; ring) (by simp [-mul_eq_mul_left_iff, linSize, turn, Fin.sum_univ_three, abs_mul]; try ring)
  · exact fit (O (k 0) (k 2) (k 1)).1 rfl (by simp [-mul_eq_mul_left_iff, aboutLin, turn, Fin.sum_univ_three]; ring) (by simp [-mul_eq_mul_left_iff, linSize, turn, Fin.sum_univ_three, abs_mul]; try ring)
  · exact fit (O (k 0) (k 1) (k 2)).1 rfl (by simp [-mul_eq_mul_left_iff, aboutLin, turn, Fin.sum_univ_three]; ring) (by simp [-mul_eq_mul_left_iff, linSize, turn, Fin.sum_univ_three, abs_mul]; try ring)
  · exact fit (D (k 1) (k 0) (k 2)) rfl (by simp [-mul_eq_mul_left_iff, aboutLin, turn, Fin.sum_univ_three]; ring) (by simp [-mul_eq_mul_left_iff, linSize, turn, Fin.sum_univ_three, abs_mul]; try ring)
  · exact fit (O (k 1) (k 2) (k 0)).2 rfl (by simp [-mul_eq_mul_left_iff, aboutLin, turn, Fin.sum_univ_three]; ring) (by simp [-mul_eq_mul_left_iff, linSize, turn, Fin.sum_univ_three, abs_mul]; try ring)
  · exact fit (O (k 0) (k 2) (k 1)).2 rfl (by simp [-mul_eq_mul_left_iff, aboutLin, turn, Fin.sum_univ_three]; ring) (by simp [-mul_eq_mul_left_iff, linSize, turn, Fin.sum_univ_three, abs_mul]; try ring)
  · exact fit (O (k 1) (k 2) (k 0)).1 rfl (by simp [-mul_eq_mul_left_iff, aboutLin, turn, Fin.sum_univ_three]; ring) (by simp [-mul_eq_mul_left_iff, linSize, turn, Fin.sum_univ_three, abs_mul]; try ring)
  · exact fit (D (k 2) (k 0) (k 1)) rfl (by simp [-mul_eq_mul_left_iff, aboutLin, turn, Fin.sum_univ_three]; ring) (by simp [-mul_eq_mul_left_iff, linSize, turn, Fin.sum_univ_three, abs_mul]; try ring)

/-- An element of the translation: every stage of it is one fused operation. -/
theorem one_shift (hp : 1 ≤ p) (h : IsRound p rnd) {a b e pa pb pe : K} (c : K) {u f v g s : K} (fa : IsFloat p a) (fb : IsFloat p b) (fe : IsFloat p e)
    (fpa : IsFloat p pa) (fpb : IsFloat p pb) (fpe : IsFloat p pe) (fu : IsFloat p u) (ff : IsFloat p f) (fv : IsFloat p v) (fg : IsFloat p g) (fs : IsFloat p s) :
    |sumOfProducts rnd (diffOfProducts rnd pa (rnd (rnd (b * b) + rnd (e * e))) a (sumOfProducts rnd pb b pe e)) (rnd (1 - c)) (diffOfProducts rnd u f v g) s -
      ((pa * (b ^ 2 + e ^ 2) - a * (pb * b + pe * e)) * (1 - c) + (u * f - v * g) * s)| ≤
      ((1 + eps K p) ^ 10 - 1) * ((|pa| * (b ^ 2 + e ^ 2) + |a| * (|pb * b| + |pe * e|)) * |1 - c| + (|u * f| + |v * g|) * |s|) := by
  have e0 := (eps_pos (K := K) p).le
  have n := fun a => quat_square (rnd := rnd) hp h a
  have r := fun x : K => Near.refl (eps K p) x
  have q := Near.diffOfProducts hp h fu ff fv fg ((r (u * f)).sub (r (v * g)))
  have s0 := Near.sumOfProducts hp h fpb fb fpe fe ((r (pb * b)).add (r (pe * e)))
  have y := ((n b).add (n e)).round hp h le_rfl
  have t := Near.diffOfProducts hp h fpa (h.mem _) fa (h.mem _) ((((r pa).mul e0 y).mono e0 (show _ ≤ 3 by norm_num)).sub (((r a).mul e0 s0).mono e0 (show _ ≤ 3 by norm_num)))
  have c1 := (r (1 - c)).round hp h le_rfl
  exact (Near.sumOfProducts hp h (h.mem _) (h.mem _) (h.mem _) fs (((t.mul e0 c1).mono e0 (show _ ≤ 7 by norm_num)).add ((q.mul e0 (r s)).mono e0 (show _ ≤ 7 by norm_num)))).1

omit [FloorRing K] in
theorem pow_ten_le {e : K} (e0 : 0 < e) (e1 : e ≤ 1 / 1024) : (1 + e) ^ 10 - 1 ≤ 102 / 10 * e := by
  have h3 : (1 + e) ^ 3 ≤ 1 + 301 / 100 * e := by
    have e2 : e ^ 2 ≤ e / 1024 := by nlinarith
    have e3 : e ^ 3 ≤ e / 1024 / 1024 := by nlinarith
    have : (1 + e) ^ 3 = 1 + 3 * e + 3 * e ^ 2 + e ^ 3 := by ring
    linarith
  have : (1 + e) ^ 10 = (1 + e) ^ 7 * (1 + e) ^ 3 := by ring
  rw [this]
  have := mul_le_mul (sub_le_iff_le_add.1 (pow_seven_le e0 e1)) h3 (by positivity) (by positivity)
  nlinarith

/-- **C133.** A rotation about a point built without its inverse keeps the point where it is up to `56 ε` of its coordinates, and carries every other
to within `25 ε` of its offset from the centre, and `56 ε` of the centre, of where it should be. -/
theorem C133_about_one (hp : 10 ≤ p) (h : IsRound p rnd) (fk : ∀ i, IsFloat p (k i)) (fc : ∀ i, IsFloat p (ctr i)) (fs : IsFloat p s)
    (hk : |∑ l, k l ^ 2 - 1| ≤ 8 * eps K p) (hcs : |c ^ 2 + s ^ 2 - 1| ≤ 8 * eps K p) (x : Fin 3 → K) (i : Fin 3) :
    |carry (rotmatAboutF rnd k ctr c s) ctr i - ctr i| ≤ 56 * eps K p * ∑ r, |ctr r| ∧
    |carry (rotmatAboutF rnd k ctr c s) x i - (ctr i + ∑ j, axisExact k c s i j * (x j - ctr j))| ≤ 25 * eps K p * ∑ r, |x r - ctr r| + 56 * eps K p * ∑ r, |ctr r| := by
  have e0 := eps_pos (K := K) p
  have e1 := eps_small (K := K) hp
  have P : 0 ≤ ∑ r, |ctr r| := Finset.sum_nonneg fun _ _ => abs_nonneg _
  have L : ∀ i j : Fin 3, |rotmatAboutF rnd k ctr c s i j.castSucc - aboutLin k c s i j| ≤ 16 * eps K p := fun i j => by
    refine (C133_one_element (by omega) h k ctr c s i j).trans ?_
    have g : 0 ≤ (1 + eps K p) ^ 5 - 1 := sub_nonneg.2 (one_le_pow₀ (by linarith))
    have h5 : (1 + eps K p) ^ 5 - 1 ≤ 51 / 10 * eps K p := by
      have h7 := pow_seven_le e0 e1
      have h2 : 1 + 2 * eps K p ≤ (1 + eps K p) ^ 2 := by nlinarith
      have : (1 + eps K p) ^ 7 = (1 + eps K p) ^ 5 * (1 + eps K p) ^ 2 := by ring
      have h6 : (1 + eps K p) ^ 5 * (1 + 2 * eps K p) ≤ (1 + eps K p) ^ 7 := by
        rw [this]
        exact mul_le_mul_of_nonneg_left h2 (by positivity)
      nlinarith
    have a1 := mul_le_mul_of_nonneg_left (lin_size_le e0 e1 hk hcs i j) g
    linarith
  have T : ∀ i, |rotmatAboutF rnd k ctr c s i 3 - aboutShift k ctr c s i| ≤ 32 * eps K p * ∑ r, |ctr r| := fun i => by
    have g : 0 ≤ (1 + eps K p) ^ 10 - 1 := sub_nonneg.2 (one_le_pow₀ (by linarith))
    have Z := fun i j l h1 h2 h3 => shift_size (ctr := ctr) e0 e1 hk hcs i j l h1 h2 h3
    have F : ((1 + eps K p) ^ 10 - 1) * (31 / 10 * ∑ r, |ctr r|) ≤ 32 * eps K p * ∑ r, |ctr r| := by
      have := mul_le_mul_of_nonneg_right (pow_ten_le e0 e1) (show 0 ≤ 31 / 10 * ∑ r, |ctr r| by positivity)
      nlinarith [mul_nonneg e0.le P]
    obtain ⟨A0, A1, A2⟩ := shift_eq k ctr c s
    have hp1 : 1 ≤ p := by omega
    have z0 := mul_le_mul_of_nonneg_left (Z 0 1 2 (by decide) (by decide) (by decide)) g
    have z1 := mul_le_mul_of_nonneg_left (Z 1 0 2 (by decide) (by decide) (by decide)) g
    have z2 := mul_le_mul_of_nonneg_left (Z 2 0 1 (by decide) (by decide) (by decide)) g
    have x0 := one_shift hp1 h c (fk 0) (fk 1) (fk 2) (fc 0) (fc 1) (fc 2) (fc 1) (fk 2) (fc 2) (fk 1) fs
    have x1 := one_shift hp1 h c (fk 1) (fk 0) (fk 2) (fc 1) (fc 0) (fc 2) (fc 2) (fk 0) (fc 0) (fk 2) fs
    have x2 := one_shift hp1 h c (fk 2) (fk 0) (fk 1) (fc 2) (fc 0) (fc 1) (fc 0) (fk 1) (fc 1) (fk 0) fs
    rw [add_comm |ctr 0 * k 2|] at z1
    fin_cases i
    · exact (fit x0 rfl A0 rfl).trans (z0.trans F)
    · exact (fit x1 rfl A1 rfl).trans (z1.trans F)
    · exact (fit x2 rfl A2 rfl).trans (z2.trans F)
  rw [show (56 : K) = 32 + 24 by norm_num]
  exact about_near e0 L (lin_axis e0 e1 hk hcs s) T (fun i => rfl) hk x i

omit [LinearOrder K] [IsStrictOrderedRing K] [FloorRing K] in
/-- **C133.** Without rounding it is the matrix of C17. -/
theorem C133_one_exact (k ctr : Fin 3 → K) (c s : K) (i : Fin 3) (j : Fin 4) :
    rotmatAboutF (fun x => x) k ctr c s i j = Affine.rotmatAbout k ctr c s i.castSucc j := by
  fin_cases i <;> fin_cases j <;> simp [rotmatAboutF, Affine.rotmatAbout, diffOfProducts, sumOfProducts, Duals.diffOfProducts_eq, Duals.sumOfProducts_eq] <;> ring

/-- A quarter turn about the parallel to the `z` axis through (3, 1, 0) takes (4, 1, 2) to (3, 2, 2). -/
example : let M := rotmatAboutF (nearest 24 : ℚ → ℚ) ![0, 0, 1] ![3, 1, 0] 0 1
    carry M ![3, 1, 0] 0 = 3 ∧ carry M ![3, 1, 0] 1 = 1 ∧ carry M ![4, 1, 2] 0 = 3 ∧ carry M ![4, 1, 2] 1 = 2 ∧ carry M ![4, 1, 2] 2 = 2 := by decide +kernel

end Geomc.Flt
