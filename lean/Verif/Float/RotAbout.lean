import Verif.Float.RotUse

/-! # Property C133: rotations about a point, with their inverses, in floating point -/

namespace Geomc.Flt

variable {K : Type} [Field K] [LinearOrder K] [IsStrictOrderedRing K] [FloorRing K] {p : ℕ} {rnd : K → K} {k ctr : Fin 3 → K} {c s : K}

/-- How large the terms of an element of the linear part are. -/
def linSize (k : Fin 3 → K) (c s : K) (i j : Fin 3) : K :=
  if i = j then k i ^ 2 + |c| * (∑ l, k l ^ 2 - k i ^ 2) else |k i| * |k j| * |1 - c| + |turn (fun l => s * k l) 0 i j|

omit [FloorRing K] in
theorem fit {a a' b b' w w' : K} (h : |a - b| ≤ w) (h1 : a' = a) (h2 : b' = b) (h3 : w' = w) : |a' - b'| ≤ w' := by
  rw [h1, h2, h3]
  exact h

/-- **C133.** The elements of the linear parts of a rotation about a point and of the inverse built beside it. -/
theorem C133_both_element (hp : 1 ≤ p) (h : IsRound p rnd) (k ctr : Fin 3 → K) (c s : K) (i j : Fin 3) :
    |(rotmatBothF rnd k ctr c s).1 i j.castSucc - aboutLin k c s i j| ≤ ((1 + eps K p) ^ 5 - 1) * linSize k c s i j ∧
    |(rotmatBothF rnd k ctr c s).2 i j.castSucc - aboutLin k c (-s) i j| ≤ ((1 + eps K p) ^ 5 - 1) * linSize k c s i j := by
  have D := fun x y z => both_diag (rnd := rnd) hp h x y z c
  have D' : ∀ x y z : K, |rnd (rnd (rnd (x * x) + rnd (c * rnd (rnd (y * y) + rnd (z * z)))) - 0) - (x ^ 2 + c * (y ^ 2 + z ^ 2))| ≤
      ((1 + eps K p) ^ 5 - 1) * (x ^ 2 + |c| * (y ^ 2 + z ^ 2)) := fun x y z => by
    have := D x y z
    rw [add_zero] at this
    rw [sub_zero]
    exact this
  have O := fun a b d => both_off (rnd := rnd) hp h a b c d s
  fin_cases i <;> fin_cases j <;> constructor
  · exact fit (D (k 0) (k 1) (k 2)) rfl (by simp [-mul_eq_mul_left_iff, aboutLin, turn, Fin.sum_univ_three]; ring) (by simp [-mul_eq_mul_left_iff, linSize, turn, Fin.sum_univ_three, abs_mul]; try ring)
  · exact fit (D' (k 0) (k 1) (k 2)) rfl (by simp [-mul_eq_mul_left_iff, aboutLin, turn, Fin.sum_univ_three]; ring) (by simp [-mul_eq_mul_left_iff, linSize, turn, Fin.sum_univ_three, abs_mul]; try ring)
  · exact fit (O (k 0) (k 1) (-k 2)).1 rfl (by simp [-mul_eq_mul_left_iff, aboutLin, turn, Fin.sum_univ_three]; ring) (by simp [-mul_eq_mul_left_iff, linSize, turn, Fin.sum_univ_three, abs_mul]; try ring)
  · exact fit (O (k 0) (k 1) (-k 2)).2 rfl (by simp [-mul_eq_mul_left_iff, aboutLin, turn, Fin.sum_univ_three]; ring) (by simp [-mul_eq_mul_left_iff, linSize, turn, Fin.sum_univ_three, abs_mul]; try ring)
  · exact fit (O (k 0) (k 2) (k 1)).1 rfl (by simp [-mul_eq_mul_left_iff, aboutLin, turn, Fin.sum_univ_three]; ring) (by simp [-mul_eq_mul_left_iff, linSize, turn, Fin.sum_univ_three, abs_mul]; try ring)
  · exact fit (O (k 0) (k 2) (k 1)).2 rfl (by simp [-mul_eq_mul_left_iff, aboutLin, turn, Fin.sum_univ_three]; ring) (by simp [-mul_eq_mul_left_iff, linSize, turn, Fin.sum_univ_three, abs_mul]; try ring)
  · exact fit (O (k 0) (k 1) (k 2)).1 rfl (by simp [-mul_eq_mul_left_iff, aboutLin, turn, Fin.sum_univ_three]; ring) (by simp [-mul_eq_mul_left_iff, linSize, turn, Fin.sum_univ_three, abs_mul]; try ring)
  · exact fit (O (k 0) (k 1) (k 2)).2 rfl (by simp [-mul_eq_mul_left_iff, aboutLin, turn, Fin.sum_univ_three]; ring) (by simp [-mul_eq_mul_left_iff, linSize, turn, Fin.sum_univ_three, abs_mul]; try ring)
  · exact fit (D (k 1) (k 0) (k 2)) rfl (by simp [-mul_eq_mul_left_iff, aboutLin, turn, Fin.sum_univ_three]; ring) (by simp [-mul_eq_mul_left_iff, linSize, turn, Fin.sum_univ_three, abs_mul]; try ring)
  · exact fit (D' (k 1) (k 0) (k 2)) rfl (by simp [-mul_eq_mul_left_iff, aboutLin, turn, Fin.sum_univ_three]; ring) (by simp [-mul_eq_mul_left_iff, linSize, turn, Fin.sum_univ_three, abs_mul]; try ring)
  · exact fit (O (k 1) (k 2) (-k 0)).1 rfl (by simp [-mul_eq_mul_left_iff, aboutLin, turn, Fin.sum_univ_three]; ring) (by simp [-mul_eq_mul_left_iff, linSize, turn, Fin.sum_univ_three, abs_mul]; try ring)
  · exact fit (O (k 1) (k 2) (-k 0)).2 rfl (by simp [-mul_eq_mul_left_iff, aboutLin, turn, Fin.sum_univ_three]; ring) (by simp [-mul_eq_mul_left_iff, linSize, turn, Fin.sum_univ_three, abs_mul]; try ring)
  · exact fit (O (k 0) (k 2) (-k 1)).1 rfl (by simp [-mul_eq_mul_left_iff, aboutLin, turn, Fin.sum_univ_three]; ring) (by simp [-mul_eq_mul_left_iff, linSize, turn, Fin.sum_univ_three, abs_mul]; try ring)
  · exact fit (O (k 0) (k 2) (-k 1)).2 rfl (by simp [-mul_eq_mul_left_iff, aboutLin, turn, Fin.sum_univ_three]; ring) (by simp [-mul_eq_mul_left_iff, linSize, turn, Fin.sum_univ_three, abs_mul]; try ring)
  · exact fit (O (k 1) (k 2) (k 0)).1 rfl (by simp [-mul_eq_mul_left_iff, aboutLin, turn, Fin.sum_univ_three]; ring) (by simp [-mul_eq_mul_left_iff, linSize, turn, Fin.sum_univ_three, abs_mul]; try ring)
  · exact fit (O (k 1) (k 2) (k 0)).2 rfl (by simp [-mul_eq_mul_left_iff, aboutLin, turn, Fin.sum_univ_three]; ring) (by simp [-mul_eq_mul_left_iff, linSize, turn, Fin.sum_univ_three, abs_mul]; try ring)
  · exact fit (D (k 2) (k 0) (k 1)) rfl (by simp [-mul_eq_mul_left_iff, aboutLin, turn, Fin.sum_univ_three]; ring) (by simp [-mul_eq_mul_left_iff, linSize, turn, Fin.sum_univ_three, abs_mul]; try ring)
  · exact fit (D' (k 2) (k 0) (k 1)) rfl (by simp [-mul_eq_mul_left_iff, aboutLin, turn, Fin.sum_univ_three]; ring) (by simp [-mul_eq_mul_left_iff, linSize, turn, Fin.sum_univ_three, abs_mul]; try ring)

omit [FloorRing K] [LinearOrder K] [IsStrictOrderedRing K] in
theorem shift_eq (k ctr : Fin 3 → K) (c s : K) :
    aboutShift k ctr c s 0 = (ctr 0 * (k 1 ^ 2 + k 2 ^ 2) - k 0 * (ctr 1 * k 1 + ctr 2 * k 2)) * (1 - c) + (ctr 1 * k 2 - ctr 2 * k 1) * s ∧
    aboutShift k ctr c s 1 = (ctr 1 * (k 0 ^ 2 + k 2 ^ 2) - k 1 * (ctr 0 * k 0 + ctr 2 * k 2)) * (1 - c) + (ctr 2 * k 0 - ctr 0 * k 2) * s ∧
    aboutShift k ctr c s 2 = (ctr 2 * (k 0 ^ 2 + k 1 ^ 2) - k 2 * (ctr 0 * k 0 + ctr 1 * k 1)) * (1 - c) + (ctr 0 * k 1 - ctr 1 * k 0) * s := by
  refine ⟨?_, ?_, ?_⟩ <;> simp [aboutShift, aboutLin, turn, Fin.sum_univ_three] <;> ring

omit [FloorRing K] in
theorem pow_seven_le {e : K} (e0 : 0 < e) (e1 : e ≤ 1 / 1024) : (1 + e) ^ 7 - 1 ≤ 71 / 10 * e := by
  have h4 : (1 + e) ^ 4 ≤ 1 + 401 / 100 * e := by
    have e2 : e ^ 2 ≤ e / 1024 := by nlinarith
    have e3 : e ^ 3 ≤ e / 1024 / 1024 := by nlinarith
    have e4 : e ^ 4 ≤ e / 1024 / 1024 := by nlinarith [pow_pos e0 3]
    have : (1 + e) ^ 4 = 1 + 4 * e + 6 * e ^ 2 + 4 * e ^ 3 + e ^ 4 := by ring
    linarith
  have h3 : (1 + e) ^ 3 ≤ 1 + 301 / 100 * e := by
    have e2 : e ^ 2 ≤ e / 1024 := by nlinarith
    have e3 : e ^ 3 ≤ e / 1024 / 1024 := by nlinarith
    have : (1 + e) ^ 3 = 1 + 3 * e + 3 * e ^ 2 + e ^ 3 := by ring
    linarith
  have : (1 + e) ^ 7 = (1 + e) ^ 4 * (1 + e) ^ 3 := by ring
  rw [this]
  have := mul_le_mul h4 h3 (by positivity) (by positivity)
  nlinarith

/-- The translations of the two. -/
theorem both_shift_bound (hp : 10 ≤ p) (h : IsRound p rnd) (hk : |∑ l, k l ^ 2 - 1| ≤ 8 * eps K p) (hcs : |c ^ 2 + s ^ 2 - 1| ≤ 8 * eps K p) (ctr : Fin 3 → K) (i : Fin 3) :
    |(rotmatBothF rnd k ctr c s).1 i 3 - aboutShift k ctr c s i| ≤ 23 * eps K p * ∑ r, |ctr r| ∧
    |(rotmatBothF rnd k ctr c s).2 i 3 - aboutShift k ctr c (-s) i| ≤ 23 * eps K p * ∑ r, |ctr r| := by
  have e0 := eps_pos (K := K) p
  have e1 := eps_small (K := K) hp
  have g : 0 ≤ (1 + eps K p) ^ 7 - 1 := sub_nonneg.2 (one_le_pow₀ (by linarith))
  have P : 0 ≤ ∑ r, |ctr r| := Finset.sum_nonneg fun _ _ => abs_nonneg _
  have Z := fun i j l h1 h2 h3 => shift_size (ctr := ctr) e0 e1 hk hcs i j l h1 h2 h3
  have F : ((1 + eps K p) ^ 7 - 1) * (31 / 10 * ∑ r, |ctr r|) ≤ 23 * eps K p * ∑ r, |ctr r| := by
    have := mul_le_mul_of_nonneg_right (pow_seven_le e0 e1) (show 0 ≤ 31 / 10 * ∑ r, |ctr r| by positivity)
    nlinarith [mul_nonneg e0.le P]
  obtain ⟨A0, A1, A2⟩ := shift_eq k ctr c s
  obtain ⟨N0, N1, N2⟩ := shift_eq k ctr c (-s)
  have X := both_shift (rnd := rnd) (show 1 ≤ p by omega) h
  have z0 := mul_le_mul_of_nonneg_left (Z 0 1 2 (by decide) (by decide) (by decide)) g
  have z1 := mul_le_mul_of_nonneg_left (Z 1 0 2 (by decide) (by decide) (by decide)) g
  have z2 := mul_le_mul_of_nonneg_left (Z 2 0 1 (by decide) (by decide) (by decide)) g
  have x0 := X (k 0) (k 1) (k 2) (ctr 0) (ctr 1) (ctr 2) c (ctr 1) (k 2) (ctr 2) (k 1) s
  have x1 := X (k 1) (k 0) (k 2) (ctr 1) (ctr 0) (ctr 2) c (ctr 2) (k 0) (ctr 0) (k 2) s
  have x2 := X (k 2) (k 0) (k 1) (ctr 2) (ctr 0) (ctr 1) c (ctr 0) (k 1) (ctr 1) (k 0) s
  rw [add_comm |ctr 0 * k 2|] at z1
  fin_cases i <;> constructor
  · exact (fit x0.1 rfl A0 rfl).trans (z0.trans F)
  · exact (fit x0.2 rfl (N0.trans (by ring)) rfl).trans (z0.trans F)
  · exact (fit x1.1 rfl A1 rfl).trans (z1.trans F)
  · exact (fit x1.2 rfl (N1.trans (by ring)) rfl).trans (z1.trans F)
  · exact (fit x2.1 rfl A2 rfl).trans (z2.trans F)
  · exact (fit x2.2 rfl (N2.trans (by ring)) rfl).trans (z2.trans F)

omit [FloorRing K] in
theorem lin_size_le {e : K} (e0 : 0 < e) (e1 : e ≤ 1 / 1024) (hk : |∑ l, k l ^ 2 - 1| ≤ 8 * e) (hcs : |c ^ 2 + s ^ 2 - 1| ≤ 8 * e) (i j : Fin 3) :
    linSize k c s i j ≤ 31 / 10 := by
  obtain ⟨hc, hs, -, -⟩ := angle_size e0 e1 hcs
  have hk1 : ∑ l, k l ^ 2 ≤ 101 / 100 := by linarith [(abs_le.1 hk).2]
  have hkk : ∀ i j, |k i| * |k j| ≤ 101 / 100 := fun i j => by
    rw [← abs_mul]
    exact (abs_mul_le_sq k i j).trans hk1
  have hkl : ∀ l, |k l| ≤ 101 / 100 := fun l => by
    refine abs_le_of_sq_le_sq' ?_ (by norm_num) |> abs_le.2
    have := hkk l l
    rw [abs_mul_abs_self] at this
    norm_num
    nlinarith
  have hc1 : |1 - c| ≤ 201 / 100 := by
    have := abs_sub 1 c
    rw [abs_one] at this
    linarith
  rw [linSize]
  split_ifs
  · have a1 := Finset.single_le_sum (f := fun l => k l ^ 2) (fun l _ => sq_nonneg _) (Finset.mem_univ i)
    have a2 : k i ^ 2 ≤ ∑ l, k l ^ 2 := a1
    have a3 := mul_le_mul hc (show ∑ l, k l ^ 2 - k i ^ 2 ≤ 101 / 100 by linarith [sq_nonneg (k i)]) (by linarith) (by norm_num)
    linarith
  · have hsk : ∀ l, |s * k l| ≤ 1021 / 1000 := fun l => by
      rw [abs_mul]
      calc |s| * |k l| ≤ 101 / 100 * (101 / 100) := mul_le_mul hs (hkl l) (abs_nonneg _) (by norm_num)
        _ ≤ _ := by norm_num
    have t2 : |turn (fun l => s * k l) 0 i j| ≤ 1021 / 1000 :=
      turn_cases (fun _ _ x _ => |x| ≤ 1021 / 1000) (fun l => s * k l) (fun l => s * k l) 0 0 (fun _ _ => by norm_num) (fun _ _ l => hsk l)
        (fun _ _ l => by rw [abs_neg]; exact hsk l) i j
    have t1 := mul_le_mul (hkk i j) hc1 (abs_nonneg _) (by norm_num)
    linarith

/-- The linear parts of the two. -/
theorem both_lin_bound (hp : 10 ≤ p) (h : IsRound p rnd) (hk : |∑ l, k l ^ 2 - 1| ≤ 8 * eps K p) (hcs : |c ^ 2 + s ^ 2 - 1| ≤ 8 * eps K p) (ctr : Fin 3 → K) (i j : Fin 3) :
    |(rotmatBothF rnd k ctr c s).1 i j.castSucc - aboutLin k c s i j| ≤ 16 * eps K p ∧ |(rotmatBothF rnd k ctr c s).2 i j.castSucc - aboutLin k c (-s) i j| ≤ 16 * eps K p := by
  have e0 := eps_pos (K := K) p
  have e1 := eps_small (K := K) hp
  have h5 : (1 + eps K p) ^ 5 - 1 ≤ 51 / 10 * eps K p := by
    have h4 := pow_four_le e0 e1
    have : (1 + eps K p) ^ 5 = (1 + eps K p) ^ 4 * (1 + eps K p) := by ring
    have h6 := mul_le_mul_of_nonneg_right (show (1 + eps K p) ^ 4 ≤ 1 + 405 / 100 * eps K p by
      have e2 : eps K p ^ 2 ≤ eps K p / 1024 := by nlinarith
      have e3 : eps K p ^ 3 ≤ eps K p / 1024 / 1024 := by nlinarith
      have e4 : eps K p ^ 4 ≤ eps K p / 1024 / 1024 := by nlinarith [pow_pos e0 3]
      have : (1 + eps K p) ^ 4 = 1 + 4 * eps K p + 6 * eps K p ^ 2 + 4 * eps K p ^ 3 + eps K p ^ 4 := by ring
      linarith) (show 0 ≤ 1 + eps K p by linarith)
    nlinarith
  have F : ((1 + eps K p) ^ 5 - 1) * linSize k c s i j ≤ 16 * eps K p := by
    have g : 0 ≤ (1 + eps K p) ^ 5 - 1 := sub_nonneg.2 (one_le_pow₀ (by linarith))
    have a1 := mul_le_mul_of_nonneg_left (lin_size_le e0 e1 hk hcs i j) g
    linarith
  obtain ⟨h1, h2⟩ := C133_both_element (rnd := rnd) (show 1 ≤ p by omega) h k ctr c s i j
  exact ⟨h1.trans F, h2.trans F⟩

omit [FloorRing K] in
theorem lin_axis {e : K} (e0 : 0 < e) (e1 : e ≤ 1 / 1024) (hk : |∑ l, k l ^ 2 - 1| ≤ 8 * e) (hcs : |c ^ 2 + s ^ 2 - 1| ≤ 8 * e) (s' : K) (i j : Fin 3) :
    |aboutLin k c s' i j - axisExact k c s' i j| ≤ 9 * e := by
  obtain ⟨hc, -, -, -⟩ := angle_size e0 e1 hcs
  rw [aboutLin, axisExact, add_sub_add_left_eq_sub]
  refine turn_cases (fun _ _ x y => |x - y| ≤ 9 * e) (fun l => s' * k l) (fun l => s' * k l) _ _ (fun _ _ => ?_) (fun _ _ l => ?_) (fun _ _ l => ?_) i j
  · rw [← mul_sub_one, abs_mul]
    have := mul_le_mul hc hk (abs_nonneg _) (by norm_num)
    linarith
  · rw [sub_self, abs_zero]
    linarith
  · rw [sub_self, abs_zero]
    linarith

end Geomc.Flt
