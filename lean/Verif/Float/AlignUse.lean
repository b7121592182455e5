import Verif.Float.Align

/-! # Property C132: what the matrix aligning two directions does -/

namespace Geomc.Flt

variable {K : Type} [Field K] [LinearOrder K] [IsStrictOrderedRing K] [FloorRing K] {p : ℕ} {rnd : K → K} {dir tgt : Fin 3 → K}

omit [LinearOrder K] [IsStrictOrderedRing K] [FloorRing K] in
/-- The columns of the exact matrix: orthonormal if the directions have length one. -/
theorem exact_columns (hw : 1 + ∑ i, dir i * tgt i ≠ 0) (i j : Fin 3) :
    ∑ r, alignExact dir tgt r i * alignExact dir tgt r j = (if i = j then 1 else 0) +
      ((∑ l, dir l ^ 2) * (∑ l, tgt l ^ 2) - 1) * ((if i = j then 1 else 0) +
        exactCross dir tgt i * exactCross dir tgt j / (1 + ∑ i, dir i * tgt i) / (1 + ∑ i, dir i * tgt i)) := by
  have key : ∀ (q : Fin 3 → K) (c w : K), w = 1 + c → w ≠ 0 →
      ∑ r, (q r * q i / w + turn q c r i) * (q r * q j / w + turn q c r j) = (if i = j then 1 else 0) +
        ((∑ l, q l ^ 2) + c ^ 2 - 1) * ((if i = j then 1 else 0) + q i * q j / w / w) := by
    intro q c w hw h0
    obtain rfl : c = w - 1 := by rw [hw]; ring
    fin_cases i <;> fin_cases j <;>
      simp [Fin.sum_univ_three, turn] <;> field_simp <;> ring
  have h := key (exactCross dir tgt) (∑ i, dir i * tgt i) _ rfl hw
  have hs : ∑ l, exactCross dir tgt l ^ 2 = (∑ i, dir i ^ 2) * (∑ i, tgt i ^ 2) - (∑ i, dir i * tgt i) ^ 2 := by
    simp only [Fin.sum_univ_three, exactCross, Matrix.cons_val_zero, Matrix.cons_val_one, Matrix.cons_val]
    ring
  rw [hs, show ∀ a b : K, a - b + b - 1 = a - 1 by intros; ring] at h
  exact h

omit [LinearOrder K] [IsStrictOrderedRing K] [FloorRing K] in
theorem exact_det (hw : 1 + ∑ i, dir i * tgt i ≠ 0) :
    (Matrix.of (alignExact dir tgt)).det = (∑ l, dir l ^ 2) * (∑ l, tgt l ^ 2) *
      (1 + ((∑ l, dir l ^ 2) * (∑ l, tgt l ^ 2) - 1) / (1 + ∑ i, dir i * tgt i)) := by
  have key : ∀ (q : Fin 3 → K) (c w : K), w = 1 + c → w ≠ 0 →
      (Matrix.of fun i j => q i * q j / w + turn q c i j).det = ((∑ l, q l ^ 2) + c ^ 2) * (1 + ((∑ l, q l ^ 2) + c ^ 2 - 1) / w) := by
    intro q c w hw h0
    obtain rfl : c = w - 1 := by rw [hw]; ring
    rw [Matrix.det_fin_three]
    simp [Fin.sum_univ_three, turn]
    field_simp
    ring
  have h := key (exactCross dir tgt) (∑ i, dir i * tgt i) _ rfl hw
  have hs : ∑ l, exactCross dir tgt l ^ 2 = (∑ i, dir i ^ 2) * (∑ i, tgt i ^ 2) - (∑ i, dir i * tgt i) ^ 2 := by
    simp only [Fin.sum_univ_three, exactCross, Matrix.cons_val_zero, Matrix.cons_val_one, Matrix.cons_val]
    ring
  rw [hs, sub_add_cancel] at h
  exact h

omit [FloorRing K] in
theorem sum_abs_le_two {d : Fin 3 → K} {e : K} (e1 : e ≤ 1 / 1024) (h : ∑ i, d i ^ 2 ≤ 1 + 8 * e) : ∑ i, |d i| ≤ 2 := by
  have : ∑ i, |d i| ≤ ∑ i : Fin 3, (d i ^ 2 + 1 / 4) := Finset.sum_le_sum fun i _ => by
    rw [← sq_abs]
    nlinarith [sq_nonneg (|d i| - 1 / 2)]
  rw [Finset.sum_add_distrib] at this
  simp at this
  linarith

/-- **C132.** The matrix takes the first direction to the second (times the squared length of the first, that is, up to
rounding), and its transpose, which `direction_align` stores as the inverse, takes the second to the first. -/
theorem C132_aligns (hp : 10 ≤ p) (h : IsRound p rnd) (hd : ∀ i, IsFloat p (dir i)) (ht : ∀ i, IsFloat p (tgt i))
    (ud : ∑ i, dir i ^ 2 ≤ 1 + 8 * eps K p) (ut : ∑ i, tgt i ^ 2 ≤ 1 + 8 * eps K p) (hw : 64 * eps K p ≤ 1 + ∑ i, dir i * tgt i)
    (h1 : dot rnd dir tgt ≠ 1) :
    ∃ M, rotmatAlignF rnd dir tgt = some M ∧ ∀ i : Fin 3,
      |∑ j : Fin 3, M i.castSucc j.castSucc * dir j - (∑ j, dir j ^ 2) * tgt i| ≤ (128 + 96 / (1 + ∑ i, dir i * tgt i)) * eps K p ∧
      |∑ j : Fin 3, M j.castSucc i.castSucc * tgt j - (∑ j, tgt j ^ 2) * dir i| ≤ (128 + 96 / (1 + ∑ i, dir i * tgt i)) * eps K p := by
  have e0 := eps_pos (K := K) p
  have e1 := eps_small (K := K) hp
  obtain ⟨M, hM, hel, -⟩ := C132_element hp h hd ht ud ut hw h1
  have w0 : 1 + ∑ i, dir i * tgt i ≠ 0 := by
    intro e
    rw [e] at hw
    linarith
  have key : ∀ (A R : Fin 3 → K) (x : Fin 3 → K) (B : K), ∑ j, |x j| ≤ 2 → 0 ≤ B → (∀ j, |A j - R j| ≤ B) → |∑ j, A j * x j - ∑ j, R j * x j| ≤ 2 * B := by
    intro A R x B hx hB hA
    rw [← Finset.sum_sub_distrib]
    refine (Finset.abs_sum_le_sum_abs _ _).trans ?_
    calc ∑ j, |A j * x j - R j * x j| ≤ ∑ j, B * |x j| := Finset.sum_le_sum fun j _ => by
          rw [← sub_mul, abs_mul]
          exact mul_le_mul_of_nonneg_right (hA j) (abs_nonneg _)
      _ = B * ∑ j, |x j| := by rw [Finset.mul_sum]
      _ ≤ B * 2 := mul_le_mul_of_nonneg_left hx hB
      _ = 2 * B := by ring
  have B0 : 0 ≤ (64 + 48 / (1 + ∑ i, dir i * tgt i)) * eps K p := (abs_nonneg _).trans (hel 0 0)
  have e2 : (128 + 96 / (1 + ∑ i, dir i * tgt i)) * eps K p = 2 * ((64 + 48 / (1 + ∑ i, dir i * tgt i)) * eps K p) := by ring
  refine ⟨M, hM, fun i => ⟨?_, ?_⟩⟩
  · rw [← (exact_apply w0 i).1, e2]
    exact key (fun j => M i.castSucc j.castSucc) (fun j => alignExact dir tgt i j) dir _ (sum_abs_le_two e1 ud) B0 fun j => hel i j
  · rw [← (exact_apply w0 i).2, e2]
    exact key (fun j => M j.castSucc i.castSucc) (fun j => alignExact dir tgt j i) tgt _ (sum_abs_le_two e1 ut) B0 fun j => hel j i

/-- **C132.** `align` takes the first direction to the second, however close the two are. -/
theorem C132_vector_aligns (hp : 10 ≤ p) (h : IsRound p rnd) (hd : ∀ i, IsFloat p (dir i)) (ht : ∀ i, IsFloat p (tgt i))
    (ud : ∑ i, dir i ^ 2 ≤ 1 + 8 * eps K p) (ut : ∑ i, tgt i ^ 2 ≤ 1 + 8 * eps K p) (hw : 64 * eps K p ≤ 1 + ∑ i, dir i * tgt i) :
    ∃ r, alignF rnd dir tgt dir = some r ∧ ∀ i, |r i - (∑ j, dir j ^ 2) * tgt i| ≤ (160 + 96 / (1 + ∑ i, dir i * tgt i)) * eps K p := by
  have e0 := eps_pos (K := K) p
  have w0 : 0 < 1 + ∑ i, dir i * tgt i := by linarith
  obtain ⟨r, hr, hi⟩ := C132_vector hp h hd ht ud ut hw dir
  refine ⟨r, hr, fun i => ?_⟩
  have := hi i
  rw [(exact_apply w0.ne' i).1] at this
  refine this.trans ?_
  have h2 := mul_le_mul_of_nonneg_left (sum_abs_le_two (eps_small hp) ud) (show 0 ≤ (80 + 48 / (1 + ∑ i, dir i * tgt i)) * eps K p by positivity)
  refine h2.trans (le_of_eq ?_)
  ring

/-- How far the squared lengths take the exact matrix from a rotation. -/
theorem exact_near (hp : 10 ≤ p) (ud : |∑ i, dir i ^ 2 - 1| ≤ 8 * eps K p) (ut : |∑ i, tgt i ^ 2 - 1| ≤ 8 * eps K p)
    (hw : 64 * eps K p ≤ 1 + ∑ i, dir i * tgt i) :
    |(∑ l, dir l ^ 2) * (∑ l, tgt l ^ 2) - 1| ≤ 17 * eps K p ∧
    (∀ i j, |∑ r, alignExact dir tgt r i * alignExact dir tgt r j - if i = j then 1 else 0| ≤ (17 + 51 / (1 + ∑ i, dir i * tgt i)) * eps K p) ∧
    ∀ i j, |alignExact dir tgt i j| ≤ 3 / 2 := by
  have e0 := eps_pos (K := K) p
  have e1 := eps_small (K := K) hp
  have e2 : eps K p ^ 2 ≤ eps K p / 1024 := by nlinarith
  obtain ⟨d1, d2⟩ := abs_le.1 ud
  obtain ⟨t1, t2⟩ := abs_le.1 ut
  have hη : |(∑ l, dir l ^ 2) * (∑ l, tgt l ^ 2) - 1| ≤ 17 * eps K p := by
    generalize ∑ l, dir l ^ 2 = x at *
    generalize ∑ l, tgt l ^ 2 = y at *
    rw [show x * y - 1 = (x - 1) * (y - 1) + ((x - 1) + (y - 1)) by ring]
    have h3 : |(x - 1) * (y - 1)| ≤ 8 * eps K p * (8 * eps K p) := by
      rw [abs_mul]
      exact mul_le_mul ud ut (abs_nonneg _) (by linarith)
    have h4 := abs_add_le (x - 1) (y - 1)
    refine (abs_add_le _ _).trans ?_
    have h5 : 8 * eps K p * (8 * eps K p) = 64 * eps K p ^ 2 := by ring
    linarith
  have w1 : 0 < 1 + ∑ i, dir i * tgt i := by linarith
  have hq : ∀ i j, |exactCross dir tgt i * exactCross dir tgt j / (1 + ∑ i, dir i * tgt i)| ≤ 3 := fun i j => by
    have := abs_mul_le_sq (exactCross dir tgt) i j
    rw [cross_sq] at this
    rw [abs_div, abs_of_pos w1, div_le_iff₀ w1]
    refine this.trans ?_
    have h6 := (abs_le.1 hη).2
    generalize ∑ i, dir i * tgt i = c at *
    have h7 : 0 ≤ (1 + c) ^ 2 := sq_nonneg _
    have h8 : (1 + c) ^ 2 = 1 + 2 * c + c ^ 2 := by ring
    linarith
  have hcol : ∀ i j, |∑ r, alignExact dir tgt r i * alignExact dir tgt r j - if i = j then 1 else 0| ≤ (17 + 51 / (1 + ∑ i, dir i * tgt i)) * eps K p := fun i j => by
    rw [exact_columns w1.ne', add_sub_cancel_left, abs_mul]
    have h3 : |(if i = j then 1 else 0) + exactCross dir tgt i * exactCross dir tgt j / (1 + ∑ i, dir i * tgt i) / (1 + ∑ i, dir i * tgt i)| ≤
        1 + 3 / (1 + ∑ i, dir i * tgt i) := by
      refine (abs_add_le _ _).trans (add_le_add ?_ ?_)
      · split_ifs <;> simp
      · rw [abs_div _ (1 + _), abs_of_pos w1]
        exact div_le_div_of_nonneg_right (hq i j) w1.le
    calc _ ≤ 17 * eps K p * (1 + 3 / (1 + ∑ i, dir i * tgt i)) := mul_le_mul hη h3 (abs_nonneg _) (by linarith)
      _ = _ := by ring
  refine ⟨hη, hcol, fun i j => ?_⟩
  have h3 := (abs_le.1 (hcol j j)).2
  rw [if_pos rfl] at h3
  have h4 : (17 + 51 / (1 + ∑ i, dir i * tgt i)) * eps K p ≤ 1 := by
    have : 51 / (1 + ∑ i, dir i * tgt i) * eps K p ≤ 51 / 64 := by
      rw [div_mul_eq_mul_div, div_le_iff₀ w1]
      linarith
    rw [add_mul]
    linarith
  have h5 := Finset.single_le_sum (f := fun r => alignExact dir tgt r j * alignExact dir tgt r j) (fun l _ => mul_self_nonneg _) (Finset.mem_univ i)
  have h6 : alignExact dir tgt i j * alignExact dir tgt i j ≤ 2 := by
    exact h5.trans (by linarith)
  refine abs_le_of_sq_le_sq' ?_ (by norm_num) |> abs_le.2
  rw [pow_two]
  linarith

/-- **C132.** The columns of the matrix are orthonormal up to `(800 + 640 / (1 + cos)) ε`. -/
theorem C132_orthonormal (hp : 10 ≤ p) (h : IsRound p rnd) (hd : ∀ i, IsFloat p (dir i)) (ht : ∀ i, IsFloat p (tgt i))
    (ud : |∑ i, dir i ^ 2 - 1| ≤ 8 * eps K p) (ut : |∑ i, tgt i ^ 2 - 1| ≤ 8 * eps K p) (hw : 64 * eps K p ≤ 1 + ∑ i, dir i * tgt i)
    (h1 : dot rnd dir tgt ≠ 1) :
    ∃ M, rotmatAlignF rnd dir tgt = some M ∧ ∀ i j : Fin 3,
      |∑ r : Fin 3, M r.castSucc i.castSucc * M r.castSucc j.castSucc - if i = j then 1 else 0| ≤ (800 + 640 / (1 + ∑ i, dir i * tgt i)) * eps K p := by
  have e0 := eps_pos (K := K) p
  have e1 := eps_small (K := K) hp
  obtain ⟨-, hcol, hR⟩ := exact_near hp ud ut hw
  obtain ⟨M, hM, hel, -⟩ := C132_element hp h hd ht (by linarith [(abs_le.1 ud).2]) (by linarith [(abs_le.1 ut).2]) hw h1
  refine ⟨M, hM, fun i j => ?_⟩
  have w1 : 0 < 1 + ∑ i, dir i * tgt i := by linarith
  have hc := hcol i j
  generalize 1 + ∑ i, dir i * tgt i = w at *
  have B1 : (64 + 48 / w) * eps K p ≤ 1 := by
    have : 48 / w * eps K p ≤ 48 / 64 := by
      rw [div_mul_eq_mul_div, div_le_iff₀ w1]
      linarith
    rw [add_mul]
    linarith
  have B0 : 0 ≤ (64 + 48 / w) * eps K p := by positivity
  have s : |∑ r : Fin 3, M r.castSucc i.castSucc * M r.castSucc j.castSucc - ∑ r, alignExact dir tgt r i * alignExact dir tgt r j| ≤ 12 * ((64 + 48 / w) * eps K p) := by
    generalize (64 + 48 / w) * eps K p = B at *
    rw [← Finset.sum_sub_distrib]
    refine (Finset.abs_sum_le_sum_abs _ _).trans ?_
    calc _ ≤ ∑ _ : Fin 3, 4 * B := Finset.sum_le_sum fun r _ => by
          have h2 := hel r i
          have h3 := hel r j
          have h4 := hR r i
          have h5 := hR r j
          generalize M r.castSucc i.castSucc = x' at *
          generalize M r.castSucc j.castSucc = y' at *
          generalize alignExact dir tgt r i = x at *
          generalize alignExact dir tgt r j = y at *
          rw [show x' * y' - x * y = (x' - x) * (y' - y) + (x' - x) * y + x * (y' - y) by ring]
          have a1 : |(x' - x) * (y' - y)| ≤ B * 1 := by
            rw [abs_mul]
            exact mul_le_mul h2 (h3.trans B1) (abs_nonneg _) B0
          have a2 : |(x' - x) * y| ≤ B * (3 / 2) := by
            rw [abs_mul]
            exact mul_le_mul h2 h5 (abs_nonneg _) B0
          have a3 : |x * (y' - y)| ≤ 3 / 2 * B := by
            rw [abs_mul]
            exact mul_le_mul h4 h3 (abs_nonneg _) (by norm_num)
          have a4 := abs_add_le ((x' - x) * (y' - y) + (x' - x) * y) (x * (y' - y))
          have a5 := abs_add_le ((x' - x) * (y' - y)) ((x' - x) * y)
          linarith
      _ = 12 * B := by simp; ring
  have t := abs_sub_le (∑ r : Fin 3, M r.castSucc i.castSucc * M r.castSucc j.castSucc) (∑ r, alignExact dir tgt r i * alignExact dir tgt r j) (if i = j then 1 else 0)
  have e3 : (800 + 640 / w) * eps K p = 12 * ((64 + 48 / w) * eps K p) + (17 + 51 / w) * eps K p + (15 + 13 / w) * eps K p := by ring
  have e4 : 0 ≤ (15 + 13 / w) * eps K p := by positivity
  linarith

omit [FloorRing K] in
theorem triple_near {x y z x' y' z' B : K} (B0 : 0 ≤ B) (B1 : B ≤ 1 / 200) (hx : |x' - x| ≤ B) (hy : |y' - y| ≤ B) (hz : |z' - z| ≤ B) (x1 : |x| ≤ 3 / 2)
    (y1 : |y| ≤ 3 / 2) (z1 : |z| ≤ 3 / 2) : |x' * y' * z' - x * y * z| ≤ 7 * B := by
  have hs : ∀ {a a' : K}, |a' - a| ≤ B → |a| ≤ 3 / 2 → |a'| ≤ 301 / 200 := fun {a a'} h1 h2 => by
    have := abs_sub_abs_le_abs_sub a' a
    linarith
  have hm : ∀ {a b c m n l : K}, |a| ≤ m → |b| ≤ n → |c| ≤ l → |a * b * c| ≤ m * n * l := fun {a b c m n l} h1 h2 h3 => by
    rw [abs_mul, abs_mul]
    have m0 := (abs_nonneg a).trans h1
    have n0 := (abs_nonneg b).trans h2
    exact mul_le_mul (mul_le_mul h1 h2 (abs_nonneg _) m0) h3 (abs_nonneg _) (mul_nonneg m0 n0)
  rw [show x' * y' * z' - x * y * z = (x' - x) * y' * z' + x * (y' - y) * z' + x * y * (z' - z) by ring]
  have a1 := hm hx (hs hy y1) (hs hz z1)
  have a2 := hm x1 hy (hs hz z1)
  have a3 := hm x1 y1 hz
  have a4 := abs_add_le ((x' - x) * y' * z' + x * (y' - y) * z') (x * y * (z' - z))
  have a5 := abs_add_le ((x' - x) * y' * z') (x * (y' - y) * z')
  linarith

/-- **C132.** The matrix does not reverse orientation, unless the directions are nearly opposite. -/
theorem C132_proper (hp : 10 ≤ p) (h : IsRound p rnd) (hd : ∀ i, IsFloat p (dir i)) (ht : ∀ i, IsFloat p (tgt i))
    (ud : |∑ i, dir i ^ 2 - 1| ≤ 8 * eps K p) (ut : |∑ i, tgt i ^ 2 - 1| ≤ 8 * eps K p) (hw : 64 * eps K p ≤ 1 + ∑ i, dir i * tgt i)
    (hB : (64 + 48 / (1 + ∑ i, dir i * tgt i)) * eps K p ≤ 1 / 200) (h1 : dot rnd dir tgt ≠ 1) :
    ∃ M, rotmatAlignF rnd dir tgt = some M ∧ 0 < (M.submatrix (Fin.castSucc : Fin 3 → Fin 4) Fin.castSucc).det := by
  have e0 := eps_pos (K := K) p
  have e1 := eps_small (K := K) hp
  obtain ⟨hη, -, hR⟩ := exact_near hp ud ut hw
  obtain ⟨M, hM, hel, -⟩ := C132_element hp h hd ht (by linarith [(abs_le.1 ud).2]) (by linarith [(abs_le.1 ut).2]) hw h1
  refine ⟨M, hM, ?_⟩
  have w1 : 0 < 1 + ∑ i, dir i * tgt i := by linarith
  have hdet := exact_det w1.ne'
  have pos : 1 / 2 ≤ (Matrix.of (alignExact dir tgt)).det := by
    rw [hdet]
    generalize (∑ l, dir l ^ 2) * (∑ l, tgt l ^ 2) = x at *
    obtain ⟨x1, x2⟩ := abs_le.1 hη
    have h3 : -(17 / 64) ≤ (x - 1) / (1 + ∑ i, dir i * tgt i) := by
      rw [le_div_iff₀ w1]
      linarith
    have h4 : 98 / 100 ≤ x := by linarith
    have h5 : 47 / 64 ≤ 1 + (x - 1) / (1 + ∑ i, dir i * tgt i) := by linarith
    calc (1 : K) / 2 ≤ 98 / 100 * (47 / 64) := by norm_num
      _ ≤ _ := mul_le_mul h4 h5 (by norm_num) (by linarith)
  have B0 : 0 ≤ (64 + 48 / (1 + ∑ i, dir i * tgt i)) * eps K p := (abs_nonneg _).trans (hel 0 0)
  generalize (64 + 48 / (1 + ∑ i, dir i * tgt i)) * eps K p = B at *
  have t : ∀ i j k l m n : Fin 3, |M.submatrix (Fin.castSucc : Fin 3 → Fin 4) Fin.castSucc i j * M.submatrix (Fin.castSucc : Fin 3 → Fin 4) Fin.castSucc k l *
      M.submatrix (Fin.castSucc : Fin 3 → Fin 4) Fin.castSucc m n -
      Matrix.of (alignExact dir tgt) i j * Matrix.of (alignExact dir tgt) k l * Matrix.of (alignExact dir tgt) m n| ≤ 7 * B := fun i j k l m n =>
    triple_near B0 hB (hel i j) (hel k l) (hel m n) (hR i j) (hR k l) (hR m n)
  rw [Matrix.det_fin_three] at pos ⊢
  have t1 := abs_le.1 (t 0 0 1 1 2 2)
  have t2 := abs_le.1 (t 0 0 1 2 2 1)
  have t3 := abs_le.1 (t 0 1 1 0 2 2)
  have t4 := abs_le.1 (t 0 1 1 2 2 0)
  have t5 := abs_le.1 (t 0 2 1 0 2 1)
  have t6 := abs_le.1 (t 0 2 1 1 2 0)
  linarith [t1.1, t2.2, t3.2, t4.1, t5.1, t6.2]

/-! ## Opposite directions, and directions too close -/

/-- **C132, refuted**: the case of opposite directions is recognised by an inner product of exactly -1.  For a direction and
its opposite, if their inner product `c` is rounded to anything else, the result is `c` times the identity, which reverses
orientation: a reflection through the origin, not a rotation. -/
theorem C132_opposite_refuted (hp : 3 ≤ p) (h : IsRound p rnd) (hd : ∀ i, IsFloat p (dir i)) (h0 : dir ≠ 0) (h1 : dot rnd dir (-dir) ≠ -1) :
    (|dot rnd dir (-dir)| ≠ 1) ∧
    rotmatAlignF rnd dir (-dir) = some (Matrix.diagonal ![dot rnd dir (-dir), dot rnd dir (-dir), dot rnd dir (-dir), 1]) ∧
    (Matrix.diagonal ![dot rnd dir (-dir), dot rnd dir (-dir), dot rnd dir (-dir), (1 : K)]).det < 0 := by
  have e0 := eps_pos (K := K) p
  have e1 : eps K p ≤ 1 / 8 := by
    have := zle (K := K) (show -(p : ℤ) ≤ -3 by omega)
    rw [eps]
    exact this.trans (by norm_num)
  have neg : dot rnd dir (-dir) < 0 := by
    have h2 := C104_dot (show 1 ≤ p by omega) h dir (-dir)
    have s0 : 0 < ∑ i, dir i ^ 2 := by
      obtain ⟨i, hi⟩ := Function.ne_iff.1 h0
      exact Finset.sum_pos' (fun i _ => sq_nonneg _) ⟨i, Finset.mem_univ i, by simpa using pow_pos (abs_pos.2 hi) 2⟩
    have s1 : ∑ i, dir i * (-dir) i = -∑ i, dir i ^ 2 := by
      rw [← Finset.sum_neg_distrib]
      exact Finset.sum_congr rfl fun i _ => by rw [Pi.neg_apply]; ring
    have s2 : ∑ i, |dir i * (-dir) i| = ∑ i, dir i ^ 2 :=
      Finset.sum_congr rfl fun i _ => by rw [Pi.neg_apply, mul_neg, abs_neg, abs_mul_self, pow_two]
    rw [s1, s2] at h2
    change _ ≤ ((1 + eps K p) ^ 3 - 1) * _ at h2
    have h3 : (1 + eps K p) ^ 3 - 1 ≤ 1 / 2 := by
      have := pow_le_pow_left₀ (show 0 ≤ 1 + eps K p by linarith) (show 1 + eps K p ≤ 9 / 8 by linarith) 3
      norm_num at this ⊢
      linarith
    have h4 := mul_le_mul_of_nonneg_right h3 s0.le
    have := (abs_le.1 h2).2
    linarith
  have habs : |dot rnd dir (-dir)| ≠ 1 := by
    rw [abs_of_neg neg]
    intro e
    exact h1 (by linarith)
  have fc : IsFloat p (dot rnd dir (-dir)) := h.mem _
  have hD := (divisor_pos (by omega) h fc habs).1
  have hdz : ¬ rnd (1 - rnd (dot rnd dir (-dir) * dot rnd dir (-dir))) = 0 := by
    rw [h.zero_iff (by omega)]
    intro h5
    rw [h5, abs_zero] at hD
    linarith
  have hcr : ∀ i, cross rnd dir (-dir) i = 0 :=
    (C104_cross_zero (by omega) h hd (v := -dir) fun i => float_neg (hd i)).2.2 (-1) (by funext i; simp)
  have z : rnd 0 = 0 := h.fix (float_zero p)
  refine ⟨habs, ?_, ?_⟩
  · have hk : alignFactor rnd (dot rnd dir (-dir)) = some (rnd (rnd (1 - dot rnd dir (-dir)) / rnd (1 - rnd (dot rnd dir (-dir) * dot rnd dir (-dir))))) := by
      rw [alignFactor, if_neg hdz]
    rw [rotmatAlignF, if_neg habs, hk, Option.map_some]
    simp only [hcr, mul_zero, z, zero_mul, zero_add, sub_zero, h.fix fc]
    congr 1
    ext i j
    fin_cases i <;> fin_cases j <;> simp [Matrix.diagonal]
  · rw [Matrix.det_diagonal, Fin.prod_univ_four]
    have : dot rnd dir (-dir) * dot rnd dir (-dir) * dot rnd dir (-dir) * 1 < 0 := by
      rw [mul_one]
      exact mul_neg_of_pos_of_neg (mul_pos_of_neg_of_neg neg neg) neg
    exact this

/-- **C132, refuted**: such directions are among those `unit()` returns: (3, 14, 18) / 23 in `float` and (1, 2, 2) / 3 in
`double`. -/
theorem C132_opposite_witness_refuted :
    (let d : Fin 3 → ℚ := ![nearest 24 (3 / 23), nearest 24 (14 / 23), nearest 24 (18 / 23)]
     rotmatAlignF (nearest 24) d (-d) = some (Matrix.diagonal ![-(1 - 1 / 2 ^ 24), -(1 - 1 / 2 ^ 24), -(1 - 1 / 2 ^ 24), 1])) ∧
    (let d : Fin 3 → ℚ := ![nearest 53 (1 / 3), nearest 53 (2 / 3), nearest 53 (2 / 3)]
     rotmatAlignF (nearest 53) d (-d) = some (Matrix.diagonal ![-(1 - 1 / 2 ^ 53), -(1 - 1 / 2 ^ 53), -(1 - 1 / 2 ^ 53), 1])) := by
  constructor <;> decide +kernel

/-- **C132, refuted**: directions as far apart as `√(2 ε)` have an inner product that is rounded to 1, and the matrix is then the
identity, which leaves the first direction where it is. -/
theorem C132_close_refuted (hp : 1 ≤ p) (h : IsRound p rnd) :
    ∃ t : K, IsFloat p t ∧ 2 * eps K p ≤ t ^ 2 ∧ ∑ i, ![1, t, 0] i ^ 2 ≤ 1 + 8 * eps K p ∧ rotmatAlignF rnd ![1, 0, 0] ![1, t, 0] = some 1 := by
  refine ⟨2 ^ (-(((p - 1) / 2 : ℕ) : ℤ)), float_pow hp _, ?_, ?_, ?_⟩
  · rw [← zpow_natCast, ← zpow_mul, eps, ← zpow_one_add₀ (by norm_num)]
    exact zle (by push_cast; omega)
  · have : ((2 : K) ^ (-(((p - 1) / 2 : ℕ) : ℤ))) ^ 2 ≤ 8 * eps K p := by
      rw [← zpow_natCast, ← zpow_mul, eps, show (8 : K) = 2 ^ (3 : ℤ) by norm_num, ← zpow_add₀ (by norm_num)]
      exact zle (by push_cast; omega)
    generalize (2 : K) ^ (-(((p - 1) / 2 : ℕ) : ℤ)) = t at *
    simpa [Fin.sum_univ_three] using this
  · have r1 : rnd 1 = 1 := h.fix (by simpa using float_pow (K := K) hp 0)
    have hdot : dot rnd ![1, 0, 0] ![1, 2 ^ (-(((p - 1) / 2 : ℕ) : ℤ)), (0 : K)] = 1 := by
      simp [dot, multiplyAdd, List.finRange_succ, r1]
    rw [rotmatAlignF, hdot, if_pos (abs_one), if_neg (by norm_num)]
    congr 1
    ext i j
    fin_cases i <;> fin_cases j <;> rfl

/-- **C132, refuted**: `align` does the same with opposite directions, or divides by zero: the vector is reflected through the
origin. -/
theorem C132_vector_opposite_refuted (hp : 3 ≤ p) (h : IsRound p rnd) (hd : ∀ i, IsFloat p (dir i)) (v : Fin 3 → K) :
    (alignF rnd dir (-dir) v = none ↔ dot rnd dir (-dir) = -1) ∧
    (dot rnd dir (-dir) ≠ -1 → alignF rnd dir (-dir) v = some fun i => rnd (dot rnd dir (-dir) * v i)) := by
  have fc : IsFloat p (dot rnd dir (-dir)) := h.mem _
  have hcr : ∀ i, cross rnd dir (-dir) i = 0 :=
    (C104_cross_zero (by omega) h hd (v := -dir) fun i => float_neg (hd i)).2.2 (-1) (by funext i; simp)
  have z : rnd 0 = 0 := h.fix (float_zero p)
  have rr : ∀ x, rnd (rnd x) = rnd x := fun x => h.fix (h.mem x)
  have e : dot rnd dir (-dir) = -1 ↔ rnd (1 + dot rnd dir (-dir)) = 0 := by
    rw [h.zero_iff (by omega)]
    constructor
    · intro e; rw [e]; ring
    · intro e; linear_combination e
  have hs : dot rnd dir (-dir) ≠ -1 → alignF rnd dir (-dir) v = some fun i => rnd (dot rnd dir (-dir) * v i) := by
    intro h1
    rw [Ne, e] at h1
    rw [alignF, if_neg h1]
    simp only [hcr, mul_zero, z, zero_mul, zero_add, add_zero, sub_zero, h.fix fc, rr]
    congr 1
    funext i
    fin_cases i <;> rfl
  refine ⟨⟨fun hn => ?_, fun h1 => ?_⟩, hs⟩
  · by_contra h1
    rw [hs h1] at hn
    exact absurd hn (by simp)
  · rw [alignF, if_pos (e.1 h1)]

/-! ## Exactly -/

omit [FloorRing K] in
/-- **C132.** If nothing were rounded the matrix would be that of C43. -/
theorem C132_exact (dir tgt : Fin 3 → K) : rotmatAlignF (fun x => x) dir tgt = some (Affine.rotmatAlign dir tgt) := by
  have hdot : dot (fun x => x) dir tgt = Vec.dot dir tgt := rfl
  rw [rotmatAlignF, Affine.rotmatAlign, cross_id, hdot]
  simp only
  split_ifs with h1 h2
  · rfl
  · congr 1
    ext i j
    fin_cases i <;> fin_cases j <;> rfl
  · have hd : ¬ (1 - Vec.dot dir tgt * Vec.dot dir tgt = 0) := by
      intro h0
      apply h1
      have : |Vec.dot dir tgt| ^ 2 = 1 := by
        rw [sq_abs]
        linear_combination -h0
      exact (pow_eq_one_iff_of_nonneg (abs_nonneg _) two_ne_zero).1 this
    rw [alignFactor, if_neg hd]
    rfl

omit [FloorRing K] [IsStrictOrderedRing K] in
/-- **C132.** If nothing were rounded `align` would be that of C39. -/
theorem C132_vector_exact (src tgt v : Fin 3 → K) : alignF (fun x => x) src tgt v = Vec.align src tgt v := by
  have hdot : dot (fun x => x) src tgt = Vec.dot src tgt := rfl
  rw [alignF, Vec.align, cross_id, hdot]

/-- A turn about the third axis, computed in `double`: from the first axis to (3/5, 4/5, 0). -/
example : (rotmatAlignF (nearest 53) ![1, 0, 0] ![nearest 53 (3 / 5 : ℚ), nearest 53 (4 / 5), 0]).map (fun M =>
      (M 0 0 - 3 / 5, M 1 0 - 4 / 5, M 2 0)) =
    some (nearest 53 (3 / 5) - 3 / 5, nearest 53 (4 / 5) - 4 / 5, 0) := by decide +kernel

/-- `align` moves them, here in `float`. -/
example : alignF (nearest 24) ![1, 0, 0] ![1, (1 : ℚ) / 2 ^ 12, 0] ![1, 0, 0] = some ![1, 1 / 2 ^ 12, 0] := by decide +kernel

/-- The directions (1, 0, 0) and (1, 2⁻¹², 0) are aligned by the identity in `float`. -/
example : rotmatAlignF (nearest 24) ![1, 0, 0] ![1, (1 : ℚ) / 2 ^ 12, 0] = some !![1, 0, 0, 0; 0, 1, 0, 0; 0, 0, 1, 0; 0, 0, 0, 1] := by decide +kernel

/-- The hypotheses of the theorems hold of (1, 2, 2) / 3 and (2, -2, 1) / 3, rounded: floats of nearly unit length, with a
computed inner product near zero. -/
example : let d : Fin 3 → ℚ := ![nearest 53 (1 / 3), nearest 53 (2 / 3), nearest 53 (2 / 3)]
    let t : Fin 3 → ℚ := ![nearest 53 (2 / 3), -nearest 53 (2 / 3), nearest 53 (1 / 3)]
    d 0 * d 0 + d 1 * d 1 + d 2 * d 2 = 1 - 1 / 2 ^ 53 + 1 / 2 ^ 108 ∧ dot (nearest 53) d t = 2501999792983609 / 2 ^ 107 := by
  decide +kernel

end Geomc.Flt
