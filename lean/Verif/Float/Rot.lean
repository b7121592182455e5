import Verif.Float.RotModel
import Verif.Float.AlignUse

/-! # Property C133: rotation matrices in floating point -/

namespace Geomc.Flt

variable {K : Type} [Field K] [LinearOrder K] [IsStrictOrderedRing K] [FloorRing K] {p : ℕ} {rnd : K → K}

/-! ## Nearly orthonormal matrices -/

omit [FloorRing K] in
/-- A matrix with elements within `B` of one whose columns are orthonormal up to `G`. -/
theorem gram_near {M R : Fin 3 → Fin 3 → K} {B G : K} (B0 : 0 ≤ B) (B1 : B ≤ 1) (hel : ∀ i j, |M i j - R i j| ≤ B) (hR : ∀ i j, |R i j| ≤ 3 / 2)
    (i j : Fin 3) (hc : |∑ r, R r i * R r j - if i = j then 1 else 0| ≤ G) : |∑ r, M r i * M r j - if i = j then 1 else 0| ≤ 12 * B + G := by
  have s : |∑ r, M r i * M r j - ∑ r, R r i * R r j| ≤ 12 * B := by
    rw [← Finset.sum_sub_distrib]
    refine (Finset.abs_sum_le_sum_abs _ _).trans ?_
    calc _ ≤ ∑ _ : Fin 3, 4 * B := Finset.sum_le_sum fun r _ => by
          have h2 := hel r i
          have h3 := hel r j
          have h4 := hR r i
          have h5 := hR r j
          generalize M r i = x' at *
          generalize M r j = y' at *
          generalize R r i = x at *
          generalize R r j = y at *
          rw [show x' * y' - x * y = (x' - x) * (y' - y) + (x' - x) * y + x * (y' - y) by ring]
          have a1 : |(x' - x) * (y' - y)| ≤ B * 1 := by
            rw [abs_mul]
            exact mul_le_mul h2 (h3.trans B1) (abs_nonneg _) B0
          have a2 : |(x' - x) * y| ≤ B * (3 / 2) := by
            rw [abs_mul]
            exact mul_le_mul h2 h5 (abs_nonneg _) B0
          have a3 : |x * (y' - y)| ≤ 3 / 2 * B := by
            rw [abs_mul]
            exact mul_le_mul h4 h3 (abs_nonneg _) (by norm_num)
          have a4 := abs_add_le ((x' - x) * (y' - y) + (x' - x) * y) (x * (y' - y))
          have a5 := abs_add_le ((x' - x) * (y' - y)) ((x' - x) * y)
          linarith
      _ = 12 * B := by simp; ring
  have t := abs_sub_le (∑ r, M r i * M r j) (∑ r, R r i * R r j) (if i = j then 1 else 0)
  linarith

omit [FloorRing K] in
theorem size_of_gram {R : Fin 3 → Fin 3 → K} {G : K} (G1 : G ≤ 1) (j : Fin 3) (hc : |∑ r, R r j * R r j - 1| ≤ G) (i : Fin 3) : |R i j| ≤ 3 / 2 := by
  have h3 := (abs_le.1 hc).2
  have h5 := Finset.single_le_sum (f := fun r => R r j * R r j) (fun l _ => mul_self_nonneg _) (Finset.mem_univ i)
  have h6 : R i j * R i j ≤ 2 := h5.trans (by linarith)
  refine abs_le_of_sq_le_sq' ?_ (by norm_num) |> abs_le.2
  rw [pow_two]
  linarith

/-! ## About an axis -/

/-- The rotation about `k` by the angle of cosine `c` and sine `s`, as a polynomial: `(1 - c) k kᵀ + c 1 + s [k]`. -/
def axisExact (k : Fin 3 → K) (c s : K) (i j : Fin 3) : K := (1 - c) * k i * k j + turn (fun l => s * k l) c i j

omit [LinearOrder K] [IsStrictOrderedRing K] [FloorRing K] in
theorem axis_element (rnd : K → K) (k : Fin 3 → K) (c s : K) (i j : Fin 3) :
    rotmatF rnd k c s i.castSucc j.castSucc = rnd (rnd (rnd (rnd (1 - c) * k i) * k j) + turn (fun l => rnd (s * k l)) c i j) := by
  fin_cases i <;> fin_cases j <;> simp [rotmatF, turn, sub_eq_add_neg, add_comm c]

/-- **C133.** The elements of the matrix of a rotation about an axis: each is found with a relative error of `(1 + ε)^4 - 1`
of the sum of the sizes of its two terms. -/
theorem C133_axis_element (hp : 1 ≤ p) (h : IsRound p rnd) (k : Fin 3 → K) (c s : K) (i j : Fin 3) :
    |rotmatF rnd k c s i.castSucc j.castSucc - axisExact k c s i j| ≤
      ((1 + eps K p) ^ 4 - 1) * (|1 - c| * |k i| * |k j| + |turn (fun l => s * k l) c i j|) := by
  have e0 := (eps_pos (K := K) p).le
  rw [axis_element, axisExact]
  have t := (((((Near.refl (eps K p) (1 - c)).round hp h le_rfl).mul e0 (Near.refl _ (k i))).round hp h le_rfl).mul e0 (Near.refl _ (k j))).round hp h le_rfl
  have u := turn_cases (fun _ _ x y => Near (eps K p) 1 y x |x|) (fun l => s * k l) (fun l => rnd (s * k l)) c c
    (fun _ _ => (Near.refl _ c).mono e0 (by norm_num)) (fun _ _ l => (Near.refl _ (s * k l)).round hp h le_rfl)
    (fun _ _ l => by rw [abs_neg]; exact ((Near.refl _ (s * k l)).round hp h le_rfl).neg) i j
  exact ((t.add (u.mono e0 (by norm_num))).round hp h le_rfl).1

omit [FloorRing K] [LinearOrder K] [IsStrictOrderedRing K] in
/-- The columns of the polynomial. -/
theorem axis_columns (k : Fin 3 → K) (c s : K) (i j : Fin 3) :
    ∑ r, axisExact k c s r i * axisExact k c s r j = (if i = j then 1 else 0) +
      ((c ^ 2 + s ^ 2 - 1) + s ^ 2 * (∑ l, k l ^ 2 - 1)) * (if i = j then 1 else 0) +
      ((1 - c) ^ 2 * (∑ l, k l ^ 2 - 1) - (c ^ 2 + s ^ 2 - 1)) * (k i * k j) := by
  fin_cases i <;> fin_cases j <;> simp [Fin.sum_univ_three, turn, axisExact] <;> ring

omit [FloorRing K] [LinearOrder K] [IsStrictOrderedRing K] in
theorem axis_transpose (k : Fin 3 → K) (c s : K) (i j : Fin 3) : axisExact k c (-s) i j = axisExact k c s j i := by
  fin_cases i <;> fin_cases j <;> simp [turn, axisExact] <;> ring

section Bounds
variable {k : Fin 3 → K} {c s : K}

omit [FloorRing K] in
theorem angle_size {e : K} (e0 : 0 < e) (e1 : e ≤ 1 / 1024) (hcs : |c ^ 2 + s ^ 2 - 1| ≤ 8 * e) : |c| ≤ 101 / 100 ∧ |s| ≤ 101 / 100 ∧ s ^ 2 ≤ 101 / 100 ∧ (1 - c) ^ 2 ≤ 41 / 10 := by
  have h1 := (abs_le.1 hcs).2
  have hc : |c| ≤ 101 / 100 := by
    refine abs_le_of_sq_le_sq' ?_ (by norm_num) |> abs_le.2
    have := sq_nonneg s
    norm_num
    linarith
  refine ⟨hc, ?_, ?_, ?_⟩
  · refine abs_le_of_sq_le_sq' ?_ (by norm_num) |> abs_le.2
    have := sq_nonneg c
    norm_num
    linarith
  · have := sq_nonneg c
    linarith
  · obtain ⟨h2, h3⟩ := abs_le.1 hc
    nlinarith

omit [FloorRing K] in
theorem axis_gram {e : K} (e0 : 0 < e) (e1 : e ≤ 1 / 1024) (hk : |∑ l, k l ^ 2 - 1| ≤ 8 * e) (hcs : |c ^ 2 + s ^ 2 - 1| ≤ 8 * e) (i j : Fin 3) :
    |∑ r, axisExact k c s r i * axisExact k c s r j - if i = j then 1 else 0| ≤ 60 * e := by
  obtain ⟨-, -, s2, c2⟩ := angle_size e0 e1 hcs
  rw [axis_columns]
  have hkk : |k i * k j| ≤ 101 / 100 := (abs_mul_le_sq k i j).trans (by linarith [(abs_le.1 hk).2])
  generalize ∑ l, k l ^ 2 - 1 = κ at *
  generalize c ^ 2 + s ^ 2 - 1 = σ at *
  have a1 : |s ^ 2 * κ| ≤ 101 / 100 * (8 * e) := by
    rw [abs_mul, abs_of_nonneg (sq_nonneg s)]
    exact mul_le_mul s2 hk (abs_nonneg _) (by norm_num)
  have a2 : |(1 - c) ^ 2 * κ| ≤ 41 / 10 * (8 * e) := by
    rw [abs_mul, abs_of_nonneg (sq_nonneg (1 - c))]
    exact mul_le_mul c2 hk (abs_nonneg _) (by norm_num)
  have a3 : |(1 - c) ^ 2 * κ - σ| ≤ 41 * e := by
    have := abs_sub ((1 - c) ^ 2 * κ) σ
    linarith
  have a4 : |((1 - c) ^ 2 * κ - σ) * (k i * k j)| ≤ 41 * e * (101 / 100) := by
    rw [abs_mul]
    exact mul_le_mul a3 hkk (abs_nonneg _) (by linarith)
  have a5 : |(σ + s ^ 2 * κ) * (if i = j then (1 : K) else 0)| ≤ 17 * e := by
    have := abs_add_le σ (s ^ 2 * κ)
    split_ifs
    · rw [mul_one]
      linarith
    · rw [mul_zero, abs_zero]
      linarith
  rw [show ∀ a b d : K, a + b + d - a = b + d by intros; ring]
  have := abs_add_le ((σ + s ^ 2 * κ) * (if i = j then (1 : K) else 0)) (((1 - c) ^ 2 * κ - σ) * (k i * k j))
  linarith

/-- The elements for a nearly unit axis. -/
theorem axis_bound (hp : 10 ≤ p) (h : IsRound p rnd) (hk : |∑ l, k l ^ 2 - 1| ≤ 8 * eps K p) (hcs : |c ^ 2 + s ^ 2 - 1| ≤ 8 * eps K p) (i j : Fin 3) :
    |rotmatF rnd k c s i.castSucc j.castSucc - axisExact k c s i j| ≤ 13 * eps K p := by
  have e0 := eps_pos (K := K) p
  have e1 := eps_small (K := K) hp
  obtain ⟨hc, hs, -, -⟩ := angle_size e0 e1 hcs
  have hkk : ∀ i j, |k i * k j| ≤ 101 / 100 := fun i j => (abs_mul_le_sq k i j).trans (by linarith [(abs_le.1 hk).2])
  have hkl : ∀ l, |k l| ≤ 101 / 100 := fun l => by
    refine abs_le_of_sq_le_sq' ?_ (by norm_num) |> abs_le.2
    have := hkk l l
    rw [abs_mul_self] at this
    norm_num
    nlinarith
  refine (C133_axis_element (by omega) h k c s i j).trans ?_
  have t1 : |1 - c| * |k i| * |k j| ≤ 201 / 100 * (101 / 100) := by
    rw [mul_assoc, ← abs_mul]
    refine mul_le_mul ?_ (hkk i j) (abs_nonneg _) (by norm_num)
    have := abs_sub 1 c
    rw [abs_one] at this
    linarith
  have hsk : ∀ l, |s * k l| ≤ 103 / 100 := fun l => by
    rw [abs_mul]
    calc |s| * |k l| ≤ 101 / 100 * (101 / 100) := mul_le_mul hs (hkl l) (abs_nonneg _) (by norm_num)
      _ ≤ _ := by norm_num
  have t2 : |turn (fun l => s * k l) c i j| ≤ 103 / 100 :=
    turn_cases (fun _ _ x _ => |x| ≤ 103 / 100) (fun l => s * k l) (fun l => s * k l) c c (fun _ _ => by linarith) (fun _ _ l => hsk l)
      (fun _ _ l => by rw [abs_neg]; exact hsk l) i j
  have h4 : (1 + eps K p) ^ 4 - 1 ≤ 41 / 10 * eps K p := by
    have e2 : eps K p ^ 2 ≤ eps K p / 1024 := by nlinarith
    have e3 : eps K p ^ 3 ≤ eps K p / 1024 := by nlinarith
    have e4 : eps K p ^ 4 ≤ eps K p / 1024 := by nlinarith [pow_pos e0 3]
    have : (1 + eps K p) ^ 4 - 1 = 4 * eps K p + 6 * eps K p ^ 2 + 4 * eps K p ^ 3 + eps K p ^ 4 := by ring
    linarith
  calc _ ≤ 41 / 10 * eps K p * (201 / 100 * (101 / 100) + 103 / 100) := mul_le_mul h4 (add_le_add t1 t2) (by positivity) (by positivity)
    _ ≤ 13 * eps K p := by nlinarith

/-- **C133.** The matrix of a rotation about an axis, of nearly unit length, is orthonormal up to `220 ε`, by columns and by rows:
the transpose held as its inverse inverts it. -/
theorem C133_axis (hp : 10 ≤ p) (h : IsRound p rnd) (hk : |∑ l, k l ^ 2 - 1| ≤ 8 * eps K p) (hcs : |c ^ 2 + s ^ 2 - 1| ≤ 8 * eps K p) (i j : Fin 3) :
    |∑ r : Fin 3, rotmatF rnd k c s r.castSucc i.castSucc * rotmatF rnd k c s r.castSucc j.castSucc - if i = j then 1 else 0| ≤ 220 * eps K p ∧
    |∑ r : Fin 3, rotmatF rnd k c s i.castSucc r.castSucc * rotmatF rnd k c s j.castSucc r.castSucc - if i = j then 1 else 0| ≤ 220 * eps K p := by
  have e0 := eps_pos (K := K) p
  have e1 := eps_small (K := K) hp
  have B := axis_bound (rnd := rnd) hp h hk hcs
  have S : ∀ i j, |axisExact k c s i j| ≤ 3 / 2 := fun i j =>
    size_of_gram (G := 60 * eps K p) (by linarith) j (by simpa using axis_gram e0 e1 hk hcs j j) i
  have G' : |∑ r, axisExact k c s i r * axisExact k c s j r - if i = j then 1 else 0| ≤ 60 * eps K p := by
    have := axis_gram (c := c) (s := -s) e0 e1 hk (by rw [neg_sq s]; exact hcs) i j
    simpa only [axis_transpose] using this
  constructor
  · refine (gram_near (M := fun i j => rotmatF rnd k c s i.castSucc j.castSucc) (R := axisExact k c s) (B := 13 * eps K p) (by linarith) (by linarith) B S i j
      (axis_gram e0 e1 hk hcs i j)).trans (by linarith)
  · refine (gram_near (M := fun i j => rotmatF rnd k c s j.castSucc i.castSucc) (R := fun i j => axisExact k c s j i) (B := 13 * eps K p) (by linarith)
      (by linarith) (fun i j => B j i) (fun i j => S j i) i j G').trans (by linarith)

omit [FloorRing K] in
theorem row_apply {M R x : Fin 3 → K} {B : K} (hM : ∀ j, |M j - R j| ≤ B) : |∑ j, M j * x j - ∑ j, R j * x j| ≤ B * ∑ j, |x j| := by
  rw [← Finset.sum_sub_distrib, Finset.mul_sum]
  refine (Finset.abs_sum_le_sum_abs _ _).trans (Finset.sum_le_sum fun j _ => ?_)
  rw [← sub_mul, abs_mul]
  exact mul_le_mul_of_nonneg_right (hM j) (abs_nonneg _)

omit [FloorRing K] [LinearOrder K] [IsStrictOrderedRing K] in
theorem axis_apply (k : Fin 3 → K) (c s : K) (i : Fin 3) : ∑ j, axisExact k c s i j * k j = k i + (1 - c) * (∑ l, k l ^ 2 - 1) * k i := by
  fin_cases i <;> simp [Fin.sum_univ_three, turn, axisExact] <;> ring

/-- **C133.** It leaves the axis where it is, up to `44 ε`, and moves every point to within `13 ε` (and the errors of the sine and
cosine) of where a rotation by the angle does. -/
theorem C133_axis_moves (hp : 10 ≤ p) (h : IsRound p rnd) (hk : |∑ l, k l ^ 2 - 1| ≤ 8 * eps K p) (hcs : |c ^ 2 + s ^ 2 - 1| ≤ 8 * eps K p) (i : Fin 3) :
    |∑ j : Fin 3, rotmatF rnd k c s i.castSucc j.castSucc * k j - k i| ≤ 44 * eps K p ∧
    ∀ (C S η : K), |c - C| ≤ η → |s - S| ≤ η → ∀ x : Fin 3 → K,
      |∑ j : Fin 3, rotmatF rnd k c s i.castSucc j.castSucc * x j - ∑ j, axisExact k C S i j * x j| ≤ (13 * eps K p + 3 * η) * ∑ j, |x j| := by
  have e0 := eps_pos (K := K) p
  have e1 := eps_small (K := K) hp
  have B := axis_bound (rnd := rnd) hp h hk hcs
  obtain ⟨hc, hs, -, -⟩ := angle_size e0 e1 hcs
  have hkk : ∀ i j, |k i * k j| ≤ 101 / 100 := fun i j => (abs_mul_le_sq k i j).trans (by linarith [(abs_le.1 hk).2])
  have hkl : ∀ l, |k l| ≤ 101 / 100 := fun l => by
    refine abs_le_of_sq_le_sq' ?_ (by norm_num) |> abs_le.2
    have := hkk l l
    rw [abs_mul_self] at this
    norm_num
    nlinarith
  constructor
  · have a1 := row_apply (x := k) (B i)
    have a2 := sum_abs_le_two e1 (d := k) (by linarith [(abs_le.1 hk).2])
    rw [axis_apply] at a1
    have a3 : |(1 - c) * (∑ l, k l ^ 2 - 1) * k i| ≤ 201 / 100 * (8 * eps K p) * (101 / 100) := by
      rw [abs_mul, abs_mul]
      refine mul_le_mul (mul_le_mul ?_ hk (abs_nonneg _) (by norm_num)) (hkl i) (abs_nonneg _) (by positivity)
      have := abs_sub 1 c
      rw [abs_one] at this
      linarith
    have a4 := abs_sub_le (∑ j : Fin 3, rotmatF rnd k c s i.castSucc j.castSucc * k j) (k i + (1 - c) * (∑ l, k l ^ 2 - 1) * k i) (k i)
    rw [add_sub_cancel_left] at a4
    have a5 : 13 * eps K p * ∑ j, |k j| ≤ 13 * eps K p * 2 := mul_le_mul_of_nonneg_left a2 (by positivity)
    linarith
  · intro C S η hC hS x
    refine row_apply fun j => ?_
    have h0 : 0 ≤ η := (abs_nonneg _).trans hC
    have hdiff : |axisExact k c s i j - axisExact k C S i j| ≤ 3 * η := by
      rw [axisExact, axisExact, show (1 - c) * k i * k j + turn (fun l => s * k l) c i j - ((1 - C) * k i * k j + turn (fun l => S * k l) C i j) =
        (C - c) * (k i * k j) + (turn (fun l => s * k l) c i j - turn (fun l => S * k l) C i j) by ring]
      have b1 : |(C - c) * (k i * k j)| ≤ η * (101 / 100) := by
        rw [abs_mul, abs_sub_comm]
        exact mul_le_mul hC (hkk i j) (abs_nonneg _) h0
      have hsl : ∀ l, |s * k l - S * k l| ≤ η * (101 / 100) := fun l => by
        rw [← sub_mul, abs_mul]
        exact mul_le_mul hS (hkl l) (abs_nonneg _) h0
      have b2 : |turn (fun l => s * k l) c i j - turn (fun l => S * k l) C i j| ≤ η * (101 / 100) :=
        turn_cases (fun _ _ x y => |x - y| ≤ η * (101 / 100)) (fun l => s * k l) (fun l => S * k l) c C (fun _ _ => by linarith) (fun _ _ l => hsl l)
          (fun _ _ l => by rw [neg_sub_neg, abs_sub_comm]; exact hsl l) i j
      have := abs_add_le ((C - c) * (k i * k j)) (turn (fun l => s * k l) c i j - turn (fun l => S * k l) C i j)
      linarith
    have := abs_sub_le (rotmatF rnd k c s i.castSucc j.castSucc) (axisExact k c s i j) (axisExact k C S i j)
    linarith [B i j]

end Bounds

end Geomc.Flt
