import Verif.Float.Rot
import Verif.Affine.Model

/-! # Property C133: rotations from quaternions and about points in floating point -/

namespace Geomc.Flt

variable {K : Type} [Field K] [LinearOrder K] [IsStrictOrderedRing K] [FloorRing K] {p : ℕ} {rnd : K → K}

/-! ## From a quaternion -/

/-- The matrix of a quaternion `(x, y, z, w)`. -/
def quatExact (q : Fin 4 → K) : Matrix (Fin 3) (Fin 3) K :=
  !![q 3 ^ 2 + q 0 ^ 2 - q 1 ^ 2 - q 2 ^ 2, 2 * (q 0 * q 1 - q 2 * q 3), 2 * (q 0 * q 2 + q 1 * q 3);
     2 * (q 0 * q 1 + q 2 * q 3), q 3 ^ 2 - q 0 ^ 2 + q 1 ^ 2 - q 2 ^ 2, 2 * (q 1 * q 2 - q 0 * q 3);
     2 * (q 0 * q 2 - q 1 * q 3), 2 * (q 1 * q 2 + q 0 * q 3), q 3 ^ 2 - q 0 ^ 2 - q 1 ^ 2 + q 2 ^ 2]

theorem quat_product (hp : 1 ≤ p) (h : IsRound p rnd) (a b : K) : Near (eps K p) 2 (rnd (rnd (2 * a) * b)) (2 * a * b) (|2 * a| * |b|) :=
  (((Near.refl (eps K p) (2 * a)).round hp h le_rfl).mul (eps_pos p).le (Near.refl _ b)).round hp h le_rfl

theorem quat_off (hp : 1 ≤ p) (h : IsRound p rnd) (a b d e : K) :
    |rnd (rnd (rnd (2 * a) * b) + rnd (rnd (2 * d) * e)) - 2 * (a * b + d * e)| ≤ ((1 + eps K p) ^ 4 - 1) * (a ^ 2 + b ^ 2 + d ^ 2 + e ^ 2) ∧
    |rnd (rnd (rnd (2 * a) * b) - rnd (rnd (2 * d) * e)) - 2 * (a * b - d * e)| ≤ ((1 + eps K p) ^ 4 - 1) * (a ^ 2 + b ^ 2 + d ^ 2 + e ^ 2) := by
  have e0 := (eps_pos (K := K) p).le
  have hs : |2 * a| * |b| + |2 * d| * |e| ≤ a ^ 2 + b ^ 2 + d ^ 2 + e ^ 2 := by
    rw [abs_mul, abs_mul, abs_two, ← sq_abs a, ← sq_abs b, ← sq_abs d, ← sq_abs e]
    nlinarith [sq_nonneg (|a| - |b|), sq_nonneg (|d| - |e|)]
  have h1 := (((quat_product hp h a b).add (quat_product hp h d e)).round hp h le_rfl).mono e0 (show 2 + 1 ≤ 4 by norm_num)
  have h2 := (((quat_product hp h a b).sub (quat_product hp h d e)).round hp h le_rfl).mono e0 (show 2 + 1 ≤ 4 by norm_num)
  have g : 0 ≤ (1 + eps K p) ^ 4 - 1 := sub_nonneg.2 (one_le_pow₀ (by linarith))
  rw [show 2 * (a * b + d * e) = 2 * a * b + 2 * d * e by ring, show 2 * (a * b - d * e) = 2 * a * b - 2 * d * e by ring]
  exact ⟨h1.1.trans (mul_le_mul_of_nonneg_left hs g), h2.1.trans (mul_le_mul_of_nonneg_left hs g)⟩

theorem quat_square (hp : 1 ≤ p) (h : IsRound p rnd) (a : K) : Near (eps K p) 1 (rnd (a * a)) (a ^ 2) (a ^ 2) := by
  have := (Near.refl (eps K p) (a * a)).round hp h le_rfl
  rw [abs_mul_self, ← pow_two] at this
  rw [← pow_two a]
  exact this

/-- **C133.** The elements of the matrix of any quaternion are found to within `(1 + ε)^4 - 1` of its square magnitude. -/
theorem C133_quat_element (hp : 1 ≤ p) (h : IsRound p rnd) (q : Fin 4 → K) (i j : Fin 3) :
    |rotmatQuatF rnd q i.castSucc j.castSucc - quatExact q i j| ≤ ((1 + eps K p) ^ 4 - 1) * ∑ l, q l ^ 2 := by
  have e0 := (eps_pos (K := K) p).le
  have S : ∑ l, q l ^ 2 = q 0 ^ 2 + q 1 ^ 2 + q 2 ^ 2 + q 3 ^ 2 := Fin.sum_univ_four _
  have n := fun a => quat_square (rnd := rnd) hp h a
  have m := fun a => (n a).mono e0 (show 1 ≤ 2 by norm_num)
  have l := fun a => (n a).mono e0 (show 1 ≤ 3 by norm_num)
  fin_cases i <;> fin_cases j
  · refine ((((((n (q 3)).add (n (q 0))).round hp h le_rfl).sub (m (q 1))).round hp h le_rfl).sub (l (q 2)) |>.round hp h le_rfl).1.trans_eq ?_
    rw [S]; ring
  · refine (quat_off hp h (q 0) (q 1) (q 2) (q 3)).2.trans_eq ?_
    rw [S]
  · refine (quat_off hp h (q 0) (q 2) (q 1) (q 3)).1.trans_eq ?_
    rw [S]; ring
  · refine (quat_off hp h (q 0) (q 1) (q 2) (q 3)).1.trans_eq ?_
    rw [S]
  · refine ((((((n (q 3)).sub (n (q 0))).round hp h le_rfl).add (m (q 1))).round hp h le_rfl).sub (l (q 2)) |>.round hp h le_rfl).1.trans_eq ?_
    rw [S]; ring
  · refine (quat_off hp h (q 1) (q 2) (q 0) (q 3)).2.trans_eq ?_
    rw [S]; ring
  · refine (quat_off hp h (q 0) (q 2) (q 1) (q 3)).2.trans_eq ?_
    rw [S]; ring
  · refine (quat_off hp h (q 1) (q 2) (q 0) (q 3)).1.trans_eq ?_
    rw [S]; ring
  · refine ((((((n (q 3)).sub (n (q 0))).round hp h le_rfl).sub (m (q 1))).round hp h le_rfl).add (l (q 2)) |>.round hp h le_rfl).1.trans_eq ?_
    rw [S]; ring

omit [LinearOrder K] [IsStrictOrderedRing K] [FloorRing K] in
theorem quat_columns (q : Fin 4 → K) (i j : Fin 3) :
    ∑ r, quatExact q r i * quatExact q r j = (if i = j then (∑ l, q l ^ 2) ^ 2 else 0) ∧
    ∑ r, quatExact q i r * quatExact q j r = (if i = j then (∑ l, q l ^ 2) ^ 2 else 0) := by
  constructor <;> fin_cases i <;> fin_cases j <;> simp [Fin.sum_univ_three, Fin.sum_univ_four, quatExact] <;> ring

omit [FloorRing K] in
theorem pow_four_le {e : K} (e0 : 0 < e) (e1 : e ≤ 1 / 1024) : (1 + e) ^ 4 - 1 ≤ 41 / 10 * e := by
  have e2 : e ^ 2 ≤ e / 1024 := by nlinarith
  have e3 : e ^ 3 ≤ e / 1024 := by nlinarith
  have e4 : e ^ 4 ≤ e / 1024 := by nlinarith [pow_pos e0 3]
  have : (1 + e) ^ 4 - 1 = 4 * e + 6 * e ^ 2 + 4 * e ^ 3 + e ^ 4 := by ring
  linarith

/-- **C133.** The matrix of a quaternion of nearly unit magnitude is orthonormal up to `72 ε`. -/
theorem C133_quat (hp : 10 ≤ p) (h : IsRound p rnd) {q : Fin 4 → K} (hq : |∑ l, q l ^ 2 - 1| ≤ 8 * eps K p) (i j : Fin 3) :
    |∑ r : Fin 3, rotmatQuatF rnd q r.castSucc i.castSucc * rotmatQuatF rnd q r.castSucc j.castSucc - if i = j then 1 else 0| ≤ 72 * eps K p ∧
    |∑ r : Fin 3, rotmatQuatF rnd q i.castSucc r.castSucc * rotmatQuatF rnd q j.castSucc r.castSucc - if i = j then 1 else 0| ≤ 72 * eps K p := by
  have e0 := eps_pos (K := K) p
  have e1 := eps_small (K := K) hp
  have B : ∀ i j : Fin 3, |rotmatQuatF rnd q i.castSucc j.castSucc - quatExact q i j| ≤ 9 / 2 * eps K p := fun i j => by
    refine (C133_quat_element (by omega) h q i j).trans ?_
    have h1 := (abs_le.1 hq).2
    calc _ ≤ 41 / 10 * eps K p * (1 + 1 / 128) := mul_le_mul (pow_four_le e0 e1) (by linarith) (Finset.sum_nonneg fun _ _ => sq_nonneg _) (by positivity)
      _ ≤ _ := by nlinarith
  have Q : |(∑ l, q l ^ 2) ^ 2 - 1| ≤ 17 * eps K p := by
    obtain ⟨h1, h2⟩ := abs_le.1 hq
    rw [abs_le]
    constructor <;> nlinarith
  have C : ∀ i j, |(if i = j then (∑ l, q l ^ 2) ^ 2 else 0) - (if i = j then (1 : K) else 0)| ≤ 17 * eps K p := fun i j : Fin 3 => by
    split_ifs
    · exact Q
    · rw [sub_zero, abs_zero]
      linarith
  have S : ∀ i j, |quatExact q i j| ≤ 3 / 2 := fun i j => size_of_gram (G := 17 * eps K p) (by linarith) j
    (by rw [(quat_columns q j j).1]; simpa using C j j) i
  constructor
  · exact (gram_near (M := fun i j => rotmatQuatF rnd q i.castSucc j.castSucc) (R := fun i j => quatExact q i j) (B := 9 / 2 * eps K p) (G := 17 * eps K p) (by linarith) (by linarith) B S i j
      (by rw [(quat_columns q i j).1]; exact C i j)).trans (by linarith)
  · exact (gram_near (M := fun i j => rotmatQuatF rnd q j.castSucc i.castSucc) (R := fun i j => quatExact q j i) (B := 9 / 2 * eps K p) (G := 17 * eps K p) (by linarith) (by linarith)
      (fun i j => B j i) (fun i j => S j i) i j (by rw [(quat_columns q i j).2]; exact C i j)).trans (by linarith)

/-! ## About a point -/

/-- The linear part for an axis that need not be a unit vector. -/
def aboutLin (k : Fin 3 → K) (c s : K) (i j : Fin 3) : K := (1 - c) * k i * k j + turn (fun l => s * k l) (c * ∑ l, k l ^ 2) i j

/-- What the linear part carries the centre away by. -/
def aboutShift (k ctr : Fin 3 → K) (c s : K) (i : Fin 3) : K := (∑ l, k l ^ 2) * ctr i - ∑ j, aboutLin k c s i j * ctr j

theorem both_off (hp : 1 ≤ p) (h : IsRound p rnd) (a b c d s : K) :
    |rnd (rnd (rnd (a * b) * rnd (1 - c)) + rnd (d * s)) - (a * b * (1 - c) + d * s)| ≤ ((1 + eps K p) ^ 5 - 1) * (|a| * |b| * |1 - c| + |d| * |s|) ∧
    |rnd (rnd (rnd (a * b) * rnd (1 - c)) - rnd (d * s)) - (a * b * (1 - c) - d * s)| ≤ ((1 + eps K p) ^ 5 - 1) * (|a| * |b| * |1 - c| + |d| * |s|) := by
  have e0 := (eps_pos (K := K) p).le
  have t := ((((Near.refl (eps K p) (a * b)).round hp h le_rfl).mul e0 ((Near.refl (eps K p) (1 - c)).round hp h le_rfl)).round hp h le_rfl)
  have u := ((Near.refl (eps K p) (d * s)).round hp h le_rfl).mono e0 (show 1 ≤ 3 by norm_num)
  have a1 := ((t.add u).round hp h le_rfl).mono e0 (show _ ≤ 5 by norm_num)
  have a2 := ((t.sub u).round hp h le_rfl).mono e0 (show _ ≤ 5 by norm_num)
  rw [abs_mul a, abs_mul d] at a1 a2
  exact ⟨a1.1, a2.1⟩

theorem both_diag (hp : 1 ≤ p) (h : IsRound p rnd) (x y z c : K) :
    |rnd (rnd (rnd (x * x) + rnd (c * rnd (rnd (y * y) + rnd (z * z)))) + 0) - (x ^ 2 + c * (y ^ 2 + z ^ 2))| ≤
      ((1 + eps K p) ^ 5 - 1) * (x ^ 2 + |c| * (y ^ 2 + z ^ 2)) := by
  have e0 := (eps_pos (K := K) p).le
  have n := fun a => quat_square (rnd := rnd) hp h a
  have t := ((Near.refl (eps K p) c).mul e0 (((n y).add (n z)).round hp h le_rfl)).round hp h le_rfl
  rw [add_zero]
  exact ((((((n x).mono e0 (show 1 ≤ _ by norm_num)).add t).round hp h le_rfl).round hp h le_rfl).mono e0 (show _ ≤ 5 by norm_num)).1

theorem both_shift (hp : 1 ≤ p) (h : IsRound p rnd) (a b e pa pb pe c u f v g s : K) :
    |rnd (rnd (rnd (rnd (pa * rnd (rnd (b * b) + rnd (e * e))) - rnd (a * rnd (rnd (pb * b) + rnd (pe * e)))) * rnd (1 - c)) + rnd (rnd (rnd (u * f) - rnd (v * g)) * s)) -
      ((pa * (b ^ 2 + e ^ 2) - a * (pb * b + pe * e)) * (1 - c) + (u * f - v * g) * s)| ≤
      ((1 + eps K p) ^ 7 - 1) * ((|pa| * (b ^ 2 + e ^ 2) + |a| * (|pb * b| + |pe * e|)) * |1 - c| + (|u * f| + |v * g|) * |s|) ∧
    |rnd (rnd (rnd (rnd (pa * rnd (rnd (b * b) + rnd (e * e))) - rnd (a * rnd (rnd (pb * b) + rnd (pe * e)))) * rnd (1 - c)) - rnd (rnd (rnd (u * f) - rnd (v * g)) * s)) -
      ((pa * (b ^ 2 + e ^ 2) - a * (pb * b + pe * e)) * (1 - c) - (u * f - v * g) * s)| ≤
      ((1 + eps K p) ^ 7 - 1) * ((|pa| * (b ^ 2 + e ^ 2) + |a| * (|pb * b| + |pe * e|)) * |1 - c| + (|u * f| + |v * g|) * |s|) := by
  have e0 := (eps_pos (K := K) p).le
  have n := fun a => quat_square (rnd := rnd) hp h a
  have r := fun x : K => (Near.refl (eps K p) x).round hp h le_rfl
  have t1 := ((Near.refl (eps K p) pa).mul e0 (((n b).add (n e)).round hp h le_rfl)).round hp h le_rfl
  have t2 := ((Near.refl (eps K p) a).mul e0 (((r (pb * b)).add (r (pe * e))).round hp h le_rfl)).round hp h le_rfl
  have t3 := ((((t1.sub t2).round hp h le_rfl).mul e0 (r (1 - c))).round hp h le_rfl)
  have w := (((((r (u * f)).sub (r (v * g))).round hp h le_rfl).mul e0 (Near.refl _ s)).round hp h le_rfl)
  have w' := w.mono e0 (show _ ≤ 6 by norm_num)
  have t3' := t3.mono e0 (show _ ≤ 6 by norm_num)
  exact ⟨((t3'.add w').round hp h le_rfl).1, ((t3'.sub w').round hp h le_rfl).1⟩

omit [FloorRing K] in
theorem shift_size {k ctr : Fin 3 → K} {c s : K} {e : K} (e0 : 0 < e) (e1 : e ≤ 1 / 1024) (hk : |∑ l, k l ^ 2 - 1| ≤ 8 * e) (hcs : |c ^ 2 + s ^ 2 - 1| ≤ 8 * e)
    (i j l : Fin 3) (h1 : i ≠ j) (h2 : i ≠ l) (h3 : j ≠ l) :
    (|ctr i| * (k j ^ 2 + k l ^ 2) + |k i| * (|ctr j * k j| + |ctr l * k l|)) * |1 - c| + (|ctr j * k l| + |ctr l * k j|) * |s| ≤ 31 / 10 * ∑ r, |ctr r| := by
  obtain ⟨hc, hs, -, -⟩ := angle_size e0 e1 hcs
  have hk1 : ∑ l, k l ^ 2 ≤ 101 / 100 := by linarith [(abs_le.1 hk).2]
  have hkk : ∀ i j, |k i| * |k j| ≤ 101 / 100 := fun i j => by
    rw [← abs_mul]
    exact (abs_mul_le_sq k i j).trans hk1
  have hkl : ∀ l, |k l| ≤ 101 / 100 := fun l => by
    refine abs_le_of_sq_le_sq' ?_ (by norm_num) |> abs_le.2
    have := hkk l l
    rw [abs_mul_abs_self] at this
    norm_num
    nlinarith
  have hsum : ∀ f : Fin 3 → K, ∑ r, f r = f i + f j + f l := by
    intro f
    fin_cases i <;> fin_cases j <;> fin_cases l <;> simp [Fin.sum_univ_three] at * <;> ring
  have hd : k j ^ 2 + k l ^ 2 ≤ 101 / 100 := by
    rw [hsum] at hk1
    linarith [sq_nonneg (k i)]
  have hc1 : |1 - c| ≤ 201 / 100 := by
    have := abs_sub 1 c
    rw [abs_one] at this
    linarith
  rw [hsum fun r => |ctr r|, abs_mul, abs_mul, abs_mul, abs_mul]
  have p1 := abs_nonneg (ctr i)
  have p2 := abs_nonneg (ctr j)
  have p3 := abs_nonneg (ctr l)
  have b1 : |ctr i| * (k j ^ 2 + k l ^ 2) ≤ |ctr i| * (101 / 100) := mul_le_mul_of_nonneg_left hd p1
  have b2 : |ctr j| * (|k i| * |k j|) ≤ |ctr j| * (101 / 100) := mul_le_mul_of_nonneg_left (hkk i j) p2
  have b3 : |ctr l| * (|k i| * |k l|) ≤ |ctr l| * (101 / 100) := mul_le_mul_of_nonneg_left (hkk i l) p3
  have b4 : |ctr j| * |k l| ≤ |ctr j| * (101 / 100) := mul_le_mul_of_nonneg_left (hkl l) p2
  have b5 : |ctr l| * |k j| ≤ |ctr l| * (101 / 100) := mul_le_mul_of_nonneg_left (hkl j) p3
  have c1 : |ctr i| * (k j ^ 2 + k l ^ 2) + |k i| * (|ctr j| * |k j| + |ctr l| * |k l|) ≤ 101 / 100 * (|ctr i| + |ctr j| + |ctr l|) := by linarith
  have c2 : |ctr j| * |k l| + |ctr l| * |k j| ≤ 101 / 100 * (|ctr i| + |ctr j| + |ctr l|) := by linarith
  have d1 := mul_le_mul c1 hc1 (abs_nonneg _) (by positivity)
  have d2 := mul_le_mul c2 hs (abs_nonneg _) (by positivity)
  linarith

end Geomc.Flt
