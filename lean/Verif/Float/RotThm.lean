import Verif.Float.RotAbout

/-! # Property C133: what rotations about a point do -/

namespace Geomc.Flt

variable {K : Type} [Field K] [LinearOrder K] [IsStrictOrderedRing K] [FloorRing K] {p : ℕ} {rnd : K → K} {k ctr : Fin 3 → K} {c s : K}

/-- Where a matrix of three rows and four columns takes a point. -/
def carry (M : Matrix (Fin 3) (Fin 4) K) (x : Fin 3 → K) (i : Fin 3) : K := ∑ j : Fin 3, M i j.castSucc * x j + M i 3

omit [FloorRing K] in
/-- A map with the linear part near `L` and the translation near what keeps the centre, near a rotation `R`. -/
theorem about_near {M : Matrix (Fin 3) (Fin 4) K} {L R : Fin 3 → Fin 3 → K} {T : Fin 3 → K} {ctr : Fin 3 → K} {N e t : K} (e0 : 0 < e)
    (hM : ∀ i j : Fin 3, |M i j.castSucc - L i j| ≤ 16 * e) (hL : ∀ i j, |L i j - R i j| ≤ 9 * e) (hT : ∀ i, |M i 3 - T i| ≤ t * e * ∑ r, |ctr r|)
    (hctr : ∀ i, T i = N * ctr i - ∑ j, L i j * ctr j) (hN : |N - 1| ≤ 8 * e) (x : Fin 3 → K) (i : Fin 3) :
    |carry M ctr i - ctr i| ≤ (t + 24) * e * ∑ r, |ctr r| ∧
    |carry M x i - (ctr i + ∑ j, R i j * (x j - ctr j))| ≤ 25 * e * ∑ r, |x r - ctr r| + (t + 24) * e * ∑ r, |ctr r| := by
  have h1 := row_apply (x := ctr) (hM i)
  have h2 := hT i
  rw [hctr] at h2
  have P := Finset.single_le_sum (f := fun r => |ctr r|) (fun l _ => abs_nonneg _) (Finset.mem_univ i)
  have P' : |ctr i| ≤ ∑ r, |ctr r| := P
  have C : |carry M ctr i - ctr i| ≤ (t + 24) * e * ∑ r, |ctr r| := by
    rw [carry, show ∀ a b d L' : K, a + b - d = (a - L') + (b - (N * d - L')) + (N - 1) * d by intros; ring, add_assoc]
    case L' => exact ∑ j, L i j * ctr j
    have h3 : |(N - 1) * ctr i| ≤ 8 * e * ∑ r, |ctr r| := by
      rw [abs_mul]
      exact mul_le_mul hN P' (abs_nonneg _) (by linarith)
    have a1 := abs_add_le (∑ j : Fin 3, M i j.castSucc * ctr j - ∑ j, L i j * ctr j) ((M i 3 - (N * ctr i - ∑ j, L i j * ctr j)) + (N - 1) * ctr i)
    have a2 := abs_add_le (M i 3 - (N * ctr i - ∑ j, L i j * ctr j)) ((N - 1) * ctr i)
    linarith
  refine ⟨C, ?_⟩
  have h4 := row_apply (M := fun j => M i (Fin.castSucc j)) (R := R i) (x := fun j => x j - ctr j) (B := 25 * e) fun j => by
    have := abs_sub_le (M i j.castSucc) (L i j) (R i j)
    linarith [hM i j, hL i j]
  have h5 : carry M x i - (ctr i + ∑ j, R i j * (x j - ctr j)) =
      (∑ j : Fin 3, M i j.castSucc * (x j - ctr j) - ∑ j, R i j * (x j - ctr j)) + (carry M ctr i - ctr i) := by
    simp only [carry, Fin.sum_univ_three]
    ring
  rw [h5]
  exact (abs_add_le _ _).trans (add_le_add h4 C)

/-- **C133.** A rotation about a point keeps the point where it is up to `47 ε` of its coordinates, and carries every other to
within `25 ε` of its offset from the centre, and `47 ε` of the centre, of where it should be; so does the inverse built beside
it, for the opposite angle. -/
theorem C133_about (hp : 10 ≤ p) (h : IsRound p rnd) (hk : |∑ l, k l ^ 2 - 1| ≤ 8 * eps K p) (hcs : |c ^ 2 + s ^ 2 - 1| ≤ 8 * eps K p) (ctr x : Fin 3 → K) (i : Fin 3) :
    (|carry (rotmatBothF rnd k ctr c s).1 ctr i - ctr i| ≤ 47 * eps K p * ∑ r, |ctr r| ∧
    |carry (rotmatBothF rnd k ctr c s).1 x i - (ctr i + ∑ j, axisExact k c s i j * (x j - ctr j))| ≤ 25 * eps K p * ∑ r, |x r - ctr r| + 47 * eps K p * ∑ r, |ctr r|) ∧
    (|carry (rotmatBothF rnd k ctr c s).2 ctr i - ctr i| ≤ 47 * eps K p * ∑ r, |ctr r| ∧
    |carry (rotmatBothF rnd k ctr c s).2 x i - (ctr i + ∑ j, axisExact k c s j i * (x j - ctr j))| ≤ 25 * eps K p * ∑ r, |x r - ctr r| + 47 * eps K p * ∑ r, |ctr r|) := by
  have e0 := eps_pos (K := K) p
  have e1 := eps_small (K := K) hp
  have L := both_lin_bound (rnd := rnd) hp h hk hcs ctr
  have T := both_shift_bound (rnd := rnd) hp h hk hcs ctr
  rw [show (47 : K) = 23 + 24 by norm_num]
  refine ⟨about_near e0 (fun i j => (L i j).1) (lin_axis e0 e1 hk hcs s) (fun i => (T i).1) (fun i => rfl) hk x i, ?_⟩
  exact about_near e0 (fun i j => (L i j).2) (fun i j => (axis_transpose k c s i j ▸ lin_axis e0 e1 hk hcs (-s) i j)) (fun i => (T i).2) (fun i => rfl) hk x i

omit [FloorRing K] in
theorem apply_size {R : Fin 3 → Fin 3 → K} (hR : ∀ i j, |R i j| ≤ 3 / 2) {d : Fin 3 → K} {D : K} (hd : ∀ j, |d j| ≤ D) (i : Fin 3) : |∑ j, R i j * d j| ≤ 9 / 2 * D := by
  refine (Finset.abs_sum_le_sum_abs _ _).trans ?_
  calc _ ≤ ∑ _ : Fin 3, 3 / 2 * D := Finset.sum_le_sum fun j _ => by
        rw [abs_mul]
        exact mul_le_mul (hR i j) (hd j) (abs_nonneg _) (by norm_num)
    _ = _ := by simp; ring

omit [FloorRing K] in
theorem gram_apply {R : Fin 3 → Fin 3 → K} {G : K} (hG : ∀ i j, |∑ r, R r i * R r j - if i = j then 1 else 0| ≤ G) (y : Fin 3 → K) (i : Fin 3) :
    |∑ r, R r i * (∑ j, R r j * y j) - y i| ≤ G * ∑ j, |y j| := by
  have h1 : ∑ r, R r i * (∑ j, R r j * y j) = ∑ j, (∑ r, R r i * R r j) * y j := by
    simp only [Fin.sum_univ_three]
    ring
  have h2 : y i = ∑ j, (if i = j then (1 : K) else 0) * y j := by simp
  rw [h1]
  conv_lhs => rw [h2]
  exact row_apply (hG i)

/-- The chain of two maps near a rotation and near its inverse. -/
theorem undo_near {R : Fin 3 → Fin 3 → K} {f g : (Fin 3 → K) → Fin 3 → K} {e P : K} (e0 : 0 < e) (e1 : e ≤ 1 / 1024) (P0 : 0 ≤ P) {ctr : Fin 3 → K}
    (hR : ∀ i j, |R i j| ≤ 3 / 2) (hG : ∀ i j, |∑ r, R r i * R r j - if i = j then 1 else 0| ≤ 60 * e)
    (hf : ∀ x i, |f x i - (ctr i + ∑ j, R i j * (x j - ctr j))| ≤ 25 * e * ∑ r, |x r - ctr r| + 47 * e * P)
    (hg : ∀ x i, |g x i - (ctr i + ∑ j, R j i * (x j - ctr j))| ≤ 25 * e * ∑ r, |x r - ctr r| + 47 * e * P) (x : Fin 3 → K) (i : Fin 3) :
    |g (f x) i - x i| ≤ 320 * e * ∑ r, |x r - ctr r| + 270 * e * P := by
  set X := ∑ r, |x r - ctr r| with hX
  have X0 : 0 ≤ X := Finset.sum_nonneg fun _ _ => abs_nonneg _
  set D := 25 * e * X + 47 * e * P with hD
  have D0 : 0 ≤ D := by positivity
  have h1 : ∀ j, |f x j - ctr j - ∑ l, R j l * (x l - ctr l)| ≤ D := fun j => by
    rw [sub_sub]
    exact hf x j
  have h2 : ∀ j, |f x j - ctr j| ≤ 3 / 2 * X + D := fun j => by
    have a1 : |∑ l, R j l * (x l - ctr l)| ≤ 3 / 2 * X := by
      refine (Finset.abs_sum_le_sum_abs _ _).trans ?_
      rw [hX, Finset.mul_sum]
      refine Finset.sum_le_sum fun l _ => ?_
      rw [abs_mul]
      exact mul_le_mul_of_nonneg_right (hR j l) (abs_nonneg _)
    have a2 := abs_add_le (f x j - ctr j - ∑ l, R j l * (x l - ctr l)) (∑ l, R j l * (x l - ctr l))
    rw [sub_add_cancel] at a2
    linarith [h1 j]
  have h3 : ∑ r, |f x r - ctr r| ≤ 9 / 2 * X + 3 * D := by
    rw [Fin.sum_univ_three]
    linarith [h2 0, h2 1, h2 2]
  have h4 := hg (f x) i
  have h5 := apply_size (R := fun a b => R b a) (fun a b => hR b a) h1 i
  have h6 := gram_apply hG (fun l => x l - ctr l) i
  have key : g (f x) i - x i = (g (f x) i - (ctr i + ∑ j, R j i * (f x j - ctr j))) + ∑ j, R j i * (f x j - ctr j - ∑ l, R j l * (x l - ctr l)) +
      (∑ r, R r i * (∑ j, R r j * (x j - ctr j)) - (x i - ctr i)) := by
    simp only [Fin.sum_univ_three]
    ring
  rw [key]
  have b1 := abs_add_le ((g (f x) i - (ctr i + ∑ j, R j i * (f x j - ctr j))) + ∑ j, R j i * (f x j - ctr j - ∑ l, R j l * (x l - ctr l)))
    (∑ r, R r i * (∑ j, R r j * (x j - ctr j)) - (x i - ctr i))
  have b2 := abs_add_le (g (f x) i - (ctr i + ∑ j, R j i * (f x j - ctr j))) (∑ j, R j i * (f x j - ctr j - ∑ l, R j l * (x l - ctr l)))
  have b3 : 25 * e * ∑ r, |f x r - ctr r| ≤ 25 * e * (9 / 2 * X + 3 * D) := mul_le_mul_of_nonneg_left h3 (by positivity)
  have b4 : 25 * e * (3 * D) ≤ 25 * (1 / 1024) * (3 * D) := mul_le_mul_of_nonneg_right (by linarith) (by positivity)
  have b5 : 0 ≤ e * X := by positivity
  have b6 : 0 ≤ e * P := by positivity
  linarith

/-- **C133.** A rotation about a point and the inverse built beside it undo each other, in either order. -/
theorem C133_undo (hp : 10 ≤ p) (h : IsRound p rnd) (hk : |∑ l, k l ^ 2 - 1| ≤ 8 * eps K p) (hcs : |c ^ 2 + s ^ 2 - 1| ≤ 8 * eps K p) (ctr x : Fin 3 → K) (i : Fin 3) :
    |carry (rotmatBothF rnd k ctr c s).2 (carry (rotmatBothF rnd k ctr c s).1 x) i - x i| ≤ 320 * eps K p * ∑ r, |x r - ctr r| + 270 * eps K p * ∑ r, |ctr r| ∧
    |carry (rotmatBothF rnd k ctr c s).1 (carry (rotmatBothF rnd k ctr c s).2 x) i - x i| ≤ 320 * eps K p * ∑ r, |x r - ctr r| + 270 * eps K p * ∑ r, |ctr r| := by
  have e0 := eps_pos (K := K) p
  have e1 := eps_small (K := K) hp
  have P : 0 ≤ ∑ r, |ctr r| := Finset.sum_nonneg fun _ _ => abs_nonneg _
  have S : ∀ i j, |axisExact k c s i j| ≤ 3 / 2 := fun i j =>
    size_of_gram (G := 60 * eps K p) (by linarith) j (by simpa using axis_gram e0 e1 hk hcs j j) i
  have G' : ∀ i j, |∑ r, axisExact k c s i r * axisExact k c s j r - if i = j then 1 else 0| ≤ 60 * eps K p := fun i j => by
    have := axis_gram (c := c) (s := -s) e0 e1 hk (by rw [neg_sq s]; exact hcs) i j
    simpa only [axis_transpose] using this
  have A := fun x i => (C133_about (rnd := rnd) hp h hk hcs ctr x i)
  exact ⟨undo_near e0 e1 P S (axis_gram e0 e1 hk hcs) (fun x i => (A x i).1.2) (fun x i => (A x i).2.2) x i,
    undo_near (R := fun i j => axisExact k c s j i) e0 e1 P (fun i j => S j i) G' (fun x i => (A x i).2.2) (fun x i => (A x i).1.2) x i⟩

/-! ## Without rounding -/

omit [LinearOrder K] [IsStrictOrderedRing K] [FloorRing K] in
/-- **C133.** Without rounding these are the matrices of C17. -/
theorem C133_exact (k ctr : Fin 3 → K) (q : Fin 4 → K) (c s : K) :
    rotmatF (fun x => x) k c s = Affine.rotmat k c s ∧ rotmatQuatF (fun x => x) q = Affine.rotmatQuat q ∧
    ∀ (i : Fin 3) (j : Fin 4), (rotmatBothF (fun x => x) k ctr c s).1 i j = (Affine.rotmatBoth k ctr c s).mat i.castSucc j ∧
      (rotmatBothF (fun x => x) k ctr c s).2 i j = (Affine.rotmatBoth k ctr c s).inv i.castSucc j := by
  refine ⟨rfl, rfl, fun i j => ?_⟩
  constructor <;> fin_cases i <;> fin_cases j <;> rfl

omit [LinearOrder K] [IsStrictOrderedRing K] [FloorRing K] in
/-- **C133.** The last row and column of the matrices about the origin are those of the identity. -/
theorem C133_affine (rnd : K → K) (k : Fin 3 → K) (q : Fin 4 → K) (c s : K) (i : Fin 3) :
    rotmatF rnd k c s i.castSucc 3 = 0 ∧ rotmatF rnd k c s 3 i.castSucc = 0 ∧ rotmatF rnd k c s 3 3 = 1 ∧
    rotmatQuatF rnd q i.castSucc 3 = 0 ∧ rotmatQuatF rnd q 3 i.castSucc = 0 ∧ rotmatQuatF rnd q 3 3 = 1 := by
  fin_cases i <;> exact ⟨rfl, rfl, rfl, rfl, rfl, rfl⟩

/-- **C133, refuted**: the centre is kept relative to the largest of its coordinates only.  About (1023, 3, 0) and the `z` axis, with
the sine and cosine of the triangle 3, 4, 5, the coordinate 3 of the centre is moved by more than a hundred units in its last
place, in `float` and in `double`. -/
theorem C133_centre_refuted : ∀ a ∈ [(24, -819), (53, 411)],
    carry (rotmatBothF (nearest a.1) ![0, 0, 1] ![(1023 : ℚ), 3, 0] (nearest a.1 (4 / 5)) (nearest a.1 (3 / 5))).1 ![1023, 3, 0] 1 = 3 + a.2 / 2 ^ a.1 := by
  decide +kernel

/-! ## Examples -/

/-- The hypotheses hold of the axis (1, 2, 2) / 3 and the triangle 3, 4, 5 in `double`. -/
example : let k : Fin 3 → ℚ := ![nearest 53 (1 / 3), nearest 53 (2 / 3), nearest 53 (2 / 3)]
    |k 0 ^ 2 + k 1 ^ 2 + k 2 ^ 2 - 1| ≤ 8 / 2 ^ 53 ∧ |nearest 53 (3 / 5 : ℚ) ^ 2 + nearest 53 (4 / 5 : ℚ) ^ 2 - 1| ≤ 8 / 2 ^ 53 := by decide +kernel

/-- Half a turn about (3, 4, 0) / 5 in `double`: the first element is within a quarter of `ε` of -7/25. -/
example : let k : Fin 3 → ℚ := ![nearest 53 (3 / 5), nearest 53 (4 / 5), 0]
    rotmatF (nearest 53) k (-1) 0 0 0 = -7 / 25 - 6 / 25 / 2 ^ 53 ∧ rotmatF (nearest 53) k (-1) 0 2 2 = -1 := by decide +kernel

/-- The first row of the matrix of the quaternion (1, 2, 2, 4) / 5 in `float`. -/
example : let M := rotmatQuatF (nearest 24) ![nearest 24 (1 / 5 : ℚ), nearest 24 (2 / 5), nearest 24 (2 / 5), nearest 24 (4 / 5)]
    M 0 0 = 9 / 25 + 37 / 50 / 2 ^ 24 ∧ M 0 1 = -12 / 25 - 8 / 25 / 2 ^ 24 ∧ M 0 2 = 20 / 25 + 6 / 5 / 2 ^ 24 := by decide +kernel

/-- A quarter turn about (3, 1, 0) is exact. -/
example : (rotmatBothF (nearest 24) ![0, 0, 1] ![(3 : ℚ), 1, 0] 0 1).1 = !![0, -1, 0, 4; 1, 0, 0, -2; 0, 0, 1, 0] ∧
    (rotmatBothF (nearest 24) ![0, 0, 1] ![(3 : ℚ), 1, 0] 0 1).2 = !![0, 1, 0, 2; -1, 0, 0, 4; 0, 0, 1, 0] := by decide +kernel

end Geomc.Flt
