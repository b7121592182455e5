import Verif.Float.FormsModel
import Verif.Float.Lerp
import Verif.Float.Vec
import Verif.Float.Range

/-! # Property C136: the forms of the operators of vectors agree -/

namespace Geomc.Flt

/-! ## Blocks of memory -/

/-- **C136.** Every index within the vector refers to the element in its place; vectors of two elements accept any index, all others refer outside
the vector exactly for indices that are out of range. -/
theorem C136_element (N : ℕ) (hN : 0 < N) (idx : ℤ) : (0 ≤ idx ∧ idx < N → elemAt N idx = some idx.toNat) ∧ (∀ k, elemAt N idx = some k → k < N) ∧
    (elemAt N idx = none ↔ N ≠ 2 ∧ (idx < 0 ∨ N ≤ idx)) := by
  unfold elemAt
  refine ⟨fun h => ?_, fun k hk => ?_, ?_⟩
  · split_ifs with h1 h2
    · congr 1; omega
    · congr 1; omega
    · rfl
  · split_ifs at hk <;> simp only [Option.some.injEq, reduceCtorEq] at hk <;> omega
  · split_ifs <;> simp only [reduceCtorEq, true_iff, false_iff] <;> omega

theorem assignVec_eq {K : Type} (op : K → K → K) (N dst src : ℕ) (hsep : dst = src ∨ dst + N ≤ src ∨ src + N ≤ dst) (mem : ℕ → K) (a : ℕ) :
    assignVec op N dst src mem a = if dst ≤ a ∧ a < dst + N then op (mem a) (mem (src + (a - dst))) else mem a := by
  unfold assignVec
  have key : ∀ n, n ≤ N → ∀ a, (List.range n).foldl (fun mem i => Function.update mem (dst + i) (op (mem (dst + i)) (mem (src + i)))) mem a =
      if dst ≤ a ∧ a < dst + n then op (mem a) (mem (src + (a - dst))) else mem a := fun n => by
    induction n with
    | zero =>
      intro _ a
      rw [if_neg (by omega)]
      rfl
    | succ n ih =>
      intro hn a
      rw [List.range_succ, List.foldl_append, List.foldl_cons, List.foldl_nil]
      by_cases ha : a = dst + n
      · subst ha
        rw [Function.update_self, ih (by omega), ih (by omega), if_neg (by omega), if_neg (by omega), if_pos (by omega), show src + (dst + n - dst) = src + n by omega]
      · rw [Function.update_of_ne ha, ih (by omega)]
        split_ifs <;> first | rfl | omega
  exact key N le_rfl a

/-- **C136.** A compound assignment with a vector leaves the element-wise combination of the values before it, also when both operands are the same
vector, and changes nothing else. -/
theorem C136_assign {K : Type} (op : K → K → K) (N dst src : ℕ) (hsep : dst = src ∨ dst + N ≤ src ∨ src + N ≤ dst) (mem : ℕ → K) :
    (∀ i < N, assignVec op N dst src mem (dst + i) = op (mem (dst + i)) (mem (src + i))) ∧
    ∀ a, a < dst ∨ dst + N ≤ a → assignVec op N dst src mem a = mem a := by
  constructor
  · intro i hi
    rw [assignVec_eq op N dst src hsep, if_pos (by omega), Nat.add_sub_cancel_left]
  · intro a ha
    rw [assignVec_eq op N dst src hsep, if_neg (by omega)]

/-- **C136.** A compound assignment with a scalar, also with one of the elements of the vector itself. -/
theorem C136_assign_scalar {K : Type} (op : K → K → K) (N dst k : ℕ) (mem : ℕ → K) :
    (∀ i < N, assignScalar op N dst (mem k) mem (dst + i) = op (mem (dst + i)) (mem k)) ∧
    ∀ a, a < dst ∨ dst + N ≤ a → assignScalar op N dst (mem k) mem a = mem a := by
  have key : ∀ s a, assignScalar op N dst s mem a = if dst ≤ a ∧ a < dst + N then op (mem a) s else mem a := fun s => by
    unfold assignScalar
    induction N with
    | zero =>
      intro a
      rw [if_neg (by omega)]
      rfl
    | succ n ih =>
      intro a
      rw [List.range_succ, List.foldl_append, List.foldl_cons, List.foldl_nil]
      by_cases ha : a = dst + n
      · subst ha
        rw [Function.update_self, ih, if_neg (by omega), if_pos (by omega)]
      · rw [Function.update_of_ne ha, ih]
        split_ifs <;> first | rfl | omega
  constructor
  · intro i hi
    rw [key, if_pos (by omega)]
  · intro a ha
    rw [key, if_neg (by omega)]

/-- Vectors that overlap in part would not be combined element by element, which is why separate objects are asked for. -/
example : assignVec (· + ·) 2 1 0 (fun a => (a : ℤ) + 1) 2 = 6 ∧ (2 + 1 : ℤ) + (1 + 1) ≠ 6 := by decide

example : assignVec (· - ·) 3 5 5 (fun a => (a : ℤ) * a) 6 = 0 ∧ assignVec (· * ·) 3 5 5 (fun a => (a : ℤ) * a) 6 = 36 * 36 := by decide

/-! ## Scalars of a wider type -/

section
variable {K : Type} [Field K] [LinearOrder K] [IsStrictOrderedRing K] [FloorRing K] {p P N w : ℕ} {rnd wide : K → K}

omit [FloorRing K] in
theorem float_product {a b : K} (ha : IsFloat p a) (hb : IsFloat p b) (hP : 2 * p ≤ P) : IsFloat P (a * b) := by
  obtain ⟨m, e, hm, rfl⟩ := ha
  obtain ⟨n, f, hn, rfl⟩ := hb
  refine ⟨m * n, e + f, ?_, ?_⟩
  · rw [abs_mul]
    calc |m| * |n| < 2 ^ p * 2 ^ p := mul_lt_mul'' hm hn (abs_nonneg _) (abs_nonneg _)
      _ = 2 ^ (2 * p) := by rw [← pow_add, two_mul]
      _ ≤ 2 ^ P := pow_le_pow_right₀ (by norm_num) hP
  · rw [zpow_add₀ (by norm_num)]
    push_cast
    ring

/-- **C136.** If the scalar is exact in the type of the elements, multiplying with a scalar of a type at least twice as precise gives the same vector
as the compound assignment, to the last bit. -/
theorem C136_scale (hP : 2 * p ≤ P) (h : IsRound p rnd) (hw : IsRound P wide) {v : Fin N → K} (hv : ∀ i, IsFloat p (v i)) {d : K} (hd : IsFloat p d) :
    scaleWide rnd wide v d = scaleAssign rnd v d := by
  funext i
  rw [scaleWide, scaleAssign, h.fix hd, hw.fix (float_product (hv i) hd hP)]

/-- **C136, refuted** for other scalars: `v * 0.1` and `v *= 0.1` differ for a vector of floats. -/
theorem C136_scale_refuted : ∃ (v : Fin 1 → ℚ) (d : ℚ), (∀ i, IsFloat 24 (v i)) ∧ IsFloat 53 d ∧
    scaleWide (nearest 24) (nearest 53) v d 0 ≠ scaleAssign (nearest 24) v d 0 := by
  refine ⟨![9], nearest 53 (1 / 10), fun i => ?_, (C95_nearest (by norm_num)).mem _, by decide +kernel⟩
  fin_cases i
  exact ⟨9, 0, by norm_num, by norm_num⟩

/-! ## Whole elements -/

omit [IsStrictOrderedRing K] in
theorem toInt_int [IsStrictOrderedRing K] (z : ℤ) : toInt (z : K) = z := by
  rw [toInt]
  split_ifs
  · exact Int.floor_intCast z
  · exact Int.ceil_intCast z

theorem chk_some {z y : ℤ} (hz : Util.chk w z = some y) : y = z ∧ |z| ≤ 2 ^ (w - 1) := by
  rw [Util.chk] at hz
  split_ifs at hz with h1
  exact ⟨(Option.some.inj hz).symm, abs_le.2 ⟨h1.1, h1.2.le⟩⟩

/-- Rounding a whole number does not change whether it fits, nor its value if it does. -/
theorem chk_round (hp : 1 ≤ p) (hw : w ≤ p) (h : IsRound p rnd) (z : ℤ) : Util.chk w (toInt (rnd (z : K))) = Util.chk w z := by
  have b1 : (2 : ℤ) ^ (w - 1) + 1 ≤ 2 ^ p := by
    have h1 : (2 : ℤ) ^ (w - 1) ≤ 2 ^ (p - 1) := pow_le_pow_right₀ (by norm_num) (by omega)
    have h2 : (2 : ℤ) ^ p = 2 * 2 ^ (p - 1) := by rw [← pow_succ']; congr 1; omega
    have h3 : (1 : ℤ) ≤ 2 ^ (p - 1) := one_le_pow₀ (by norm_num)
    omega
  have b0 : (0 : ℤ) < 2 ^ (w - 1) := by positivity
  by_cases hz : |z| ≤ 2 ^ (w - 1) + 1
  · rw [h.fix (float_int hp (hz.trans b1)), toInt_int]
  · rw [not_le, lt_abs] at hz
    have out : ∀ y : ℤ, 2 ^ (w - 1) + 1 ≤ y ∨ y ≤ -(2 ^ (w - 1) + 1) → Util.chk w y = none := fun y hy => by
      rw [Util.chk, if_neg]
      omega
    rw [out z (by omega)]
    refine out _ ?_
    rcases hz with hz | hz
    · left
      have m := h.mono (show (((2 ^ (w - 1) + 1 : ℤ)) : K) ≤ (z : K) by exact_mod_cast hz.le)
      rw [h.fix (float_int hp (by rw [abs_of_pos (by omega)]; exact b1))] at m
      rw [toInt, if_pos (le_trans (by exact_mod_cast (show (0 : ℤ) ≤ 2 ^ (w - 1) + 1 by omega)) m)]
      exact Int.le_floor.2 m
    · right
      have m := h.mono (show (z : K) ≤ ((-(2 ^ (w - 1) + 1) : ℤ) : K) by exact_mod_cast (show z ≤ -(2 ^ (w - 1) + 1) by omega))
      have ff : rnd ((-(2 ^ (w - 1) + 1) : ℤ) : K) = ((-(2 ^ (w - 1) + 1) : ℤ) : K) := h.fix (float_int hp (by rw [abs_neg, abs_of_pos (by omega)]; exact b1))
      rw [ff] at m
      have neg : rnd (z : K) < 0 := lt_of_le_of_lt m (Int.cast_lt_zero.2 (by omega))
      rw [toInt, if_neg (not_le.2 neg)]
      exact Int.ceil_le.2 m

/-- **C136.** For whole elements and a whole scalar that fits their type, `v * d` and `v *= d` agree, also about which products overflow. -/
theorem C136_scale_whole (hp : 1 ≤ p) (hw : w ≤ p) (h : IsRound p rnd) {v : Fin N → ℤ} (hv : ∀ i, |v i| ≤ 2 ^ (w - 1)) {z : ℤ}
    (hz : (Util.chk w z).isSome) (i : Fin N) : scaleInt rnd w v (z : K) i = scaleAssignInt w v (z : K) i := by
  obtain ⟨y, hy⟩ := Option.isSome_iff_exists.1 hz
  obtain ⟨rfl, -⟩ := chk_some hy
  have fit : IsFloat p ((v i : ℤ) : K) := float_int hp ((hv i).trans (pow_le_pow_right₀ (by norm_num) (by omega)))
  rw [scaleInt, scaleAssignInt, h.fix fit, toInt_int, hy, ← Int.cast_mul, chk_round hp hw h]
  rfl

omit [IsStrictOrderedRing K] in
theorem toInt_small [IsStrictOrderedRing K] {d : K} (hd : |d| < 1) : toInt d = 0 := by
  obtain ⟨h1, h2⟩ := abs_lt.1 hd
  rw [toInt]
  split_ifs with h0
  · rw [Int.floor_eq_iff]
    constructor <;> simp only [Int.cast_zero, zero_add] <;> assumption
  · rw [Int.ceil_eq_iff]
    constructor <;> simp only [Int.cast_zero, zero_sub] <;> linarith

/-- **C136, refuted.** For whole elements and a scalar smaller than one, `v *= d` erases every vector and `v /= d` divides by zero. -/
theorem C136_fraction_refuted {d : K} (hd : |d| < 1) (w : ℕ) (v : Fin N → ℤ) (i : Fin N) :
    scaleAssignInt w v d i = some 0 ∧ divAssignInt w v d i = none := by
  have h0 : Util.chk w 0 = some 0 := by
    rw [Util.chk, if_pos]
    have : (0 : ℤ) < 2 ^ (w - 1) := by positivity
    constructor <;> omega
  rw [scaleAssignInt, divAssignInt, toInt_small hd, h0]
  constructor
  · change Util.chk w (v i * 0) = _
    rw [mul_zero, h0]
  · rfl

example : scaleInt (nearest 53) 32 ![7, -7] (1 / 2 : ℚ) 0 = some 3 ∧ scaleInt (nearest 53) 32 ![7, -7] (1 / 2 : ℚ) 1 = some (-3) ∧
    scaleAssignInt 32 ![7, -7] (1 / 2 : ℚ) 0 = some 0 ∧ divInt (nearest 53) 32 ![7, -7] (1 / 2 : ℚ) 1 = some (-14) ∧ divAssignInt 32 ![7, -7] (1 / 2 : ℚ) 1 = none := by
  decide +kernel

example : scaleInt (nearest 53) 32 ![2 ^ 30] (3 : ℚ) 0 = none ∧ scaleAssignInt 32 ![2 ^ 30] (3 : ℚ) 0 = none ∧ scaleInt (nearest 53) 32 ![2 ^ 28] (3 : ℚ) 0 = some (3 * 2 ^ 28) := by
  decide +kernel

/-! ### Division -/

theorem tdiv_toInt (hp : 1 ≤ p) (h : IsRound p rnd) {v z : ℤ} (hz : z ≠ 0) (hv : |v| < 2 ^ p) : toInt (rnd ((v : K) / z)) = v.tdiv z := by
  have e0 := eps_pos (K := K) p
  set q := v.tdiv z with hq
  set r := v.tmod z with hr
  have hvz : v = z * q + r := (Int.mul_tdiv_add_tmod v z).symm
  have hrz : |r| < |z| := by
    have := Int.tmod_lt_of_pos
    rw [hr, ← Int.natCast_natAbs, ← Int.natCast_natAbs, Int.natAbs_tmod]
    exact_mod_cast Nat.mod_lt _ (Int.natAbs_pos.2 hz)
  have hqv : |q| ≤ |v| := by
    rw [hq, ← Int.natCast_natAbs, ← Int.natCast_natAbs, Int.natAbs_tdiv]
    exact_mod_cast Nat.div_le_self _ _
  have zK : (z : K) ≠ 0 := by exact_mod_cast hz
  have quo : (v : K) / z = q + r / z := by
    rw [hvz]
    push_cast
    field_simp
  have fq : rnd (q : K) = q := h.fix (float_int hp (hqv.trans hv.le))
  have z0 : (0 : K) < |(z : K)| := abs_pos.2 zK
  have close : |rnd ((v : K) / z) - v / z| < 1 / |(z : K)| := by
    refine lt_of_le_of_lt (h.rel hp _) ?_
    change eps K p * |(v : K) / z| < _
    rw [abs_div, ← mul_div_assoc]
    refine div_lt_div_of_pos_right ?_ z0
    have : |(v : K)| < 2 ^ p := by exact_mod_cast hv
    calc eps K p * |(v : K)| < eps K p * 2 ^ p := mul_lt_mul_of_pos_left this e0
      _ = 1 := by rw [eps, zpow_neg, zpow_natCast, inv_mul_cancel₀ (by positivity)]
  have room : |(r : K) / z| ≤ 1 - 1 / |(z : K)| := by
    rw [abs_div, div_le_iff₀ z0, sub_mul, one_mul, one_div, inv_mul_cancel₀ z0.ne']
    have : |r| ≤ |z| - 1 := by omega
    exact_mod_cast this
  have rp : 0 ≤ v → 0 ≤ r := fun hv => Int.tmod_nonneg z hv
  have rn : v ≤ 0 → r ≤ 0 := fun hv => by
    have := Int.tmod_nonneg z (show 0 ≤ -v by omega)
    rw [Int.neg_tmod] at this
    omega
  obtain ⟨c1, c2⟩ := abs_lt.1 close
  obtain ⟨r1, r2⟩ := abs_le.1 room
  by_cases s : 0 ≤ (v : K) / z
  · have rs : 0 ≤ (r : K) / z := by
      rcases lt_or_gt_of_ne zK with hz | hz
      · have : (v : K) ≤ 0 := by
          have := mul_nonpos_of_nonneg_of_nonpos s hz.le
          rwa [div_mul_cancel₀ _ zK] at this
        exact div_nonneg_of_nonpos (by exact_mod_cast rn (by exact_mod_cast this)) hz.le
      · have : 0 ≤ (v : K) := by
          have := mul_nonneg s hz.le
          rwa [div_mul_cancel₀ _ zK] at this
        exact div_nonneg (by exact_mod_cast rp (by exact_mod_cast this)) hz.le
    have low : (q : K) ≤ rnd ((v : K) / z) := by
      rw [← fq]
      exact h.mono (by rw [quo]; linarith)
    have nn : 0 ≤ rnd ((v : K) / z) := by
      have := h.mono s
      rwa [h.fix (float_zero p)] at this
    rw [toInt, if_pos nn, Int.floor_eq_iff]
    exact ⟨low, by rw [quo] at c2 ⊢; linarith⟩
  · rw [not_le] at s
    have rs : (r : K) / z ≤ 0 := by
      rcases lt_or_gt_of_ne zK with hz | hz
      · have : 0 ≤ (v : K) := by
          have := mul_nonneg_of_nonpos_of_nonpos s.le hz.le
          rwa [div_mul_cancel₀ _ zK] at this
        exact div_nonpos_of_nonneg_of_nonpos (by exact_mod_cast rp (by exact_mod_cast this)) hz.le
      · have : (v : K) ≤ 0 := by
          have := mul_nonpos_of_nonpos_of_nonneg s.le hz.le
          rwa [div_mul_cancel₀ _ zK] at this
        exact div_nonpos_of_nonpos_of_nonneg (by exact_mod_cast rn (by exact_mod_cast this)) hz.le
    have up : rnd ((v : K) / z) ≤ q := by
      rw [← fq]
      exact h.mono (by rw [quo]; linarith)
    have np : rnd ((v : K) / z) ≤ 0 := by
      have := h.mono s.le
      rwa [h.fix (float_zero p)] at this
    have low : (q : K) - 1 < rnd ((v : K) / z) := by
      rw [quo] at c1 ⊢
      linarith
    rw [toInt]
    split_ifs with nn
    · have e : rnd ((v : K) / z) = 0 := le_antisymm np nn
      rw [e] at up low ⊢
      have h1 : (0 : ℤ) ≤ q := by exact_mod_cast up
      have h2 : q - 1 < 0 := by exact_mod_cast low
      rw [Int.floor_zero]
      omega
    · exact Int.ceil_eq_iff.2 ⟨low, up⟩

/-- **C136.** For whole elements and a whole scalar that fits their type, `v / d` and `v /= d` agree: dividing in floating point and dropping the
fraction is the division of whole numbers, and both are undefined for the same operands. -/
theorem C136_divide_whole (hp : 1 ≤ p) (hw : w ≤ p) (h : IsRound p rnd) {v : Fin N → ℤ} (hv : ∀ i, |v i| ≤ 2 ^ (w - 1)) (w0 : 1 ≤ w) {z : ℤ}
    (hz : (Util.chk w z).isSome) (i : Fin N) : divInt rnd w v (z : K) i = divAssignInt w v (z : K) i := by
  obtain ⟨y, hy⟩ := Option.isSome_iff_exists.1 hz
  obtain ⟨rfl, -⟩ := chk_some hy
  have lt : |v i| < 2 ^ p := (hv i).trans_lt (pow_lt_pow_right₀ (by norm_num) (by omega))
  rw [divInt, divAssignInt, h.fix (float_int hp lt.le), toInt_int, hy]
  change _ = if y = 0 then none else Util.chk w ((v i).tdiv y)
  by_cases y0 : y = 0
  · rw [if_pos (by exact_mod_cast y0), if_pos y0]
  · rw [if_neg (by exact_mod_cast y0), if_neg y0, tdiv_toInt hp h y0 lt]

example : divInt (nearest 53) 32 ![7, -7, -2 ^ 31] (-2 : ℚ) 0 = some (-3) ∧ divInt (nearest 53) 32 ![7, -7, -2 ^ 31] (-2 : ℚ) 1 = some 3 ∧
    divInt (nearest 53) 32 ![7, -7, -2 ^ 31] (-1 : ℚ) 2 = none ∧ divAssignInt 32 ![7, -7, -2 ^ 31] (-1 : ℚ) 2 = none := by
  decide +kernel

/-! ## Dot products -/

/-- **C136.** The dot product with separate coordinates: within two, three and four roundings of each term. -/
theorem C136_dot_coordinates (hp : 1 ≤ p) (h : IsRound p rnd) (a b c d x y z w : K) :
    |dotTwo rnd a b x y - (a * x + b * y)| ≤ ((1 + eps K p) ^ 2 - 1) * (|a * x| + |b * y|) ∧
    |dotThree rnd a b c x y z - (a * x + b * y + c * z)| ≤ ((1 + eps K p) ^ 3 - 1) * (|a * x| + |b * y| + |c * z|) ∧
    |dotFour rnd a b c d x y z w - (a * x + b * y + c * z + d * w)| ≤ ((1 + eps K p) ^ 4 - 1) * (|a * x| + |b * y| + |c * z| + |d * w|) := by
  have e0 := (eps_pos (K := K) p).le
  have t := fun u : K => (Near.refl (eps K p) u).round hp h le_rfl
  have two := ((t (a * x)).add (t (b * y))).round hp h le_rfl
  have three := (two.add ((t (c * z)).mono e0 (show _ ≤ 0 + 1 + 1 by norm_num))).round hp h le_rfl
  have four := (three.add ((t (d * w)).mono e0 (show _ ≤ 0 + 1 + 1 + 1 by norm_num))).round hp h le_rfl
  exact ⟨two.1, three.1, four.1⟩

/-- **C136.** With a rounding that treats both signs alike, the dot product with the separate coordinates of a perpendicular vector is exactly zero. -/
theorem C136_perpendicular (h : IsRound p rnd) (odd : ∀ x, rnd (-x) = -rnd x) (a b : K) : dotTwo rnd a b (-b) a = 0 := by
  rw [dotTwo, mul_neg, odd, mul_comm b a, neg_add_cancel]
  exact h.fix (float_zero p)

/-- **C136, refuted.** The dot product with the vector of the same coordinates is computed otherwise, and need not be zero. -/
theorem C136_dot_refuted : ∃ a b : ℚ, IsFloat 24 a ∧ IsFloat 24 b ∧ dotTwo (nearest 24) a b (-b) a = 0 ∧ dot (nearest 24) ![a, b] ![-b, a] ≠ 0 := by
  refine ⟨2 ^ 12 + 1, 2 ^ 13 + 1, ⟨2 ^ 12 + 1, 0, by norm_num, by norm_num⟩, ⟨2 ^ 13 + 1, 0, by norm_num, by norm_num⟩, by decide +kernel, by decide +kernel⟩

omit [LinearOrder K] [IsStrictOrderedRing K] [FloorRing K] in
/-- **C136.** Without rounding both dot products are the same. -/
theorem C136_dot_exact (a b c d x y z w : K) : dotTwo id a b x y = dot id ![a, b] ![x, y] ∧ dotThree id a b c x y z = dot id ![a, b, c] ![x, y, z] ∧
    dotFour id a b c d x y z w = dot id ![a, b, c, d] ![x, y, z, w] := by
  refine ⟨?_, ?_, ?_⟩ <;> simp [dotTwo, dotThree, dotFour, dot, multiplyAdd, List.finRange_succ] <;> ring

end

end Geomc.Flt
