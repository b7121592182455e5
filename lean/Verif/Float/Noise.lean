import Verif.Float.NoiseModel
import Verif.Float.RotAbout
import Verif.Float.Dist
import Verif.Float.Ball
import Verif.Float.Poly
import Verif.Perlin.Props

/-! # Property C135: Perlin noise in floating point -/

namespace Geomc.Flt

variable {K : Type} [Field K] [LinearOrder K] [IsStrictOrderedRing K] [FloorRing K] {p N : ℕ} {rnd : K → K}

/-! ## The exact fading curve -/

omit [FloorRing K] in
theorem fade_unit {t : K} (t0 : 0 ≤ t) (t1 : t ≤ 1) : 0 ≤ Perlin.fade t ∧ Perlin.fade t ≤ 1 := by
  have h1 : 0 ≤ t * (t * 6 - 15) + 10 := by nlinarith [sq_nonneg (t - 5 / 4)]
  constructor
  · exact mul_nonneg (by positivity) h1
  · have h2 : 1 - Perlin.fade t = (1 - t) ^ 3 * (6 * t ^ 2 + 3 * t + 1) := by
      rw [Perlin.fade]
      ring
    have h3 : 0 ≤ (1 - t) ^ 3 * (6 * t ^ 2 + 3 * t + 1) := mul_nonneg (pow_nonneg (by linarith) 3) (by positivity)
    linarith

/-- The computed curve, from a computed position. -/
theorem fade_near (hp : 1 ≤ p) (h : IsRound p rnd) {t t' : K} (t0 : 0 ≤ t) (t1 : t ≤ 1) (ht : Near (eps K p) 1 t' t t) :
    |fadeF rnd t' - Perlin.fade t| ≤ ((1 + eps K p) ^ 12 - 1) * 31 := by
  have e0 := (eps_pos (K := K) p).le
  have r := fun x : K => Near.refl (eps K p) x
  have b := (((ht.mul e0 ht).round hp h le_rfl).mul e0 ht).round hp h le_rfl
  have c := (ht.mul e0 (r 6)).round hp h le_rfl
  have d := (c.sub ((r 15).mono e0 (Nat.zero_le _))).round hp h le_rfl
  have f := (((ht.mul e0 d).round hp h le_rfl).add ((r 10).mono e0 (Nat.zero_le _))).round hp h le_rfl
  have g := ((b.mul e0 f).round hp h le_rfl).weaken e0 (Z := 31) (by
    rw [abs_of_pos (show (0 : K) < 6 by norm_num), abs_of_pos (show (0 : K) < 15 by norm_num), abs_of_pos (show (0 : K) < 10 by norm_num)]
    have h3 : t * t * t ≤ 1 := by
      have := pow_le_one₀ (n := 3) t0 t1
      calc t * t * t = t ^ 3 := by ring
        _ ≤ 1 := this
    have h4 : t * (t * 6 + 15) + 10 ≤ 31 := by nlinarith
    calc t * t * t * (t * (t * 6 + 15) + 10) ≤ 1 * 31 := mul_le_mul h3 h4 (by positivity) zero_le_one
      _ = 31 := one_mul _)
  exact (g.mono e0 (show _ ≤ 12 by norm_num)).1

omit [FloorRing K] in
theorem fade_index {e : K} (e0 : 0 < e) (e1 : e ≤ 1 / 1024) : (1 + e) ^ 12 - 1 ≤ 1211 / 100 * e := by
  have h4 : (1 + e) ^ 4 ≤ 1 + 401 / 100 * e := by
    have e2 : e ^ 2 ≤ e / 1024 := by nlinarith
    have e3 : e ^ 3 ≤ e / 1024 / 1024 := by nlinarith
    have e4 : e ^ 4 ≤ e / 1024 / 1024 := by nlinarith [pow_pos e0 3]
    have : (1 + e) ^ 4 = 1 + 4 * e + 6 * e ^ 2 + 4 * e ^ 3 + e ^ 4 := by ring
    linarith
  have h8 : (1 + e) ^ 4 * (1 + e) ^ 4 ≤ 1 + 804 / 100 * e := by
    have := mul_le_mul h4 h4 (by positivity) (by positivity)
    nlinarith
  have : (1 + e) ^ 12 = (1 + e) ^ 4 * (1 + e) ^ 4 * (1 + e) ^ 4 := by ring
  rw [this]
  have := mul_le_mul h8 h4 (by positivity) (by positivity)
  nlinarith

omit [FloorRing K] in
theorem pow_room {e G : K} (e0 : 0 ≤ e) (G0 : 0 ≤ G) (k m : ℕ) : (1 + m * e) * ((1 + e) ^ k * G) ≤ (1 + e) ^ (k + m) * G := by
  have A0 : 0 ≤ (1 + e) ^ k * G := mul_nonneg (pow_nonneg (by linarith) k) G0
  have := mul_le_mul_of_nonneg_right (one_add_mul_le_pow (show -2 ≤ e by linarith) m) A0
  rw [pow_add]
  calc (1 + m * e) * ((1 + e) ^ k * G) ≤ (1 + e) ^ m * ((1 + e) ^ k * G) := this
    _ = (1 + e) ^ k * (1 + e) ^ m * G := by ring

/-- One interpolation with the computed weight. -/
theorem mix_weight (hp : 10 ≤ p) (h : IsRound p rnd) {t t' : K} (t0 : 0 ≤ t) (t1 : t ≤ 1) (ft : IsFloat p t') (ht : |t' - t| ≤ 376 * eps K p) {k : ℕ}
    {a a' b b' G : K} (fa : IsFloat p a') (fb : IsFloat p b') (ha : Near (eps K p) k a' a G) (hb : Near (eps K p) k b' b G) :
    Near (eps K p) (k + 757) (mix rnd t' a' b') (Util.mix t a b) G := by
  have e0 := eps_pos (K := K) p
  have e1 := eps_small (K := K) hp
  have hp1 : 1 ≤ p := by omega
  have G0 := ha.pos
  have hr : |rnd (1 - t') - (1 - t)| ≤ 378 * eps K p := by
    have h1 := h.rel hp1 (1 - t')
    have h2 : |1 - t'| ≤ 1 + 376 * eps K p := by
      have := abs_sub_le (1 - t') (1 - t) 0
      rw [sub_zero, sub_zero, show 1 - t' - (1 - t) = -(t' - t) by ring, abs_neg, abs_of_nonneg (show 0 ≤ 1 - t by linarith)] at this
      linarith
    have h3 := abs_sub_le (rnd (1 - t')) (1 - t') (1 - t)
    rw [show 1 - t' - (1 - t) = -(t' - t) by ring, abs_neg] at h3
    have h4 := mul_le_mul_of_nonneg_left h2 e0.le
    change _ ≤ eps K p * _ at h1
    nlinarith
  have hm : |Util.mix t a b| ≤ G := by
    have : Util.mix t a b = (1 - t) * a + t * b := by rw [Util.mix]; try ring
    rw [this]
    refine (abs_add_le _ _).trans ?_
    rw [abs_mul, abs_mul, abs_of_nonneg t0, abs_of_nonneg (show 0 ≤ 1 - t by linarith)]
    have h1 := mul_le_mul_of_nonneg_left ha.2 (show 0 ≤ 1 - t by linarith)
    have h2 := mul_le_mul_of_nonneg_left hb.2 t0
    linarith
  refine Near.sumOfProducts hp1 h (k := k + 754) (h.mem _) fa ft fb ⟨?_, hm⟩
  have sa := ha.size
  have sb := hb.size
  set A := (1 + eps K p) ^ k * G with hA
  have A0 : 0 ≤ A := by positivity
  have E := pow_room (G := G) e0.le G0 k 754
  rw [← hA] at E
  push_cast at E
  have h1 := mul_le_mul hr sa (abs_nonneg _) (by positivity)
  have h2 := mul_le_mul ht sb (abs_nonneg _) (by positivity)
  have h3 := mul_le_mul_of_nonneg_left ha.1 (show 0 ≤ 1 - t by linarith)
  have h4 := mul_le_mul_of_nonneg_left hb.1 t0
  have : rnd (1 - t') * a' + t' * b' - Util.mix t a b = (rnd (1 - t') - (1 - t)) * a' + (t' - t) * b' + ((1 - t) * (a' - a) + t * (b' - b)) := by
    rw [Util.mix]
    ring
  rw [this]
  refine (abs_add_le _ _).trans ((add_le_add (abs_add_le _ _) (abs_add_le _ _)).trans ?_)
  rw [abs_mul, abs_mul, abs_mul, abs_mul, abs_of_nonneg t0, abs_of_nonneg (show 0 ≤ 1 - t by linarith)]
  generalize (1 + eps K p) ^ (k + 754) = Q at E ⊢
  have hB : ((1 + eps K p) ^ k - 1) * G = A - G := by rw [hA]; ring
  rw [hB] at h3 h4
  linarith

/-! ## The passes -/

omit [LinearOrder K] [IsStrictOrderedRing K] [FloorRing K] in
theorem noisePass_eq (t : K) (n : ℕ) (f : ℕ → K) (q : ℕ) :
    noisePass rnd t n f q = if q < n then mix rnd t (f (q * 2)) (f (q * 2 + 1)) else f q := by
  unfold noisePass
  induction n generalizing q with
  | zero => simp
  | succ n ih =>
    rw [List.range_succ, List.foldl_append, List.foldl_cons, List.foldl_nil]
    by_cases hq : q = n
    · subst hq
      rw [Function.update_self, ih, ih, if_neg (by omega), if_neg (by omega), if_pos (by omega)]
    · rw [Function.update_of_ne hq, ih]
      split_ifs <;> first | rfl | omega

theorem passes_near (hp : 10 ≤ p) (h : IsRound p rnd) {x x' : Fin N → K} (hx : ∀ i, 0 ≤ x i ∧ x i ≤ 1) (hx' : ∀ i, Near (eps K p) 1 (x' i) (x i) (x i))
    {f f' : ℕ → K} {k : ℕ} {G : K} (ff : ∀ q, IsFloat p (f' q)) (hf : ∀ q, Near (eps K p) k (f' q) (f q) G) (j : ℕ) (q : ℕ) :
    IsFloat p (noisePasses rnd x' f' j q) ∧ Near (eps K p) (k + 757 * j) (noisePasses rnd x' f' j q) (Perlin.passes x f j q) G := by
  have e0 := eps_pos (K := K) p
  induction j generalizing q with
  | zero => exact ⟨ff q, hf q⟩
  | succ j ih =>
    by_cases hj : j < N
    · simp only [noisePasses, Perlin.passes, hj, dif_pos, noisePass_eq, Perlin.pass_eq]
      obtain ⟨x0, x1⟩ := hx ⟨j, hj⟩
      obtain ⟨u0, u1⟩ := fade_unit x0 x1
      have ht : |fadeF rnd (x' ⟨j, hj⟩) - Perlin.fade (x ⟨j, hj⟩)| ≤ 376 * eps K p := by
        refine (fade_near (by omega) h x0 x1 (hx' ⟨j, hj⟩)).trans ?_
        have := fade_index e0 (eps_small (K := K) hp)
        linarith
      have e : k + 757 * (j + 1) = k + 757 * j + 757 := by omega
      rw [e]
      split_ifs
      · exact ⟨h.mem _, mix_weight hp h u0 u1 (h.mem _) ht (ih _).1 (ih _).1 (ih _).2 (ih _).2⟩
      · exact ⟨(ih q).1, (ih q).2.mono e0.le (by omega)⟩
    · simp only [noisePasses, Perlin.passes, hj, dif_neg, not_false_eq_true]
      exact ⟨(ih q).1, (ih q).2.mono e0.le (by omega)⟩

omit [FloorRing K] [IsStrictOrderedRing K] [LinearOrder K] in
theorem corner_cases (c : ℕ) (i : Fin N) : ((Perlin.corner N c i : ℤ) : K) = 0 ∨ ((Perlin.corner N c i : ℤ) : K) = 1 := by
  rw [Perlin.corner]
  split_ifs
  · exact Or.inr (by norm_num)
  · exact Or.inl (by norm_num)

theorem planes_near (hp : 1 ≤ p) (h : IsRound p rnd) {grad : (Fin N → ℤ) → Fin N → K} {G : K} (hG : ∀ q, ∑ i, |grad q i| ≤ G) (p0 : Fin N → ℤ)
    {x x' : Fin N → K} (hx : ∀ i, 0 ≤ x i ∧ x i ≤ 1) (hx' : ∀ i, Near (eps K p) 1 (x' i) (x i) (x i)) (c : ℕ) :
    Near (eps K p) (N + 2) (noisePlanes rnd grad p0 x' c) (Perlin.planes grad p0 x c) G := by
  have e0 := eps_pos (K := K) p
  set g := grad fun i => p0 i + Perlin.corner N c i with hg
  have size : ∀ i, |x i - ((Perlin.corner N c i : ℤ) : K)| ≤ 1 := fun i => by
    obtain ⟨h0, h1⟩ := hx i
    rcases corner_cases (K := K) c i with e | e <;> rw [e, abs_le] <;> constructor <;> linarith
  have n1 : ∀ i, Near (eps K p) 2 (rnd (x' i - ((Perlin.corner N c i : ℤ) : K)) * g i) ((x i - ((Perlin.corner N c i : ℤ) : K)) * g i) (1 * |g i|) := fun i => by
    have a : Near (eps K p) 1 (x' i - ((Perlin.corner N c i : ℤ) : K)) (x i - ((Perlin.corner N c i : ℤ) : K)) 1 := by
      refine ⟨?_, size i⟩
      rw [sub_sub_sub_cancel_right]
      refine (hx' i).1.trans ?_
      have := (hx i).2
      rw [pow_one, add_sub_cancel_left]
      exact mul_le_mul_of_nonneg_left this e0.le
    exact (a.round hp h le_rfl).mul e0.le (Near.refl _ (g i))
  have hs : ∑ i, 1 * |g i| ≤ G := by
    simp only [one_mul]
    exact hG _
  constructor
  · have := sum_near (c := (1 + eps K p) ^ N) (one_le_pow₀ (by linarith)) n1 (C104_dot hp h (fun i => rnd (x' i - ((Perlin.corner N c i : ℤ) : K))) g)
    rw [← pow_add, add_comm 2 N] at this
    exact this.trans (mul_le_mul_of_nonneg_left hs (sub_nonneg.2 (one_le_pow₀ (by linarith))))
  · exact (Finset.abs_sum_le_sum_abs _ _).trans ((Finset.sum_le_sum fun i _ => (n1 i).2).trans hs)

theorem cell_near (hp : 1 ≤ p) (h : IsRound p rnd) (pt : Fin N → K) (i : Fin N) :
    (0 ≤ pt i - ((⌊pt i⌋ : ℤ) : K) ∧ pt i - ((⌊pt i⌋ : ℤ) : K) ≤ 1) ∧
    Near (eps K p) 1 (cellPos rnd pt i) (pt i - ((⌊pt i⌋ : ℤ) : K)) (pt i - ((⌊pt i⌋ : ℤ) : K)) := by
  have h0 : 0 ≤ pt i - ((⌊pt i⌋ : ℤ) : K) := sub_nonneg.2 (Int.floor_le _)
  have h1 : pt i - ((⌊pt i⌋ : ℤ) : K) ≤ 1 := by linarith [Int.lt_floor_add_one (pt i)]
  have := (Near.refl (eps K p) (pt i - ((⌊pt i⌋ : ℤ) : K))).round hp h le_rfl
  rw [abs_of_nonneg h0] at this
  exact ⟨⟨h0, h1⟩, this⟩

/-! ## The noise -/

/-- **C135.** The computed noise is within `758 N + 2` rounding errors of the exact one, relative to a bound `G` of the sums of the sizes of the
coordinates of the gradients, at every point and for every number of dimensions. -/
theorem C135_noise (hp : 10 ≤ p) (h : IsRound p rnd) {grad : (Fin N → ℤ) → Fin N → K} {G : K} (hG : ∀ q, ∑ i, |grad q i| ≤ G) (pt : Fin N → K) :
    |noiseF rnd grad pt - Perlin.eval grad pt| ≤ ((1 + eps K p) ^ (758 * N + 2) - 1) * G := by
  have hp1 : 1 ≤ p := by omega
  have hx := fun i => (cell_near (rnd := rnd) hp1 h pt i).1
  have hx' := fun i => (cell_near (rnd := rnd) hp1 h pt i).2
  have := (passes_near hp h hx hx' (fun q => dot_float h _ _) (planes_near hp1 h hG (fun i => ⌊pt i⌋) hx hx') N 0).2.1
  rw [show 758 * N + 2 = N + 2 + 757 * N by ring]
  exact this

/-! ## Grid points -/

/-- **C135.** The position within a cell lies between `0` and `1`, both included: tiny negative coordinates are moved to the far side of their
cell. -/
theorem C135_cell (hp : 1 ≤ p) (h : IsRound p rnd) (pt : Fin N → K) (i : Fin N) : 0 ≤ cellPos rnd pt i ∧ cellPos rnd pt i ≤ 1 := by
  obtain ⟨⟨h0, h1⟩, -⟩ := cell_near (rnd := rnd) hp h pt i
  constructor
  · have := h.mono h0
    rwa [h.fix (float_zero p)] at this
  · have := h.mono h1
    have n1 : rnd 1 = 1 := h.fix (by simpa using float_pow (K := K) hp 0)
    rwa [n1] at this

theorem fadeF_ends (hp : 10 ≤ p) (h : IsRound p rnd) : fadeF rnd 0 = 0 ∧ fadeF rnd 1 = 1 := by
  have hp1 : 1 ≤ p := by omega
  have e1 := eps_small (K := K) hp
  have z : rnd 0 = 0 := h.fix (float_zero p)
  have n1 : rnd 1 = 1 := h.fix (by simpa using float_pow (K := K) hp1 0)
  have n6 : rnd 6 = 6 := by simpa using rnd_nat (K := K) hp1 h (k := 6) (by push_cast; linarith)
  have n9 : rnd (-9) = -9 := by simpa using rnd_sign (K := K) hp1 h (s := -1) (Or.inr rfl) (k := 9) (by push_cast; linarith) 1
  constructor
  · simp only [fadeF, mul_zero, zero_mul, z]
  · simp only [fadeF, mul_one, one_mul, n1, n6, show (6 : K) - 15 = -9 by norm_num, n9, show (-9 : K) + 10 = 1 by norm_num]

/-- The corner a position at the ends of the cell selects. -/
def selIdx (x : Fin N → K) : ℕ → ℕ
  | 0 => 0
  | j + 1 => if h : j < N then (if x ⟨j, h⟩ = 1 then 2 ^ j + selIdx x j else selIdx x j) else selIdx x j

omit [IsStrictOrderedRing K] [FloorRing K] in
theorem selIdx_lt (x : Fin N → K) (j : ℕ) : selIdx x j < 2 ^ j := by
  induction j with
  | zero => simp [selIdx]
  | succ j ih =>
    rw [selIdx, pow_succ]
    split_ifs <;> omega

omit [IsStrictOrderedRing K] [FloorRing K] in
theorem selIdx_bit (x : Fin N → K) (j : ℕ) (i : Fin N) (hi : (i : ℕ) < j) : (selIdx x j).testBit i = decide (x i = 1) := by
  induction j with
  | zero => omega
  | succ j ih =>
    rw [selIdx]
    by_cases hij : (i : ℕ) = j
    · have hj : j < N := hij ▸ i.2
      have hfin : (⟨j, hj⟩ : Fin N) = i := Fin.ext hij.symm
      have hlow : (selIdx x j).testBit j = false := Nat.testBit_lt_two_pow (selIdx_lt x j)
      rw [dif_pos hj, hfin, hij]
      split_ifs with h1
      · rw [Nat.testBit_two_pow_add_eq, hlow]
        simp [h1]
      · rw [hlow]
        simp [h1]
    · have hlt : (i : ℕ) < j := by omega
      split_ifs
      · rw [Nat.testBit_two_pow_add_gt hlt]
        exact ih hlt
      · exact ih hlt
      · exact ih hlt

theorem passes_select (hp : 10 ≤ p) (h : IsRound p rnd) {x : Fin N → K} (hx : ∀ i, x i = 0 ∨ x i = 1) {f : ℕ → K} (ff : ∀ q, IsFloat p (f q)) (j : ℕ) (hj : j ≤ N) (q : ℕ)
    (hq : q < 2 ^ (N - j)) : noisePasses rnd x f j q = f (q * 2 ^ j + selIdx x j) := by
  have hp1 : 1 ≤ p := by omega
  induction j generalizing q with
  | zero => simp [noisePasses, selIdx]
  | succ j ih =>
    have hjN : j < N := by omega
    have hpow : 2 ^ (N - j) = 2 * 2 ^ (N - j - 1) := by
      rw [← pow_succ']
      congr 1
      omega
    have hq' : q < 2 ^ (N - j - 1) := by rwa [show N - (j + 1) = N - j - 1 by omega] at hq
    rw [noisePasses, dif_pos hjN, noisePass_eq, if_pos hq', ih (by omega) _ (by omega), ih (by omega) _ (by omega), selIdx, dif_pos hjN]
    obtain ⟨f0, f1⟩ := fadeF_ends hp h
    obtain ⟨m0, m1⟩ := C95_mix hp1 h (ff (q * 2 * 2 ^ j + selIdx x j)) (ff ((q * 2 + 1) * 2 ^ j + selIdx x j))
    rcases hx ⟨j, hjN⟩ with e | e
    · rw [e, f0, m0, if_neg zero_ne_one]
      congr 1
      ring
    · rw [e, f1, m1, if_pos rfl]
      congr 1
      ring

/-- **C135.** Wherever the computed position within the cell is an end of the cell along every axis, the computed noise is exactly zero, whatever
the gradients. -/
theorem C135_corners (hp : 10 ≤ p) (h : IsRound p rnd) (grad : (Fin N → ℤ) → Fin N → K) (pt : Fin N → K)
    (hx : ∀ i, cellPos rnd pt i = 0 ∨ cellPos rnd pt i = 1) : noiseF rnd grad pt = 0 := by
  have z : rnd 0 = 0 := h.fix (float_zero p)
  rw [noiseF, passes_select (f := noisePlanes rnd grad (fun i => ⌊pt i⌋) (cellPos rnd pt)) hp h hx (fun q => dot_float h _ _) N le_rfl 0 (by simp), zero_mul, zero_add, noisePlanes]
  have : (fun i => rnd (cellPos rnd pt i - ((Perlin.corner N (selIdx (cellPos rnd pt) N) i : ℤ) : K))) = fun _ => 0 := by
    funext i
    rw [Perlin.corner_eq, selIdx_bit _ _ _ i.2]
    rcases hx i with e | e <;> simp [e, z]
  rw [this]
  have hz := C104_dot (p := p) (by omega) h (fun _ : Fin N => (0 : K)) (grad fun i => ⌊pt i⌋ + Perlin.corner N (selIdx (cellPos rnd pt) N) i)
  simp only [zero_mul, Finset.sum_const_zero, abs_zero, mul_zero, sub_zero] at hz
  exact abs_eq_zero.1 (le_antisymm hz (abs_nonneg _))

/-- **C135.** The computed noise is exactly zero at every grid point. -/
theorem C135_grid (hp : 10 ≤ p) (h : IsRound p rnd) (grad : (Fin N → ℤ) → Fin N → K) (q : Fin N → ℤ) : noiseF rnd grad (fun i => (q i : K)) = 0 := by
  refine C135_corners hp h grad _ fun i => Or.inl ?_
  rw [cellPos, Int.floor_intCast, sub_self]
  exact h.fix (float_zero p)

/-! ## The slope -/

omit [FloorRing K] in
theorem dfade_size {t : K} (t0 : 0 ≤ t) (t1 : t ≤ 1) : |Perlin.dfade t| ≤ 15 / 8 := by
  have h1 : t * (1 - t) ≤ 1 / 4 := by nlinarith [sq_nonneg (t - 1 / 2)]
  have h0 : 0 ≤ t * (1 - t) := mul_nonneg t0 (by linarith)
  have : Perlin.dfade t = 30 * (t * (1 - t)) ^ 2 := by
    rw [Perlin.dfade]
    ring
  rw [this, abs_of_nonneg (by positivity)]
  have := pow_le_pow_left₀ h0 h1 2
  linarith

theorem dfade_near (hp : 10 ≤ p) (h : IsRound p rnd) {t t' : K} (t0 : 0 ≤ t) (t1 : t ≤ 1) (ht : Near (eps K p) 1 t' t t) :
    Near (eps K p) 194 (dfadeF rnd t') (Perlin.dfade t) (15 / 8) := by
  have hp1 : 1 ≤ p := by omega
  have e0 := eps_pos (K := K) p
  have u := ht.weaken e0.le t1
  have w : Near (eps K p) 2 (rnd (t' - 1)) (t - 1) 1 := by
    refine Near.round hp1 h le_rfl (k := 1) ⟨?_, ?_⟩
    · rw [sub_sub_sub_cancel_right]
      exact u.1
    · rw [abs_le]
      constructor <;> linarith
  have g := ((((((((Near.refl (eps K p) 30).mul e0.le w).round hp1 h le_rfl).mul e0.le w).round hp1 h le_rfl).mul e0.le u).round hp1 h le_rfl).mul e0.le u).round hp1 h le_rfl
  have g := (g.mono e0.le (show _ ≤ 12 by norm_num)).1
  rw [mul_one, mul_one, mul_one, mul_one, abs_of_pos (show (0 : K) < 30 by norm_num)] at g
  refine ⟨?_, dfade_size t0 t1⟩
  have b := one_add_mul_le_pow (show -2 ≤ eps K p by linarith) 194
  push_cast at b
  have := fade_index e0 (eps_small (K := K) hp)
  refine g.trans ?_
  linarith

omit [LinearOrder K] [IsStrictOrderedRing K] [FloorRing K] in
theorem slopePass_eq (axis : Fin N) (t dt : K) (n : ℕ) (s : Perlin.St N K) (q : ℕ) :
    slopePass rnd axis t dt n s q = if q < n then
      (mix rnd t (s (q * 2)).1 (s (q * 2 + 1)).1, fun i =>
        rnd (rnd ((if i = axis then rnd (0 + rnd (rnd ((s (q * 2 + 1)).1 - (s (q * 2)).1) * dt)) else 0) + rnd (rnd (1 - t) * (s (q * 2)).2 i)) +
          rnd (t * (s (q * 2 + 1)).2 i))) else s q := by
  unfold slopePass
  induction n generalizing q with
  | zero => simp
  | succ n ih =>
    rw [List.range_succ, List.foldl_append, List.foldl_cons, List.foldl_nil]
    generalize hG : (List.range n).foldl (slopeBody rnd axis t dt) s = G at ih ⊢
    unfold slopeBody
    by_cases hq : q = n
    · subst hq
      simp only [Function.update_self]
      rw [ih, ih, if_neg (by omega), if_neg (by omega), if_pos (by omega)]
      ext i
      · rfl
      · simp only [Function.update_apply]
    · rw [Function.update_of_ne hq, ih]
      split_ifs <;> first | rfl | omega

omit [LinearOrder K] [IsStrictOrderedRing K] [FloorRing K] in
theorem slope_value (x : Fin N → K) (s : Perlin.St N K) (j q : ℕ) : (slopePasses rnd x s j q).1 = noisePasses rnd x (fun c => (s c).1) j q := by
  induction j generalizing q with
  | zero => rfl
  | succ j ih =>
    rw [slopePasses, noisePasses]
    split_ifs
    · rw [slopePass_eq, noisePass_eq]
      split_ifs
      · simp only [ih]
      · exact ih q
    · exact ih q

omit [LinearOrder K] [IsStrictOrderedRing K] [FloorRing K] in
theorem exact_value (x : Fin N → K) (s : Perlin.St N K) (j q : ℕ) : (Perlin.gradPasses x s j q).1 = Perlin.passes x (fun c => (s c).1) j q := by
  induction j generalizing q with
  | zero => rfl
  | succ j ih =>
    rw [Perlin.gradPasses, Perlin.passes]
    split_ifs
    · rw [Perlin.gradPass_eq, Perlin.pass_eq]
      split_ifs
      · simp only [ih]
      · exact ih q
    · exact ih q

/-- An approximation with explicit total size. -/
theorem round_total (hp : 1 ≤ p) (h : IsRound p rnd) {x' x X Z : K} (hx : |x' - x| ≤ Z - X) (hX : |x| ≤ X) : |rnd x' - x| ≤ (1 + eps K p) * Z - X := by
  have e0 := eps_pos (K := K) p
  have h1 := h.rel hp x'
  change _ ≤ eps K p * _ at h1
  have h2 := abs_sub_le (rnd x') x' x
  have h3 : |x'| ≤ Z := by
    have := abs_sub_abs_le_abs_sub x' x
    linarith
  have := mul_le_mul_of_nonneg_left h3 e0.le
  linarith

omit [FloorRing K] in
theorem total_room {e R S D P Q : K} (e0 : 0 ≤ e) (R0 : 0 ≤ R) (S0 : 0 ≤ S) (Q0 : 0 ≤ Q) (hPQ : P + Q ≤ R * D) :
    (1 + e) * ((1 + e) * (R * S + (1 + e) * P) + (1 + e) * Q) ≤ (1 + e) * ((1 + e) * ((1 + e) * R)) * (S + D) := by
  have h1 : R * S ≤ (1 + e) * (R * S) := le_mul_of_one_le_left (by positivity) (by linarith)
  have h2 : Q ≤ (1 + e) * Q := le_mul_of_one_le_left Q0 (by linarith)
  have h3 := mul_le_mul_of_nonneg_left hPQ (show 0 ≤ 1 + e by linarith)
  have h4 : R * S + (1 + e) * P + Q ≤ (1 + e) * (R * (S + D)) := by linarith
  have := mul_le_mul_of_nonneg_left h4 (show 0 ≤ (1 + e) * (1 + e) by positivity)
  linarith

theorem slope_step (hp : 10 ≤ p) (h : IsRound p rnd) {t t' : K} (t0 : 0 ≤ t) (t1 : t ≤ 1) (ht : |t' - t| ≤ 376 * eps K p) {k : ℕ}
    {a a' b b' s s' S D : K} (ha : Near (eps K p) k a' a D) (hb : Near (eps K p) k b' b D) (hs : Near (eps K p) (k + 754) s' s S) :
    Near (eps K p) (k + 757) (rnd (rnd (s' + rnd (rnd (1 - t') * a')) + rnd (t' * b'))) (s + (1 - t) * a + t * b) (S + D) := by
  have e0 := eps_pos (K := K) p
  have e1 := eps_small (K := K) hp
  have hp1 : 1 ≤ p := by omega
  have D0 := ha.pos
  have S0 := hs.pos
  have t2 : 0 ≤ 1 - t := by linarith
  have hr : |rnd (1 - t') - (1 - t)| ≤ 378 * eps K p := by
    have h1 := h.rel hp1 (1 - t')
    have h2 : |1 - t'| ≤ 1 + 376 * eps K p := by
      have := abs_sub_le (1 - t') (1 - t) 0
      rw [sub_zero, sub_zero, show 1 - t' - (1 - t) = -(t' - t) by ring, abs_neg, abs_of_nonneg t2] at this
      linarith
    have h3 := abs_sub_le (rnd (1 - t')) (1 - t') (1 - t)
    rw [show 1 - t' - (1 - t) = -(t' - t) by ring, abs_neg] at h3
    have h4 := mul_le_mul_of_nonneg_left h2 e0.le
    change _ ≤ eps K p * _ at h1
    nlinarith
  have sa := ha.size
  have sb := hb.size
  have E := pow_room (G := D) e0.le D0 k 754
  push_cast at E
  set A := (1 + eps K p) ^ k * D with hA
  have A0 : 0 ≤ A := by positivity
  have hB : ((1 + eps K p) ^ k - 1) * D = A - D := by rw [hA]; ring
  have ha1 := ha.1
  have hb1 := hb.1
  rw [hB] at ha1 hb1
  have u1 : |rnd (1 - t') * a' - (1 - t) * a| ≤ (378 * eps K p * A + (1 - t) * A) - (1 - t) * D := by
    have h1 := mul_le_mul hr sa (abs_nonneg _) (by positivity)
    have h3 := mul_le_mul_of_nonneg_left ha1 t2
    rw [show rnd (1 - t') * a' - (1 - t) * a = (rnd (1 - t') - (1 - t)) * a' + (1 - t) * (a' - a) by ring]
    refine (abs_add_le _ _).trans ?_
    rw [abs_mul, abs_mul, abs_of_nonneg t2]
    linarith
  have v1 : |t' * b' - t * b| ≤ (376 * eps K p * A + t * A) - t * D := by
    have h1 := mul_le_mul ht sb (abs_nonneg _) (by positivity)
    have h3 := mul_le_mul_of_nonneg_left hb1 t0
    rw [show t' * b' - t * b = (t' - t) * b' + t * (b' - b) by ring]
    refine (abs_add_le _ _).trans ?_
    rw [abs_mul, abs_mul, abs_of_nonneg t0]
    linarith
  have ua : |(1 - t) * a| ≤ (1 - t) * D := by
    rw [abs_mul, abs_of_nonneg t2]
    exact mul_le_mul_of_nonneg_left ha.2 t2
  have vb : |t * b| ≤ t * D := by
    rw [abs_mul, abs_of_nonneg t0]
    exact mul_le_mul_of_nonneg_left hb.2 t0
  have P0 : 0 ≤ 376 * eps K p * A + t * A := by positivity
  have hPQ : 378 * eps K p * A + (1 - t) * A + (376 * eps K p * A + t * A) ≤ (1 + eps K p) ^ (k + 754) * D := le_trans (le_of_eq (by ring)) E
  obtain ⟨P, hP⟩ : ∃ P, P = 378 * eps K p * A + (1 - t) * A := ⟨_, rfl⟩
  obtain ⟨Q, hQ⟩ : ∃ Q, Q = 376 * eps K p * A + t * A := ⟨_, rfl⟩
  rw [← hP] at u1 hPQ
  rw [← hQ] at v1 P0 hPQ
  have u2 := round_total hp1 h u1 ua
  have v2 := round_total hp1 h v1 vb
  have s1 : |s' - s| ≤ (1 + eps K p) ^ (k + 754) * S - S := by
    have := hs.1
    rwa [sub_mul, one_mul] at this
  have q0 : 0 ≤ (1 + eps K p) ^ (k + 754) := pow_nonneg (by linarith) _
  have hR : (1 + eps K p) ^ (k + 757) = (1 + eps K p) * ((1 + eps K p) * ((1 + eps K p) * (1 + eps K p) ^ (k + 754))) := by
    rw [show k + 757 = k + 754 + 1 + 1 + 1 by omega, pow_succ', pow_succ', pow_succ']
  have su' : |s + (1 - t) * a| ≤ S + (1 - t) * D := (abs_add_le _ _).trans (add_le_add hs.2 ua)
  obtain ⟨R, hR'⟩ : ∃ R, R = (1 + eps K p) ^ (k + 754) := ⟨_, rfl⟩
  rw [← hR'] at s1 q0 hR hPQ
  have su : |s' + rnd (rnd (1 - t') * a') - (s + (1 - t) * a)| ≤ (R * S + (1 + eps K p) * P) - (S + (1 - t) * D) := by
    rw [add_sub_add_comm]
    exact (abs_add_le _ _).trans ((add_le_add s1 u2).trans (le_of_eq (by ring)))
  have w1 := round_total hp1 h su su'
  have wv : |rnd (s' + rnd (rnd (1 - t') * a')) + rnd (t' * b') - (s + (1 - t) * a + t * b)| ≤
      ((1 + eps K p) * (R * S + (1 + eps K p) * P) + (1 + eps K p) * Q) - (S + D) := by
    rw [add_sub_add_comm]
    exact (abs_add_le _ _).trans ((add_le_add w1 v2).trans (le_of_eq (by ring)))
  have wv' : |s + (1 - t) * a + t * b| ≤ S + D :=
    (abs_add_le _ _).trans ((add_le_add su' vb).trans (le_of_eq (by ring)))
  refine ⟨(round_total hp1 h wv wv').trans ?_, wv'⟩
  rw [hR, sub_mul, one_mul]
  exact sub_le_sub_right (total_room e0.le q0 S0 P0 hPQ) _

theorem slopes_near (hp : 10 ≤ p) (h : IsRound p rnd) {x x' : Fin N → K} (hx : ∀ i, 0 ≤ x i ∧ x i ≤ 1) (hx' : ∀ i, Near (eps K p) 1 (x' i) (x i) (x i))
    {s s' : Perlin.St N K} {k : ℕ} {G : K} (ff : ∀ q, IsFloat p (s' q).1) (hf : ∀ q, Near (eps K p) k (s' q).1 (s q).1 G)
    (hd : ∀ q i, Near (eps K p) k ((s' q).2 i) ((s q).2 i) G) (j q : ℕ) (i : Fin N) :
    Near (eps K p) (k + 757 * j) ((slopePasses rnd x' s' j q).2 i) ((Perlin.gradPasses x s j q).2 i) (if (i : ℕ) < j then 15 / 4 * G + G else G) := by
  have hp1 : 1 ≤ p := by omega
  have e0 := eps_pos (K := K) p
  have G0 := (hf 0).pos
  have val : ∀ j q, Near (eps K p) (k + 757 * j) (slopePasses rnd x' s' j q).1 (Perlin.gradPasses x s j q).1 G := fun j q => by
    rw [slope_value, exact_value]
    exact (passes_near hp h hx hx' ff hf j q).2
  have grow : ∀ j, (if (i : ℕ) < j then 15 / 4 * G + G else G) ≤ (if (i : ℕ) < j + 1 then 15 / 4 * G + G else G) := fun j => by
    split_ifs <;> first | omega | linarith
  induction j generalizing q with
  | zero => exact hd q i
  | succ j ih =>
    have e : k + 757 * (j + 1) = k + 757 * j + 757 := by omega
    rw [e]
    by_cases hj : j < N
    · simp only [slopePasses, Perlin.gradPasses, hj, dif_pos, slopePass_eq, Perlin.gradPass_eq]
      obtain ⟨x0, x1⟩ := hx ⟨j, hj⟩
      obtain ⟨u0, u1⟩ := fade_unit x0 x1
      have ht : |fadeF rnd (x' ⟨j, hj⟩) - Perlin.fade (x ⟨j, hj⟩)| ≤ 376 * eps K p := by
        refine (fade_near (by omega) h x0 x1 (hx' ⟨j, hj⟩)).trans ?_
        have := fade_index e0 (eps_small (K := K) hp)
        linarith
      by_cases hq : q < 2 ^ (N - j - 1)
      · rw [if_pos hq, if_pos hq]
        by_cases hi : i = ⟨j, hj⟩
        · have hij : (i : ℕ) = j := by rw [hi]
          have i0 := ih (q * 2)
          have i1 := ih (q * 2 + 1)
          rw [if_neg (by omega)] at i0 i1
          rw [if_pos (by omega)]
          simp only [if_pos hi]
          have d := dfade_near hp h x0 x1 (hx' ⟨j, hj⟩)
          have m := (((((val j (q * 2 + 1)).sub (val j (q * 2))).round hp1 h le_rfl).mul e0.le d).round hp1 h le_rfl).round hp1 h le_rfl
          rw [← zero_add (rnd (rnd _ * _))] at m
          refine slope_step hp h u0 u1 ht i0 i1 ((m.weaken e0.le ?_).mono e0.le ?_)
          · linarith
          · omega
        · have hij : (i : ℕ) ≠ j := fun c => hi (Fin.ext c)
          simp only [if_neg hi]
          have z : Near (eps K p) (k + 757 * j + 754) (0 : K) 0 0 := ⟨by simp, by simp⟩
          have := slope_step hp h u0 u1 ht (ih (q * 2)) (ih (q * 2 + 1)) z
          rw [zero_add (if (i : ℕ) < j then 15 / 4 * G + G else G)] at this
          exact this.weaken e0.le (grow j)
      · rw [if_neg hq, if_neg hq]
        exact ((ih q).mono e0.le (by omega)).weaken e0.le (grow j)
    · simp only [slopePasses, Perlin.gradPasses, hj, dif_neg, not_false_eq_true]
      exact ((ih q).mono e0.le (by omega)).weaken e0.le (grow j)

/-- **C135.** In every number of dimensions but one, the value returned along with the gradient is that of the noise to the last bit, and every
coordinate of the computed gradient is within `758 N + 2` rounding errors of the exact one, relative to `19/4` of the bound of the gradients of
the grid. -/
theorem C135_gradient (hN : N ≠ 1) (hp : 10 ≤ p) (h : IsRound p rnd) {grad : (Fin N → ℤ) → Fin N → K} {G : K} (hG : ∀ q, ∑ i, |grad q i| ≤ G) (pt : Fin N → K) :
    ∃ v v' w w', Perlin.gradient grad pt = some (v, w) ∧ noiseSlopeF rnd grad pt = some (v', w') ∧ v' = noiseF rnd grad pt ∧
      ∀ i, |w' i - w i| ≤ ((1 + eps K p) ^ (758 * N + 2) - 1) * (19 / 4 * G) := by
  have hp1 : 1 ≤ p := by omega
  have e0 := eps_pos (K := K) p
  have hx := fun i => (cell_near (rnd := rnd) hp1 h pt i).1
  have hx' := fun i => (cell_near (rnd := rnd) hp1 h pt i).2
  refine ⟨_, _, _, _, by rw [Perlin.gradient, if_neg hN], by rw [noiseSlopeF, if_neg hN], slope_value _ _ _ _, fun i => ?_⟩
  have := slopes_near hp h hx hx' (s := Perlin.gradPlanes grad (fun i => ⌊pt i⌋) fun i => pt i - ((⌊pt i⌋ : ℤ) : K))
    (s' := fun c => (noisePlanes rnd grad (fun i => ⌊pt i⌋) (cellPos rnd pt) c, grad fun i => ⌊pt i⌋ + Perlin.corner N c i)) (k := N + 2) (G := G)
    (fun q => dot_float h _ _) (planes_near hp1 h hG (fun i => ⌊pt i⌋) hx hx')
    (fun q i => ((Near.refl (eps K p) _).mono e0.le (Nat.zero_le _)).weaken e0.le
      ((Finset.single_le_sum (f := fun i => |grad _ i|) (fun _ _ => abs_nonneg _) (Finset.mem_univ i)).trans (hG _))) N 0 i
  rw [if_pos i.2, show 15 / 4 * G + G = 19 / 4 * G by ring, show N + 2 + 757 * N = 758 * N + 2 by ring] at this
  exact this.1

/-- **C135.** Without rounding the computed noise and gradient are the exact ones. -/
theorem C135_exact (grad : (Fin N → ℤ) → Fin N → K) (pt : Fin N → K) :
    noiseF id grad pt = Perlin.eval grad pt ∧ noiseSlopeF id grad pt = Perlin.gradient grad pt := by
  have hd : ∀ u v : Fin N → K, dot id u v = Perlin.dot u v := fun u v => by
    have : ∀ (l : List (Fin N)) (a : K), l.foldl (fun sum i => multiplyAdd id (u i) (v i) sum) a = a + (l.map fun i => u i * v i).sum := fun l => by
      induction l with
      | nil => intro a; simp
      | cons i l ih =>
        intro a
        rw [List.foldl_cons, ih, List.map_cons, List.sum_cons, multiplyAdd, id]
        ring
    rw [dot, this, zero_add, Perlin.dot, ← List.sum_ofFn, List.ofFn_eq_map]
  have hm : ∀ t a b : K, mix id t a b = Util.mix t a b := fun t a b => by
    simp [mix, sumOfProducts, Util.mix]
  have hpl : ∀ m : Fin N → K, noisePlanes id grad (fun i => ⌊pt i⌋) m = Perlin.planes grad (fun i => ⌊pt i⌋) m := fun m => by
    funext c
    exact hd _ _
  have hf : ∀ t : K, fadeF id t = Perlin.fade t := fun t => rfl
  have hdf : ∀ t : K, dfadeF id t = Perlin.dfade t := fun t => rfl
  have hs : ∀ (x : Fin N → K) (s : Perlin.St N K) (j q : ℕ), slopePasses id x s j q = Perlin.gradPasses x s j q := fun x s j => by
    induction j with
    | zero => exact fun q => rfl
    | succ j ih =>
      intro q
      rw [slopePasses, Perlin.gradPasses]
      split_ifs
      · rw [slopePass_eq, Perlin.gradPass_eq, hf, hdf]
        simp only [ih, hm, id, zero_add]
      · exact ih q
  have hv : ∀ (x : Fin N → K) (f : ℕ → K) (j q : ℕ), noisePasses id x f j q = Perlin.passes x f j q := fun x f j q => by
    have h1 := slope_value (rnd := id) x (fun c => (f c, fun _ => 0)) j q
    rw [hs, exact_value] at h1
    exact h1.symm
  constructor
  · rw [noiseF, hv, hpl]
    rfl
  · rw [noiseSlopeF, Perlin.gradient]
    split_ifs
    · rfl
    · simp only [hs, hpl]
      rfl

/-! ## Between the corners -/

omit [IsStrictOrderedRing K] in
theorem passes_between [IsStrictOrderedRing K] {x : Fin N → K} (hx : ∀ i, 0 ≤ x i ∧ x i ≤ 1) {f : ℕ → K} {lo hi : K} (hf : ∀ q, lo ≤ f q ∧ f q ≤ hi) (j q : ℕ) :
    lo ≤ Perlin.passes x f j q ∧ Perlin.passes x f j q ≤ hi := by
  induction j generalizing q with
  | zero => exact hf q
  | succ j ih =>
    rw [Perlin.passes]
    split_ifs with hj
    · rw [Perlin.pass_eq]
      split_ifs
      · obtain ⟨t0, t1⟩ := fade_unit (hx ⟨j, hj⟩).1 (hx ⟨j, hj⟩).2
        have a := ih (q * 2)
        have b := ih (q * 2 + 1)
        generalize Perlin.fade (x ⟨j, hj⟩) = t at t0 t1
        have t2 : 0 ≤ 1 - t := by linarith
        rw [Util.mix]
        constructor
        · have h1 := mul_le_mul_of_nonneg_left a.1 t2
          have h2 := mul_le_mul_of_nonneg_left b.1 t0
          linarith
        · have h1 := mul_le_mul_of_nonneg_left a.2 t2
          have h2 := mul_le_mul_of_nonneg_left b.2 t0
          linarith
      · exact ih q
    · exact ih q

/-- **C135.** The exact noise lies between bounds of the linear functions of the corners of the cell. -/
theorem C135_between (grad : (Fin N → ℤ) → Fin N → K) (pt : Fin N → K) {lo hi : K}
    (hc : ∀ q : Fin N → ℤ, (∀ i, q i = ⌊pt i⌋ ∨ q i = ⌊pt i⌋ + 1) → lo ≤ ∑ i, (pt i - q i) * grad q i ∧ ∑ i, (pt i - q i) * grad q i ≤ hi) :
    lo ≤ Perlin.eval grad pt ∧ Perlin.eval grad pt ≤ hi := by
  refine passes_between (fun i => ⟨sub_nonneg.2 (Int.floor_le _), by linarith [Int.lt_floor_add_one (pt i)]⟩) (fun c => ?_) N 0
  have := hc (fun i => ⌊pt i⌋ + Perlin.corner N c i) fun i => by
    rw [Perlin.corner_eq]
    split_ifs
    · exact Or.inr rfl
    · exact Or.inl (add_zero _)
  have e : ∑ i, (pt i - ((⌊pt i⌋ + Perlin.corner N c i : ℤ) : K)) * grad (fun i => ⌊pt i⌋ + Perlin.corner N c i) i = Perlin.planes grad (fun i => ⌊pt i⌋) (fun i => pt i - ((⌊pt i⌋ : ℤ) : K)) c := by
    refine Finset.sum_congr rfl fun i _ => ?_
    push_cast
    ring
  rwa [e] at this

/-- Gradients of length one for the counterexample. -/
def slantGrad (q : Fin 2 → ℤ) : Fin 2 → ℚ := if q = ![0, 0] then ![1, 0] else ![0, -1]

/-- **C135, refuted.** In single precision the computed noise need not lie between the values of the linear functions of the corners: the computed
weight exceeds one near the far side of a cell, and the noise is negative where all four corners contribute nonnegative values. -/
theorem C135_between_refuted : ∃ pt : Fin 2 → ℚ, (∀ i, IsFloat 24 (pt i)) ∧ (∀ q : Fin 2 → ℤ, slantGrad q 0 ^ 2 + slantGrad q 1 ^ 2 = 1) ∧
    (∀ q : Fin 2 → ℤ, (∀ i, q i = ⌊pt i⌋ ∨ q i = ⌊pt i⌋ + 1) → 0 ≤ ∑ i, (pt i - q i) * slantGrad q i) ∧
    noiseF (nearest 24) slantGrad pt < 0 := by
  refine ⟨![1 - 1 / 2 ^ 24, 0], ?_, ?_, ?_, by decide +kernel⟩
  · intro i
    fin_cases i
    · exact ⟨2 ^ 24 - 1, -24, by norm_num, by norm_num⟩
    · exact float_zero 24
  · intro q
    rw [slantGrad]
    split_ifs <;> norm_num
  · intro q hq
    have h0 := hq 0
    have h1 := hq 1
    have f0 : ⌊(![1 - 1 / 2 ^ 24, 0] : Fin 2 → ℚ) 0⌋ = 0 := by decide +kernel
    have f1 : ⌊(![1 - 1 / 2 ^ 24, 0] : Fin 2 → ℚ) 1⌋ = 0 := by decide +kernel
    rw [f0] at h0
    rw [f1] at h1
    have e : q = ![q 0, q 1] := by
      funext i
      fin_cases i <;> rfl
    rcases h0 with h0 | h0 <;> rcases h1 with h1 | h1 <;> rw [h0, h1] at e <;> rw [e] <;> decide +kernel

/-- The gradients of an example in one and two dimensions. -/
def leanGrad (q : Fin 1 → ℤ) : Fin 1 → ℚ := if q = ![0] then ![1] else ![-1]

example : noiseF (nearest 24) slantGrad (fun i => ((![3, -7] : Fin 2 → ℤ) i : ℚ)) = 0 := C135_grid (by norm_num) (C95_nearest (by norm_num)) slantGrad ![3, -7]

example : |noiseF (nearest 24) slantGrad ![1 / 3, 5 / 7] - Perlin.eval slantGrad ![1 / 3, 5 / 7]| ≤ ((1 + eps ℚ 24) ^ (758 * 2 + 2) - 1) * 1 :=
  C135_noise (by norm_num) (C95_nearest (by norm_num)) (fun q => by
    rw [Fin.sum_univ_two, slantGrad]
    split_ifs <;> norm_num) _

example : noiseF (nearest 24) slantGrad ![1 / 4, 1 / 2] ≠ 0 ∧ noiseF (nearest 24) slantGrad ![1 / 4, 1 / 2] = Perlin.eval slantGrad ![1 / 4, 1 / 2] := by decide +kernel

example : noiseF (nearest 10) slantGrad ![1 / 3, 5 / 7] ≠ Perlin.eval slantGrad ![1 / 3, 5 / 7] := by decide +kernel

example : cellPos (nearest 24) ![-1 / 2 ^ 30] (0 : Fin 1) = (1 : ℚ) := by decide +kernel

example : noiseF (nearest 24) leanGrad ![-1 / 2 ^ 30] = 0 ∧ Perlin.eval leanGrad ![-1 / 2 ^ 30] ≠ 0 := by decide +kernel

example : (noiseSlopeF (nearest 24) slantGrad ![1 / 4, 1 / 2]).map (fun r => (r.1, r.2 0, r.2 1)) =
    (Perlin.gradient slantGrad ![1 / 4, 1 / 2]).map (fun r => (r.1, r.2 0, r.2 1)) := by decide +kernel

example : 1 < fadeF (nearest 24) (1 - 1 / 2 ^ 24 : ℚ) := by decide +kernel

end Geomc.Flt
