import Verif.Float.RasterModel
import Verif.Float.Lerp
import Verif.Float.Box
import Verif.Float.PathF
import Verif.Raster.Props

/-! # Property C140: rasters sampled in floating point -/

namespace Geomc.Flt

open Geomc.Rast (Raster Edge trunc)

variable {K : Type} [Field K] [LinearOrder K] [IsStrictOrderedRing K] [FloorRing K] {M p : ℕ} {rnd : K → K}

/-! ## Samples read -/

/-- The samples of a raster are floats of size at most `B`. -/
def Samples (p : ℕ) (r : Raster K K M 1) (B : K) : Prop :=
  (∀ a, 0 ≤ a → a < r.size → IsFloat p (r.data a) ∧ |r.data a| ≤ B) ∧ IsFloat p (r.abyss 0) ∧ |r.abyss 0| ≤ B

omit [FloorRing K] [IsStrictOrderedRing K] in
theorem readAt_ok {r : Raster K K M 1} {B : K} (hr : Samples p r B) {o : ℤ} {v : Fin 1 → K} (hv : r.readAt o = some v) : IsFloat p (v 0) ∧ |v 0| ≤ B := by
  rw [Raster.readAt] at hv
  split_ifs at hv with ho
  rw [← Option.some.inj hv]
  refine hr.1 _ ?_ ?_ <;> simp <;> push_cast at ho <;> omega

omit [FloorRing K] [IsStrictOrderedRing K] in
theorem discrete_ok {r : Raster K K M 1} {B : K} (hr : Samples p r B) {e : Edge} {c : Fin M → ℤ} {v : Fin 1 → K} (hv : r.sampleDiscrete e c = some v) :
    IsFloat p (v 0) ∧ |v 0| ≤ B := by
  rw [Raster.sampleDiscrete] at hv
  split_ifs at hv with h1 h2
  · obtain ⟨o, _, ho⟩ := Option.bind_eq_some_iff.1 hv
    exact readAt_ok hr ho
  · rw [← Option.some.inj hv]
    exact hr.2
  · obtain ⟨o, _, ho⟩ := Option.bind_eq_some_iff.1 hv
    exact readAt_ok hr ho

omit [FloorRing K] [IsStrictOrderedRing K] in
theorem copy_ok [NeZero M] {r : Raster K K M 1} {B : K} (hr : Samples p r B) {e : Edge} {lo hi : Fin M → ℤ} :
    ∀ {fuel : ℕ} {i : Fin M → ℤ} {buf : List (Fin 1 → K)}, r.copyLoop e lo hi fuel i = some buf → ∀ v ∈ buf, IsFloat p (v 0) ∧ |v 0| ≤ B
  | 0, i, buf, hb => by simp [Raster.copyLoop] at hb
  | fuel + 1, i, buf, hb => by
    rw [Raster.copyLoop] at hb
    split_ifs at hb with h1
    · rw [← Option.some.inj hb]
      simp
    · obtain ⟨v, hv, hb⟩ := Option.bind_eq_some_iff.1 hb
      obtain ⟨rest, hr', hb⟩ := Option.bind_eq_some_iff.1 hb
      rw [← Option.some.inj hb]
      intro w hw
      rcases List.mem_cons.1 hw with rfl | hw
      · exact discrete_ok hr hv
      · exact copy_ok hr hr' w hw

theorem buf_ok {B : K} (hB : 0 ≤ B) {buf : List (Fin 1 → K)} (hb : ∀ v ∈ buf, IsFloat p (v 0) ∧ |v 0| ≤ B) (c : ℕ) :
    IsFloat p (((buf[c]?).map (· 0)).getD (0 : K)) ∧ |((buf[c]?).map (· 0)).getD (0 : K)| ≤ B := by
  rcases hc : buf[c]? with _ | v
  · simpa using ⟨float_zero p, hB⟩
  · simpa using hb v (List.mem_of_getElem? hc)

/-! ## Cells -/

omit [IsStrictOrderedRing K] in
theorem trunc_nonneg {t : K} (t0 : 0 ≤ t) : trunc t = ⌊t⌋ := if_pos t0

/-- The cell of a float and the position in it are exact. -/
theorem cell_exact (hp : 1 ≤ p) (h : IsRound p rnd) {t : K} (ht : IsFloat p t) (t0 : 0 ≤ t) :
    rnd (t - rnd (trunc t : K)) = t - trunc t ∧ IsFloat p (t - (trunc t : K)) ∧ 0 ≤ t - (trunc t : K) ∧ t - (trunc t : K) ≤ 1 := by
  obtain ⟨h1, h2⟩ := float_parts hp ht t0
  have e : ((trunc t : ℤ) : K) = ((⌊t⌋₊ : ℕ) : K) := by
    rw [trunc_nonneg t0, natCast_floor_eq_intCast_floor t0]
  rw [e, h.fix h1, h.fix h2]
  refine ⟨rfl, h2, sub_nonneg.2 (Nat.floor_le t0), ?_⟩
  have := (Nat.lt_floor_add_one t).le
  linarith

/-- **C140.**  A raster sampled linearly at a position in grid coordinates: the computed sample is defined where the exact one is, and
within `4 M` rounding errors of it, relative to the largest sample. -/
theorem C140_linear [NeZero M] (hp : 1 ≤ p) (h : IsRound p rnd) {r : Raster K K M 1} {B : K} (hr : Samples p r B) (e : Edge) (fuel : ℕ) {pt : Fin M → K}
    (hpt : ∀ i, IsFloat p (pt i) ∧ 0 ≤ pt i) :
    (sampleLinear rnd r e fuel pt = none ∧ r.sampleLinear e fuel pt 0 = none) ∨
    ∃ y' y, sampleLinear rnd r e fuel pt = some y' ∧ r.sampleLinear e fuel pt 0 = some y ∧ |y' - y| ≤ ((1 + eps K p) ^ (4 * M) - 1) * B := by
  have e0 := eps_pos (K := K) p
  have hB : 0 ≤ B := (abs_nonneg _).trans hr.2.2
  rw [sampleLinear, Raster.sampleLinear]
  rcases hb : r.copy e (fun i => trunc (pt i)) (fun i => trunc (pt i) + 1) fuel with _ | buf
  · exact Or.inl ⟨by simp [hb], by simp [hb]⟩
  refine Or.inr ⟨_, _, by simp only [hb]; rfl, by simp only [hb]; rfl, ?_⟩
  have es : (fun i => if hi : i < M then rnd (pt ⟨i, hi⟩ - rnd (trunc (pt ⟨i, hi⟩) : K)) else 0) =
      fun i => if hi : i < M then pt ⟨i, hi⟩ - (trunc (pt ⟨i, hi⟩) : K) else 0 := by
    funext i
    split_ifs with hi
    · exact (cell_exact hp h (hpt _).1 (hpt _).2).1
    · rfl
  have hs : ∀ i, IsFloat p (if hi : i < M then pt ⟨i, hi⟩ - (trunc (pt ⟨i, hi⟩) : K) else 0) ∧
      0 ≤ (if hi : i < M then pt ⟨i, hi⟩ - (trunc (pt ⟨i, hi⟩) : K) else 0) ∧ (if hi : i < M then pt ⟨i, hi⟩ - (trunc (pt ⟨i, hi⟩) : K) else 0) ≤ 1 := by
    intro i
    split_ifs with hi
    · exact (cell_exact hp h (hpt _).1 (hpt _).2).2
    · exact ⟨float_zero p, le_rfl, zero_le_one⟩
  rw [es]
  have hd := buf_ok hB (copy_ok hr hb)
  have hM := Nat.pos_of_ne_zero (NeZero.ne M)
  refine (C124_linear hp h hs hM fun c => (hd c).1).trans (mul_le_mul_of_nonneg_left ?_ (sub_nonneg.2 (one_le_pow₀ (by linarith))))
  obtain ⟨m, hm⟩ : ∃ m, M = m + 1 := ⟨M - 1, by omega⟩
  have := (Util.C04_range m (fun c => |((buf[c]?).map (· 0)).getD (0 : K)|) _ 0 B (fun i _ => (hs i).2) fun c _ => ⟨abs_nonneg _, (hd c).2⟩).2
  rw [← hm] at this
  exact this

/-- Blending at the first corner. -/
theorem linear_start (hp : 1 ≤ p) (h : IsRound p rnd) : ∀ (n : ℕ) {d : ℕ → K}, (∀ i, IsFloat p (d i)) →
    interpLinear rnd (fun _ => 0) (n + 1) d = d 0 ∧ Util.interpLinear (fun _ => 0) (n + 1) d = d 0
  | 0, d, hd => ⟨(C95_mix hp h (hd 0) (hd 1)).1, by simp [Util.interpLinear, Util.mix]⟩
  | n + 1, d, hd => by
    obtain ⟨a, b⟩ := linear_start hp h n hd
    constructor
    · rw [interpLinear, (C95_mix hp h (linear_float h _ _ _) (linear_float h _ _ _)).1, a]
    · rw [Util.interpLinear, b]
      simp [Util.mix]

/-- **C140.**  At the points of the grid the computed sample is the exact one. -/
theorem C140_at_sample [NeZero M] (hp : 1 ≤ p) (h : IsRound p rnd) {r : Raster K K M 1} {B : K} (hr : Samples p r B) (e : Edge) (fuel : ℕ) {m : Fin M → ℤ}
    (hm : ∀ i, 0 ≤ m i ∧ m i < 2 ^ p) :
    sampleLinear rnd r e fuel (fun i => (m i : K)) = r.sampleLinear e fuel (fun i => (m i : K)) 0 := by
  have hB : 0 ≤ B := (abs_nonneg _).trans hr.2.2
  have fm : ∀ i, IsFloat p ((m i : ℤ) : K) := fun i => float_int hp (by rw [abs_of_nonneg (hm i).1]; exact (hm i).2.le)
  have tm : ∀ i, trunc ((m i : ℤ) : K) = m i := fun i => by
    rw [trunc_nonneg (by exact_mod_cast (hm i).1), Int.floor_intCast]
  rw [sampleLinear, Raster.sampleLinear]
  simp only [tm]
  rcases hb : r.copy e m (fun i => m i + 1) fuel with _ | buf
  · rfl
  have es : (fun i => if hi : i < M then rnd (((m ⟨i, hi⟩ : ℤ) : K) - rnd ((m ⟨i, hi⟩ : ℤ) : K)) else 0) = fun _ : ℕ => (0 : K) := by
    funext i
    split_ifs with hi
    · rw [h.fix (fm _), sub_self, h.fix (float_zero p)]
    · rfl
  have es' : (fun i => if hi : i < M then ((m ⟨i, hi⟩ : ℤ) : K) - ((m ⟨i, hi⟩ : ℤ) : K) else 0) = fun _ : ℕ => (0 : K) := by
    funext i
    simp
  have hd := buf_ok hB (copy_ok hr hb)
  have hM := Nat.pos_of_ne_zero (NeZero.ne M)
  simp only [Option.bind_eq_bind, Option.bind_some]
  rw [es, es']
  obtain ⟨n, hn⟩ : ∃ n, M = n + 1 := ⟨M - 1, by omega⟩
  rw [show interpLinear rnd (fun _ => (0 : K)) M = interpLinear rnd (fun _ => 0) (n + 1) by rw [hn],
    show Util.interpLinear (fun _ => (0 : K)) M = Util.interpLinear (fun _ => 0) (n + 1) by rw [hn], (linear_start hp h n fun c => (hd c).1).1,
    (linear_start hp h n fun c => (hd c).1).2]

/-! ## The nearest sample -/

/-- **C140.**  The sample taken for the nearest one is the nearest up to a rounding error of its coordinate. -/
theorem C140_nearest (hp : 1 ≤ p) (h : IsRound p rnd) (r : Raster K K M 1) (e : Edge) {pt : Fin M → K} (hpt : ∀ i, 0 ≤ pt i ∧ pt i + 1 / 2 < 2 ^ p) :
    ∃ c : Fin M → ℤ, sampleNearest rnd r e pt = r.sampleDiscrete e c ∧
      ∀ i, pt i - 1 / 2 < c i ∧ (c i : K) ≤ pt i + 1 / 2 + eps K p * (pt i + 1 / 2) := by
  refine ⟨_, rfl, fun i => ?_⟩
  obtain ⟨t0, t1⟩ := hpt i
  have z0 : 0 ≤ pt i + 1 / 2 := by linarith
  have f0 : (0 : ℤ) ≤ ⌊pt i + 1 / 2⌋ := Int.floor_nonneg.2 z0
  have hf : IsFloat p ((⌊pt i + 1 / 2⌋ : ℤ) : K) := float_int hp (by
    rw [abs_of_nonneg f0]
    have : ((⌊pt i + 1 / 2⌋ : ℤ) : K) ≤ ((2 ^ p : ℤ) : K) := by
      push_cast
      exact (Int.floor_le _).trans t1.le
    exact_mod_cast this)
  have h1 : ((⌊pt i + 1 / 2⌋ : ℤ) : K) ≤ rnd (pt i + 1 / 2) := by
    have := h.mono (Int.floor_le (pt i + 1 / 2))
    rwa [h.fix hf] at this
  have r0 : 0 ≤ rnd (pt i + 1 / 2) := le_trans (by exact_mod_cast f0) h1
  have h2 := (abs_le.1 (h.rel hp (pt i + 1 / 2))).2
  change _ ≤ eps K p * |pt i + 1 / 2| at h2
  rw [abs_of_nonneg z0] at h2
  rw [trunc_nonneg r0]
  have h3 : ⌊pt i + 1 / 2⌋ ≤ ⌊rnd (pt i + 1 / 2)⌋ := Int.le_floor.2 h1
  have h4 : ((⌊pt i + 1 / 2⌋ : ℤ) : K) ≤ (⌊rnd (pt i + 1 / 2)⌋ : ℤ) := by exact_mod_cast h3
  have h5 := Int.lt_floor_add_one (pt i + 1 / 2)
  have h6 := Int.floor_le (rnd (pt i + 1 / 2))
  constructor <;> linarith

/-- **C140, refuted.**  The sample taken need not be the nearest one: for the largest float below 1/2, which is nearer to 0 than to 1, the
half that is added rounds the coordinate up to 1, where a tie is rounded to even. -/
theorem C140_nearest_refuted (hp : 1 ≤ p) (h : IsRound p rnd) (tie : rnd (1 - 2 ^ (-(p : ℤ) - 1)) = 1) (r : Raster K K M 1) (e : Edge) :
    ∃ t : K, IsFloat p t ∧ 0 < t ∧ t < 1 / 2 ∧ sampleNearest rnd r e (fun _ => t) = r.sampleDiscrete e (fun _ => 1) ∧
      r.sampleNearest e (fun _ => t) = r.sampleDiscrete e (fun _ => 0) := by
  have u0 := two_zpow_pos (K := K) (-(p : ℤ) - 1)
  have u1 : (2 : K) ^ (-(p : ℤ) - 1) ≤ 1 / 4 := by
    rw [show (1 / 4 : K) = 2 ^ (-2 : ℤ) by norm_num]
    exact zpow_le_zpow_right₀ (by norm_num) (by omega)
  have hu : (2 : K) ^ p * 2 ^ (-(p : ℤ) - 1) = 1 / 2 := by
    rw [← zpow_natCast, ← zpow_add₀ (by norm_num)]
    rw [show (p : ℤ) + (-(p : ℤ) - 1) = -1 by ring]
    norm_num
  refine ⟨1 / 2 - 2 ^ (-(p : ℤ) - 1), ⟨2 ^ p - 1, -(p : ℤ) - 1, ?_, ?_⟩, by linarith, by linarith, ?_, ?_⟩
  · have : (1 : ℤ) ≤ 2 ^ p := one_le_pow₀ (by norm_num)
    rw [abs_of_nonneg (by omega)]
    omega
  · push_cast
    rw [sub_mul, hu, one_mul]
  · rw [sampleNearest]
    congr 1
    funext i
    rw [show (1 / 2 : K) - 2 ^ (-(p : ℤ) - 1) + 1 / 2 = 1 - 2 ^ (-(p : ℤ) - 1) by ring, tie, trunc_nonneg zero_le_one, Int.floor_one]
  · rw [Raster.sampleNearest]
    congr 1
    funext i
    rw [show (1 / 2 : K) - 2 ^ (-(p : ℤ) - 1) + 1 / 2 = 1 - 2 ^ (-(p : ℤ) - 1) by ring, trunc_nonneg (by linarith), Int.floor_eq_zero_iff]
    exact ⟨by linarith, by linarith⟩

/-! ## Grid coordinates -/

/-- **C140.**  The coordinates on the grid of a point of the domain: zero at the lower end and the extent at the upper, exactly, between
them in the same order, and within five rounding errors of the exact ones. -/
theorem C140_grid (hp : 1 ≤ p) (h : IsRound p rnd) {r : Raster K K M 1} (hb : ∀ i, r.lo i < r.hi i) (he : ∀ i, 0 ≤ r.ext i ∧ r.ext i < 2 ^ p) :
    ∃ g : (Fin M → K) → Fin M → K, (∀ x, gridSpace rnd r x = some (g x)) ∧ g r.lo = (fun _ => 0) ∧ g r.hi = (fun i => (r.ext i : K)) ∧
      (∀ x i, IsFloat p (g x i)) ∧ (∀ x, (∀ i, r.lo i ≤ x i ∧ x i ≤ r.hi i) → ∀ i, 0 ≤ g x i ∧ g x i ≤ r.ext i) ∧
      (∀ x y i, x i ≤ y i → g x i ≤ g y i) ∧
      ∀ x i, r.lo i ≤ x i → (1 - eps K p) ^ 3 / (1 + eps K p) * r.toGridSpace x i ≤ g x i ∧
        g x i ≤ (1 + eps K p) ^ 3 / (1 - eps K p) * r.toGridSpace x i := by
  have e0 := eps_pos (K := K) p
  have e1 := eps_le (K := K) hp
  obtain ⟨f, f1, f2, f3, f4, f5, f6⟩ := C121_unmap hp h (b := ⟨r.lo, r.hi⟩) hb
  have fe : ∀ i, IsFloat p ((r.ext i : ℤ) : K) := fun i => float_int hp (by rw [abs_of_nonneg (he i).1]; exact (he i).2.le)
  have n0 : ∀ i, (0 : K) ≤ (r.ext i : K) := fun i => by exact_mod_cast (he i).1
  have z : rnd 0 = 0 := h.fix (float_zero p)
  refine ⟨fun x i => rnd (rnd (r.ext i : K) * f x i), fun x => by rw [gridSpace, f1]; rfl, ?_, ?_, fun x i => h.mem _, ?_, ?_, ?_⟩
  · funext i
    have := congrFun f2 i
    simp only at this ⊢
    rw [this, mul_zero, z]
  · funext i
    have := congrFun f3 i
    simp only at this ⊢
    rw [this, mul_one, h.fix (fe i), h.fix (fe i)]
  · intro x hx i
    obtain ⟨a, b⟩ := f4 x (Rect.mem_pts.2 fun i => hx i) i
    beta_reduce
    rw [h.fix (fe i)]
    constructor
    · have := h.mono (mul_nonneg (n0 i) a)
      rwa [z] at this
    · have := h.mono (mul_le_mul_of_nonneg_left b (n0 i))
      rwa [mul_one, h.fix (fe i)] at this
  · intro x y i hxy
    beta_reduce
    rw [h.fix (fe i)]
    exact h.mono (mul_le_mul_of_nonneg_left (f5 x y i hxy) (n0 i))
  · intro x i hx
    obtain ⟨a, b⟩ := f6 x i hx
    simp only at a b
    have q0 : 0 ≤ (x i - r.lo i) / (r.hi i - r.lo i) := div_nonneg (sub_nonneg.2 hx) (sub_pos.2 (hb i)).le
    have c0 : 0 ≤ (1 - eps K p) ^ 2 / (1 + eps K p) := div_nonneg (sq_nonneg _) (by linarith)
    have g0 : 0 ≤ (r.ext i : K) * f x i := mul_nonneg (n0 i) ((mul_nonneg c0 q0).trans a)
    have h1 := abs_le.1 (h.rel hp ((r.ext i : K) * f x i))
    change -(eps K p * |(r.ext i : K) * f x i|) ≤ _ ∧ _ ≤ eps K p * |(r.ext i : K) * f x i| at h1
    rw [abs_of_nonneg g0] at h1
    have a' := mul_le_mul_of_nonneg_left a (n0 i)
    have b' := mul_le_mul_of_nonneg_left b (n0 i)
    have a2 := mul_le_mul_of_nonneg_left a' (show 0 ≤ 1 - eps K p by linarith)
    have b2 := mul_le_mul_of_nonneg_left b' (show 0 ≤ 1 + eps K p by linarith)
    beta_reduce
    rw [h.fix (fe i), Raster.toGridSpace]
    constructor
    · rw [show (1 - eps K p) ^ 3 / (1 + eps K p) * ((r.ext i : K) * ((x i - r.lo i) / (r.hi i - r.lo i))) =
        (1 - eps K p) * ((r.ext i : K) * ((1 - eps K p) ^ 2 / (1 + eps K p) * ((x i - r.lo i) / (r.hi i - r.lo i)))) by ring]
      linarith [h1.1]
    · rw [show (1 + eps K p) ^ 3 / (1 - eps K p) * ((r.ext i : K) * ((x i - r.lo i) / (r.hi i - r.lo i))) =
        (1 + eps K p) * ((r.ext i : K) * ((1 + eps K p) ^ 2 / (1 - eps K p) * ((x i - r.lo i) / (r.hi i - r.lo i)))) by ring]
      linarith [h1.2]

/-- **C140.**  A raster sampled linearly at a point of its domain: the computed sample is defined where the exact one at a nearby point
of the grid is, and within `4 M` rounding errors of it, relative to the largest sample. -/
theorem C140_sample [NeZero M] (hp : 1 ≤ p) (h : IsRound p rnd) {r : Raster K K M 1} {B : K} (hr : Samples p r B) (hb : ∀ i, r.lo i < r.hi i)
    (he : ∀ i, 0 ≤ r.ext i ∧ r.ext i < 2 ^ p) (e : Edge) (fuel : ℕ) {x : Fin M → K} (hx : ∀ i, r.lo i ≤ x i) :
    ∃ g : Fin M → K, (∀ i, (1 - eps K p) ^ 3 / (1 + eps K p) * r.toGridSpace x i ≤ g i ∧ g i ≤ (1 + eps K p) ^ 3 / (1 - eps K p) * r.toGridSpace x i) ∧
      ((rasterLinear rnd r e fuel x = none ∧ r.sampleLinear e fuel g 0 = none) ∨
        ∃ y' y, rasterLinear rnd r e fuel x = some y' ∧ r.sampleLinear e fuel g 0 = some y ∧ |y' - y| ≤ ((1 + eps K p) ^ (4 * M) - 1) * B) := by
  obtain ⟨g, g1, g2, _, g3, _, g4, g5⟩ := C140_grid hp h hb he
  refine ⟨g x, fun i => g5 x i (hx i), ?_⟩
  rw [rasterLinear, g1, Option.bind_some]
  refine C140_linear hp h hr e fuel fun i => ⟨g3 x i, ?_⟩
  have := g4 r.lo x i (hx i)
  rwa [g2] at this

/-- **C140.**  A raster sampled at the nearest grid point: the sample is one within half a cell, and a rounding error, of a nearby point of
the grid. -/
theorem C140_sample_nearest (hp : 1 ≤ p) (h : IsRound p rnd) {r : Raster K K M 1} (hb : ∀ i, r.lo i < r.hi i)
    (he : ∀ i, 0 ≤ r.ext i ∧ r.ext i < 2 ^ p) (e : Edge) {x : Fin M → K} (hx : ∀ i, r.lo i ≤ x i ∧ x i ≤ r.hi i) :
    ∃ (g : Fin M → K) (c : Fin M → ℤ), rasterNearest rnd r e x = r.sampleDiscrete e c ∧
      (∀ i, (1 - eps K p) ^ 3 / (1 + eps K p) * r.toGridSpace x i ≤ g i ∧ g i ≤ (1 + eps K p) ^ 3 / (1 - eps K p) * r.toGridSpace x i) ∧
      ∀ i, g i - 1 / 2 < c i ∧ (c i : K) ≤ g i + 1 / 2 + eps K p * (g i + 1 / 2) := by
  obtain ⟨g, g1, _, _, _, g2, _, g5⟩ := C140_grid hp h hb he
  obtain ⟨c, hc, hn⟩ := C140_nearest hp h r e (pt := g x) fun i => ⟨(g2 x hx i).1, by
    have h1 : ((r.ext i : ℤ) : K) + 1 ≤ 2 ^ p := by exact_mod_cast (he i).2
    linarith [(g2 x hx i).2]⟩
  exact ⟨g x, c, by rw [rasterNearest, g1, Option.bind_some, hc], fun i => g5 x i (hx i).1, hn⟩

omit [LinearOrder K] [IsStrictOrderedRing K] [FloorRing K] in
theorem linear_exact (s : ℕ → K) : ∀ (n : ℕ) (d : ℕ → K), interpLinear id s n d = Util.interpLinear s n d
  | 0, d => by
    simp only [interpLinear, Util.interpLinear, mix, Util.mix, sumOfProducts, id]
    ring
  | 1, d => by
    simp only [interpLinear, Util.interpLinear, mix, Util.mix, sumOfProducts, id]
    ring
  | n + 2, d => by
    rw [interpLinear, Util.interpLinear, linear_exact s (n + 1), linear_exact s (n + 1)]
    simp only [mix, Util.mix, sumOfProducts, id]
    ring

omit [IsStrictOrderedRing K] in
/-- **C140.**  Without rounding the model is that of C69. -/
theorem C140_exact [NeZero M] (r : Raster K K M 1) (e : Edge) (fuel : ℕ) (pt x : Fin M → K) (hb : ∀ i, r.hi i - r.lo i ≠ 0) :
    sampleNearest id r e pt = r.sampleNearest e pt ∧ sampleLinear id r e fuel pt = r.sampleLinear e fuel pt 0 ∧ gridSpace id r x = some (r.toGridSpace x) := by
  refine ⟨rfl, ?_, ?_⟩
  · simp only [sampleLinear, Raster.sampleLinear, linear_exact, id]
  rw [gridSpace, boxUnmap, if_neg (by simpa using hb)]
  rfl

/-! ## Examples -/

/-- Four samples in a row, on the domain from 0 to 4. -/
def rowRaster : Raster ℚ ℚ 1 1 := Raster.new ![4] (fun a => 10 * a) ![0] ![0] ![4]

example : sampleLinear (nearest 53) rowRaster .clamp 9 ![5 / 4] = some (25 / 2) ∧ rasterLinear (nearest 53) rowRaster .clamp 9 ![3] = some 30 ∧
    rasterLinear (nearest 53) rowRaster .clamp 9 ![nearest 53 (1 / 10)] = some 1 ∧
    sampleNearest (nearest 53) rowRaster .clamp ![7 / 4] = some ![20] := by
  decide +kernel

example : Samples 53 rowRaster 30 := by
  refine ⟨fun a a0 a1 => ?_, ⟨0, 0, by norm_num, by norm_num [rowRaster, Raster.new]⟩, by norm_num [rowRaster, Raster.new]⟩
  have a2 : a < 4 := a1
  have e : rowRaster.data a = ((10 * a : ℤ) : ℚ) := by
    push_cast
    rfl
  rw [e]
  refine ⟨float_int (by norm_num) ?_, ?_⟩
  · rw [abs_of_nonneg (by omega)]
    norm_num
    omega
  · rw [abs_of_nonneg (by exact_mod_cast (show (0 : ℤ) ≤ 10 * a by omega))]
    exact_mod_cast (show 10 * a ≤ 30 by omega)

/-- The tie of `C140_nearest_refuted`, in double precision. -/
example : nearest 53 (1 - 2 ^ (-(53 : ℤ) - 1) : ℚ) = 1 := by
  decide +kernel

end Geomc.Flt
