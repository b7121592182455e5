import Verif.Float.DilProjModel
import Verif.Float.Dist
import Verif.Shape.WrapModel

/-! # Property C151: normals of spheres and projections to dilated shapes in floating point -/

namespace Geomc.Flt

open Geomc.Vec (IsSqrt)
open Geomc.Shape (Ball len)

variable {K : Type} [Field K] [LinearOrder K] [IsStrictOrderedRing K] [FloorRing K] {n p : ℕ} {rnd sqrt : K → K}

/-- `x'` is `x` times a factor between `1 / B` and `B`. -/
def Times (B x' x : K) : Prop := ∃ θ, x' = θ * x ∧ 1 ≤ θ * B ∧ θ ≤ B

omit [FloorRing K] in
theorem Times.near {B x' x : K} (hB : 1 ≤ B) (h : Times B x' x) : |x' - x| ≤ (B - 1) * |x| := by
  obtain ⟨θ, rfl, h1, h2⟩ := h
  rw [show θ * x - x = (θ - 1) * x by ring, abs_mul]
  refine mul_le_mul_of_nonneg_right (abs_le.2 ⟨?_, by linarith⟩) (abs_nonneg _)
  nlinarith [mul_self_nonneg (B - 1)]

/-- A rounding, as a factor. -/
theorem Times.round (hp : 1 ≤ p) (h : IsRound p rnd) {B x' x : K} (hB : 1 ≤ B) (hx : Times B x' x) : Times (B * (1 - eps K p)⁻¹) (rnd x') x := by
  obtain ⟨θ, rfl, h1, h2⟩ := hx
  have e0 := eps_pos (K := K) p
  have e1 := eps_le (K := K) hp
  have a0 : 0 < 1 - eps K p := by linarith
  have θ0 : 0 < θ := by
    by_contra hc
    nlinarith [not_lt.1 hc]
  have inv : 1 + eps K p ≤ (1 - eps K p)⁻¹ := by
    rw [le_inv_comm₀ (by linarith) a0, inv_eq_one_div, le_div_iff₀ (by linarith)]
    nlinarith
  rcases eq_or_ne x 0 with rfl | hx0
  · refine ⟨θ, by simp [h.fix (float_zero p)], ?_, ?_⟩
    · nlinarith [mul_pos θ0 (zero_lt_one.trans_le hB)]
    · nlinarith
  · have r := h.rel hp (θ * x)
    have x0 : 0 < |θ * x| := abs_pos.2 (mul_ne_zero θ0.ne' hx0)
    obtain ⟨φ, hφ⟩ : ∃ φ, rnd (θ * x) = φ * (θ * x) := ⟨rnd (θ * x) / (θ * x), (div_mul_cancel₀ _ (mul_ne_zero θ0.ne' hx0)).symm⟩
    rw [hφ, show φ * (θ * x) - θ * x = (φ - 1) * (θ * x) by ring, abs_mul] at r
    have r' := abs_le.1 (le_of_mul_le_mul_right r x0)
    refine ⟨φ * θ, by rw [hφ]; ring, ?_, ?_⟩
    · have : 1 ≤ φ * (1 - eps K p)⁻¹ := by
        rw [← div_eq_mul_inv, le_div_iff₀ a0]
        linarith [r'.1]
      calc (1 : K) = 1 * 1 := (one_mul 1).symm
        _ ≤ (θ * B) * (φ * (1 - eps K p)⁻¹) := mul_le_mul h1 this zero_le_one (by linarith)
        _ = _ := by ring
    · rw [mul_comm φ θ]
      exact mul_le_mul h2 (by linarith [r'.2]) (by linarith [r'.1]) (by linarith)

/-- A computed direction. -/
theorem unit_times (hp : 1 ≤ p) (h : IsRound p rnd) (hs : IsSqrt sqrt) (x y : Fin n → K) (hxy : x ≠ y) :
    ∃ r, unit rnd sqrt (sub rnd x y) = some r ∧
      ∀ i, Times ((1 - eps K p)⁻¹ ^ ((n + 5) / 2 + 2)) (r i) ((x i - y i) / len sqrt (x - y)) := by
  have e0 := eps_pos (K := K) p
  have e1 := eps_le (K := K) hp
  have a0 : 0 < 1 - eps K p := by linarith
  have inv : 1 + eps K p ≤ (1 - eps K p)⁻¹ := by
    rw [le_inv_comm₀ (by linarith) a0, inv_eq_one_div, le_div_iff₀ (by linarith)]
    nlinarith
  have diff : ∀ i, Times (1 - eps K p)⁻¹ (sub rnd x y i) (x i - y i) := fun i => by
    have := Times.round hp h le_rfl (⟨1, (one_mul _).symm, by simp, le_rfl⟩ : Times 1 (x i - y i) (x i - y i))
    rwa [one_mul] at this
  obtain ⟨m0, ma, mb, mz⟩ := C104_mag hp h (sqrt_spec hs) (sub rnd x y)
  have L2 := len_sq hs (x - y)
  have L0 := Shape.len_nonneg hs (x - y)
  change (1 - eps K p) ^ (n + 2) * _ ≤ _ at ma
  change _ ≤ (1 + eps K p) ^ (n + 2) * _ at mb
  obtain ⟨g, eg⟩ : ∃ g, g = (1 - eps K p)⁻¹ := ⟨_, rfl⟩
  have ga : (1 - eps K p) = g⁻¹ := by rw [eg, inv_inv]
  rw [← eg] at diff inv ⊢
  have g1 : 1 ≤ g := by linarith
  have g0 : 0 < g := by linarith
  have Lpos : 0 < len sqrt (x - y) := by
    refine L0.lt_of_ne fun hz => hxy (funext fun i => ?_)
    rw [← hz] at L2
    have := (Finset.sum_eq_zero_iff_of_nonneg fun i _ => sq_nonneg ((x - y) i)).1 (by rw [← L2]; simp) i (Finset.mem_univ _)
    have := pow_eq_zero_iff (two_ne_zero) |>.1 this
    exact sub_eq_zero.1 this
  -- the sum of the squares of the computed differences
  have S1 : ∑ i, (x - y) i ^ 2 ≤ g ^ 2 * ∑ i, sub rnd x y i ^ 2 := by
    rw [Finset.mul_sum]
    refine Finset.sum_le_sum fun i _ => ?_
    obtain ⟨θ, e, h1, h2⟩ := diff i
    rw [e, show g ^ 2 * (θ * (x i - y i)) ^ 2 = (θ * g) ^ 2 * (x i - y i) ^ 2 by ring]
    exact le_mul_of_one_le_left (sq_nonneg _) (one_le_pow₀ h1)
  have S2 : ∑ i, sub rnd x y i ^ 2 ≤ g ^ 2 * ∑ i, (x - y) i ^ 2 := by
    rw [Finset.mul_sum]
    refine Finset.sum_le_sum fun i _ => ?_
    obtain ⟨θ, e, h1, h2⟩ := diff i
    have : 0 ≤ θ := by
      by_contra hc
      nlinarith [not_le.1 hc]
    rw [e, mul_pow]
    exact mul_le_mul_of_nonneg_right (pow_le_pow_left₀ this h2 2) (sq_nonneg _)
  have gk : g ^ (n + 2) * g ^ 2 ≤ (g ^ ((n + 5) / 2)) ^ 2 := by
    rw [← pow_add, ← pow_mul]
    exact pow_le_pow_right₀ g1 (by omega)
  rw [ga, inv_pow, inv_mul_le_iff₀ (pow_pos g0 _)] at ma
  have gm : (1 + eps K p) ^ (n + 2) ≤ g ^ (n + 2) := pow_le_pow_left₀ (by linarith) inv _
  obtain ⟨m, em⟩ : ∃ m, m = mag rnd sqrt (sub rnd x y) := ⟨_, rfl⟩
  rw [← em] at m0 ma mb mz
  obtain ⟨L, eL⟩ : ∃ L, L = len sqrt (x - y) := ⟨_, rfl⟩
  rw [← eL] at L0 L2 Lpos ⊢
  rw [← L2] at S1 S2
  have G0 : 0 < g ^ ((n + 5) / 2) := pow_pos g0 _
  have hm1 : L ≤ g ^ ((n + 5) / 2) * m := by
    refine (pow_le_pow_iff_left₀ L0 (mul_nonneg G0.le m0) two_ne_zero).1 ?_
    calc L ^ 2 ≤ g ^ 2 * ∑ i, sub rnd x y i ^ 2 := S1
      _ ≤ g ^ 2 * (g ^ (n + 2) * m ^ 2) := mul_le_mul_of_nonneg_left ma (by positivity)
      _ = (g ^ (n + 2) * g ^ 2) * m ^ 2 := by ring
      _ ≤ (g ^ ((n + 5) / 2)) ^ 2 * m ^ 2 := mul_le_mul_of_nonneg_right gk (sq_nonneg _)
      _ = _ := by ring
  have hm2 : m ≤ g ^ ((n + 5) / 2) * L := by
    refine (pow_le_pow_iff_left₀ m0 (mul_nonneg G0.le L0) two_ne_zero).1 ?_
    have s0 : 0 ≤ ∑ i, sub rnd x y i ^ 2 := Finset.sum_nonneg fun i _ => sq_nonneg _
    calc m ^ 2 ≤ (1 + eps K p) ^ (n + 2) * ∑ i, sub rnd x y i ^ 2 := mb
      _ ≤ g ^ (n + 2) * ∑ i, sub rnd x y i ^ 2 := mul_le_mul_of_nonneg_right gm s0
      _ ≤ g ^ (n + 2) * (g ^ 2 * L ^ 2) := mul_le_mul_of_nonneg_left S2 (by positivity)
      _ = (g ^ (n + 2) * g ^ 2) * L ^ 2 := by ring
      _ ≤ (g ^ ((n + 5) / 2)) ^ 2 * L ^ 2 := mul_le_mul_of_nonneg_right gk (sq_nonneg _)
      _ = _ := by ring
  have mpos : 0 < m := by
    refine m0.lt_of_ne fun hz => ?_
    rw [← hz, mul_zero] at hm1
    linarith
  refine ⟨fun i => rnd (sub rnd x y i / m), ?_, fun i => ?_⟩
  · unfold unit
    simp only [← em]
    rw [if_neg mpos.ne']
  · have key : Times (g ^ ((n + 5) / 2 + 1)) (sub rnd x y i / m) ((x i - y i) / L) := by
      obtain ⟨θ, e, h1, h2⟩ := diff i
      have θ0 : 0 ≤ θ := by
        by_contra hc
        nlinarith [not_le.1 hc]
      refine ⟨θ * (L / m), ?_, ?_, ?_⟩
      · rw [e]
        field_simp
      · have : 1 ≤ L / m * g ^ ((n + 5) / 2) := by
          rw [div_mul_eq_mul_div, le_div_iff₀ mpos]
          linarith
        calc (1 : K) = 1 * 1 := (one_mul 1).symm
          _ ≤ (θ * g) * (L / m * g ^ ((n + 5) / 2)) := mul_le_mul h1 this zero_le_one (by linarith)
          _ = _ := by rw [pow_succ]; ring
      · rw [pow_succ, mul_comm (g ^ _)]
        exact mul_le_mul h2 ((div_le_iff₀ mpos).2 hm1) (div_nonneg L0 m0) g0.le
    have := key.round hp h (one_le_pow₀ g1)
    rw [← eg, ← pow_succ] at this
    exact this

theorem unit_same (hp : 1 ≤ p) (h : IsRound p rnd) (hs : IsSqrt sqrt) (x : Fin n → K) : unit rnd sqrt (sub rnd x x) = none := by
  refine (C104_unit hp h (sqrt_spec hs) _).1 (funext fun i => ?_)
  rw [sub, sub_self, h.fix (float_zero p)]
  rfl

/-- **C151.** The normal of a sphere at a point other than the centre: each coordinate is that of the exact direction from the centre times a factor near
one, of the same sign and zero with it.  At the centre there is none. -/
theorem C151_normal (hp : 1 ≤ p) (h : IsRound p rnd) (hs : IsSqrt sqrt) (b : Ball K n) (x : Fin n → K) :
    (x = b.center → ballNormal rnd sqrt b x = none) ∧
    (x ≠ b.center → ∃ r, ballNormal rnd sqrt b x = some r ∧ ∀ i, ∃ θ, r i = θ * ((x i - b.center i) / len sqrt (x - b.center)) ∧
      (1 - eps K p) ^ ((n + 5) / 2 + 2) ≤ θ ∧ (1 - eps K p) ^ ((n + 5) / 2 + 2) * θ ≤ 1) := by
  refine ⟨fun e => by rw [e]; exact unit_same hp h hs _, fun hne => ?_⟩
  obtain ⟨r, e, hr⟩ := unit_times hp h hs x b.center hne
  refine ⟨r, e, fun i => ?_⟩
  obtain ⟨θ, h0, h1, h2⟩ := hr i
  have e1 := eps_le (K := K) hp
  have a0 : 0 < 1 - eps K p := by linarith
  have A := pow_pos a0 ((n + 5) / 2 + 2)
  rw [inv_pow] at h1 h2
  refine ⟨θ, h0, ?_, ?_⟩
  · rwa [← div_eq_mul_inv, le_div_iff₀ A, one_mul] at h1
  · rwa [← one_div, le_div_iff₀ A, mul_comm] at h2

/-- **C151.** The projection to a dilated shape is moved from the projection to the shape itself along the line to the point, away from it if the shape
contains it and towards it if not, by the dilation; each coordinate up to rounding.  Where the point is its own projection there is none. -/
theorem C151_project (hp : 1 ≤ p) (h : IsRound p rnd) (hs : IsSqrt sqrt) (contains : (Fin n → K) → Bool) (project : (Fin n → K) → Fin n → K) (r : K)
    (x : Fin n → K) :
    (project x = x → dilatedProject rnd sqrt contains project r x = none) ∧
    (project x ≠ x → ∃ q, dilatedProject rnd sqrt contains project r x = some q ∧
      ∀ i, |q i - (project x i + (if contains x then r else -r) * ((project x i - x i) / len sqrt (project x - x)))| ≤
        ((1 - eps K p)⁻¹ ^ ((n + 5) / 2 + 4) - 1) * (|project x i| + |r| * |(project x i - x i) / len sqrt (project x - x)|)) := by
  constructor
  · intro e
    simp only [dilatedProject, e, unit_same hp h hs, Option.map_none]
  · intro hne
    obtain ⟨u, eu, hu⟩ := unit_times hp h hs (project x) x hne
    refine ⟨_, by simp only [dilatedProject, eu, Option.map_some]; rfl, fun i => ?_⟩
    have e0 := eps_pos (K := K) p
    have e1 := eps_le (K := K) hp
    have a0 : 0 < 1 - eps K p := by linarith
    have inv : 1 + eps K p ≤ (1 - eps K p)⁻¹ := by
      rw [le_inv_comm₀ (by linarith) a0, inv_eq_one_div, le_div_iff₀ (by linarith)]
      nlinarith
    obtain ⟨c, ec⟩ : ∃ c, c = (1 - eps K p)⁻¹ - 1 := ⟨_, rfl⟩
    have gc : (1 - eps K p)⁻¹ = 1 + c := by rw [ec]; ring
    have ce : eps K p ≤ c := by linarith
    have hui := (hu i).near (one_le_pow₀ (by linarith))
    rw [gc] at hui ⊢
    generalize (project x i - x i) / len sqrt (project x - x) = d at *
    have nu : Near c ((n + 5) / 2 + 2) (u i) d |d| := ⟨hui, le_rfl⟩
    have c0 : 0 ≤ c := by linarith
    have nr := ((Near.refl c r).mul c0 nu).round hp h ce
    have np := (Near.refl c (project x i)).mono c0 (Nat.zero_le ((n + 5) / 2 + 3))
    have nr' := nr.mono c0 (show 0 + ((n + 5) / 2 + 2) + 1 ≤ (n + 5) / 2 + 3 by omega)
    by_cases hc : contains x = true
    · simp only [hc, if_true]
      exact ((np.add nr').round hp h ce).1
    · simp only [hc]
      have := ((np.sub nr').round hp h ce).1
      rw [show project x i - r * d = project x i + -r * d by ring] at this
      exact this

omit [FloorRing K] [IsStrictOrderedRing K] in
/-- **C151.** Without rounding the models are those of the exact shapes. -/
theorem C151_exact (sqrt : K → K) (b : Ball K n) (contains : (Fin n → K) → Bool) (project : (Fin n → K) → Fin n → K) (r : K) (x : Fin n → K) :
    ballNormal (fun x => x) sqrt b x = b.normal sqrt x ∧
    dilatedProject (fun x => x) sqrt contains project r x = Shape.dilProject sqrt contains project r x := ⟨rfl, rfl⟩

/-- In `double`: the direction to a point three across and four up is rounded and so not quite of length one; a disc of radius two dilated by three, from outside
and from inside.  The root is exact where it is taken. -/
example :
    let root : ℚ → ℚ := fun x => if x = 25 then 5 else if x = 1 then 1 else 0
    let contains : (Fin 2 → ℚ) → Bool := fun q => decide (q 0 ^ 2 + q 1 ^ 2 ≤ 4)
    let project : (Fin 2 → ℚ) → Fin 2 → ℚ := fun _ => ![2, 0]
    (ballNormal (nearest 53) root ⟨![1, 1], 2⟩ ![4, 5]).map (fun r => decide (r 0 ^ 2 + r 1 ^ 2 = 1)) = some false ∧
    ballNormal (nearest 53) root ⟨![1, 1], 2⟩ ![1, 1] = none ∧ ballNormal (nearest 53) root ⟨![1, 1], 2⟩ ![1, 6] = some ![0, 1] ∧
    dilatedProject (nearest 53) root contains project 3 ![7, 0] = some ![5, 0] ∧ dilatedProject (nearest 53) root contains project 3 ![1, 0] = some ![5, 0] := by
  decide +kernel

end Geomc.Flt
