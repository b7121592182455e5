import Mathlib.Analysis.SpecialFunctions.Complex.Arg
import Verif.Random.SamplerModel
import Verif.Vec.Rotate

/-!
# C68: what the samplers return
-/

namespace Geomc.Sampler

open Geomc.Vec

/-- The values given to a sampler. -/
def Good (s : List ℝ) : Prop := ∀ u ∈ s, 0 ≤ u ∧ u ≤ 1

/-- All that a sampler returns, for any values of the generator. -/
def Out {A : Type} (f : Smp A) : Set A := {x | ∃ s t, Good s ∧ f s = some (x, t)}

theorem good_cons {u : ℝ} {s : List ℝ} : Good (u :: s) ↔ (0 ≤ u ∧ u ≤ 1) ∧ Good s := by
  simp [Good]

theorem good_append {s t : List ℝ} : Good (s ++ t) ↔ Good s ∧ Good t := by
  simp only [Good, List.mem_append]
  exact ⟨fun h => ⟨fun u hu => h u (.inl hu), fun u hu => h u (.inr hu)⟩, fun h u hu => hu.elim (h.1 u) (h.2 u)⟩

theorem good_drop {s : List ℝ} (h : Good s) (n : ℕ) : Good (s.drop n) := fun u hu => h u (List.mem_of_mem_drop hu)

/-- Numbers between. -/
theorem randIn_spec (lo hi : ℝ) (h : lo ≤ hi) :
    (∀ s x t, Good s → randIn lo hi s = some (x, t) → lo ≤ x ∧ x ≤ hi ∧ Good t) ∧
    ∀ x, lo ≤ x → x ≤ hi → ∃ u, (0 ≤ u ∧ u ≤ 1) ∧ ∀ t, randIn lo hi (u :: t) = some (x, t) := by
  constructor
  · intro s x t hs e
    rcases s with _ | ⟨u, s⟩
    · cases e
    · rw [good_cons] at hs
      simp only [randIn, rand, Option.bind_eq_bind, Option.bind_some, Option.some.injEq, Prod.mk.injEq] at e
      obtain ⟨rfl, rfl⟩ := e
      obtain ⟨⟨h0, h1⟩, hs⟩ := hs
      exact ⟨by nlinarith, by nlinarith, hs⟩
  · intro x h0 h1
    by_cases e : lo = hi
    · refine ⟨0, by norm_num, fun t => ?_⟩
      simp only [randIn, rand, Option.bind_eq_bind, Option.bind_some, Option.some.injEq, Prod.mk.injEq, and_true]
      linarith
    · have hp : 0 < hi - lo := sub_pos.2 (lt_of_le_of_ne h e)
      refine ⟨(x - lo) / (hi - lo), ⟨div_nonneg (by linarith) hp.le, (div_le_one hp).2 (by linarith)⟩, fun t => ?_⟩
      simp only [randIn, rand, Option.bind_eq_bind, Option.bind_some, Option.some.injEq, Prod.mk.injEq, and_true]
      rw [mul_div_cancel₀ _ hp.ne']
      ring

/-! ## Boxes -/

variable {n : ℕ}

theorem box_spec (lo hi : Fin n → ℝ) (h : ∀ i, lo i ≤ hi i) :
    (∀ s x t, Good s → box lo hi s = some (x, t) → (∀ i, lo i ≤ x i ∧ x i ≤ hi i) ∧ Good t ∧ s.length = n + t.length) ∧
    ∀ x : Fin n → ℝ, (∀ i, lo i ≤ x i ∧ x i ≤ hi i) →
      ∃ s, Good s ∧ s.length = n ∧ ∀ t, box lo hi (s ++ t) = some (x, t) := by
  constructor
  · intro s x t hs e
    unfold box at e
    split_ifs at e with hn
    simp only [Option.some.injEq, Prod.mk.injEq] at e
    obtain ⟨rfl, rfl⟩ := e
    refine ⟨fun i => ?_, good_drop hs n, by rw [List.length_drop]; omega⟩
    have hi' : (i : ℕ) < s.length := by omega
    have hu := hs (s.getD i 0) (by rw [List.getD_eq_getElem?_getD, List.getElem?_eq_getElem hi']; exact List.getElem_mem hi')
    have := h i
    exact ⟨by nlinarith [hu.1], by nlinarith [hu.2]⟩
  · intro x hx
    choose u hu hu' using fun i => (randIn_spec (lo i) (hi i) (h i)).2 (x i) (hx i).1 (hx i).2
    refine ⟨List.ofFn u, ?_, by simp, fun t => ?_⟩
    · intro v hv
      rw [List.mem_ofFn] at hv
      obtain ⟨i, rfl⟩ := hv
      exact hu i
    · unfold box
      rw [if_pos (by simp), Option.some.injEq, Prod.mk.injEq]
      constructor
      · ext i
        have h1 := hu' i []
        simp only [randIn, rand, Option.bind_eq_bind, Option.bind_some, Option.some.injEq, Prod.mk.injEq, and_true] at h1
        rw [← h1, List.getD_eq_getElem?_getD, List.getElem?_append_left (by simp), List.getElem?_ofFn, dif_pos i.2]
        rfl
      · rw [List.drop_append_of_le_length (by simp), List.drop_of_length_le (by simp), List.nil_append]

/-- **C68**: `box` returns all points of the box, and no others. -/
theorem C68_box (lo hi : Fin n → ℝ) (h : ∀ i, lo i ≤ hi i) : Out (box lo hi) = Set.Icc lo hi := by
  ext x
  rw [Set.mem_Icc, Pi.le_def, Pi.le_def, ← forall_and]
  constructor
  · rintro ⟨s, t, hs, e⟩
    exact ((box_spec lo hi h).1 s x t hs e).1
  · intro hx
    obtain ⟨s, hs, -, e⟩ := (box_spec lo hi h).2 x hx
    exact ⟨s, [], hs, by simpa using e []⟩

/-! ## Balls -/

theorem ballLoop_spec (f : ℕ) (s : List ℝ) (x : Fin n → ℝ) (t : List ℝ) (hs : Good s) (e : ballLoop n f s = some (x, t)) :
    mag2 x ≤ 1 ∧ Good t := by
  induction f generalizing s with
  | zero => cases e
  | succ f ih =>
    rw [ballLoop] at e
    rcases e1 : box (fun _ : Fin n => -1) (fun _ => 1) s with _ | ⟨v, s'⟩
    · rw [e1] at e
      cases e
    · rw [e1] at e
      simp only [Option.bind_eq_bind, Option.bind_some] at e
      obtain ⟨-, hs', -⟩ := (box_spec (fun _ : Fin n => (-1 : ℝ)) (fun _ => 1) (fun _ => by norm_num)).1 s v s' hs e1
      split_ifs at e with hm
      · exact ih s' hs' e
      · cases e
        exact ⟨not_lt.1 hm, hs'⟩

theorem ball_reach (x : Fin n → ℝ) (hx : mag2 x ≤ 1) :
    ∃ s, Good s ∧ ∀ t, solidball n (s ++ t) = some (x, t) := by
  have hb : ∀ i, -1 ≤ x i ∧ x i ≤ 1 := by
    intro i
    have : x i * x i ≤ 1 := by
      refine le_trans ?_ hx
      rw [mag2_eq]
      exact Finset.single_le_sum (f := fun i => x i * x i) (fun j _ => mul_self_nonneg _) (Finset.mem_univ i)
    exact abs_le.1 (abs_le_one_iff_mul_self_le_one.2 this)
  obtain ⟨s, hs, -, e⟩ := (box_spec (fun _ : Fin n => (-1 : ℝ)) (fun _ => 1) (fun _ => by norm_num)).2 x hb
  refine ⟨s, hs, fun t => ?_⟩
  rw [solidball, ballLoop, e t]
  simp only [Option.bind_eq_bind, Option.bind_some]
  rw [if_neg (not_lt.2 hx)]

theorem solidball_good (s t : List ℝ) (x : Fin n → ℝ) (hs : Good s) (e : solidball n s = some (x, t)) : mag2 x ≤ 1 ∧ Good t :=
  ballLoop_spec _ s x t hs e

/-- **C68**: `solidball` returns all points of the unit ball, and no others. -/
theorem C68_ball : Out (solidball n) = {x | mag2 x ≤ 1} := by
  ext x
  constructor
  · rintro ⟨s, t, hs, e⟩
    exact (solidball_good s t x hs e).1
  · intro hx
    obtain ⟨s, hs, e⟩ := ball_reach x hx
    exact ⟨s, [], hs, by simpa using e []⟩

theorem mag2_mul (x : Fin n → ℝ) (r : ℝ) : mag2 (fun i => x i * r) = r ^ 2 * mag2 x := by
  rw [mag2_eq, mag2_eq, show (fun i => x i * r) = r • x by ext i; simp [mul_comm], smul_dotProduct, dotProduct_smul]
  simp only [smul_eq_mul]
  ring

theorem mag2_nonneg' (x : Fin n → ℝ) : 0 ≤ mag2 x := by
  rw [mag2_eq]
  exact self_dot_nonneg x

/-- Scaling a unit ball. -/
theorem ball_scale (r : ℝ) (x : Fin n → ℝ) : (∃ v : Fin n → ℝ, mag2 v ≤ 1 ∧ x = fun i => v i * r) ↔ mag2 x ≤ r ^ 2 := by
  constructor
  · rintro ⟨v, hv, rfl⟩
    rw [mag2_mul]
    nlinarith [sq_nonneg r]
  · intro h
    by_cases hr : r = 0
    · subst hr
      have : x = 0 := by
        apply (self_dot_eq_zero x).1
        rw [← mag2_eq]
        exact le_antisymm (by simpa using h) (mag2_nonneg' x)
      exact ⟨0, by rw [mag2_eq]; simp, by ext i; simp [this]⟩
    · refine ⟨fun i => x i * r⁻¹, ?_, ?_⟩
      · rw [mag2_mul, inv_pow, inv_mul_le_iff₀ (by positivity), mul_one]
        exact h
      · ext i
        field_simp

/-- **C68**: `solidball(radius)` returns all points of the ball, and no others. -/
theorem C68_ball_radius (r : ℝ) : Out (solidballR n r) = {x | mag2 x ≤ r ^ 2} := by
  ext x
  constructor
  · rintro ⟨s, t, hs, e⟩
    rcases s with _ | ⟨u, s⟩
    · cases e
    · have hs' := good_cons.1 hs
      simp only [solidballR, rand, Option.bind_eq_bind, Option.bind_some] at e
      rcases e1 : solidball n s with _ | ⟨v, s'⟩
      · rw [e1] at e
        cases e
      · rw [e1] at e
        simp only [Option.bind_some, Option.some.injEq, Prod.mk.injEq] at e
        obtain ⟨rfl, -⟩ := e
        obtain ⟨hv, -⟩ := solidball_good s s' v hs'.2 e1
        have h0 : 0 ≤ u ^ (1 / (n : ℝ)) := Real.rpow_nonneg hs'.1.1 _
        have h1 : u ^ (1 / (n : ℝ)) ≤ 1 := Real.rpow_le_one hs'.1.1 hs'.1.2 (by positivity)
        show mag2 (fun i => v i * u ^ (1 / (n : ℝ)) * r) ≤ r ^ 2
        rw [mag2_mul, mag2_mul]
        have : (u ^ (1 / (n : ℝ))) ^ 2 * mag2 v ≤ 1 := by nlinarith [mag2_nonneg' v]
        nlinarith [sq_nonneg r]
  · intro hx
    obtain ⟨v, hv, rfl⟩ := (ball_scale r x).2 hx
    obtain ⟨s, hs, e⟩ := ball_reach v hv
    refine ⟨1 :: (s ++ []), [], good_cons.2 ⟨by norm_num, by simpa using hs⟩, ?_⟩
    simp only [solidballR, rand, Option.bind_eq_bind, Option.bind_some, e []]
    simp

/-- **C68**: `disk(radius)` returns all points of the disk, and no others. -/
theorem C68_disk (r : ℝ) : Out (disk r) = {x | mag2 x ≤ r ^ 2} := by
  ext x
  constructor
  · rintro ⟨s, t, hs, e⟩
    simp only [disk] at e
    rcases e1 : solidball 2 s with _ | ⟨v, s'⟩
    · rw [e1] at e
      cases e
    · rw [e1] at e
      simp only [Option.bind_eq_bind, Option.bind_some, Option.some.injEq, Prod.mk.injEq] at e
      obtain ⟨rfl, -⟩ := e
      exact (ball_scale r _).1 ⟨v, (solidball_good s s' v hs e1).1, rfl⟩
  · intro hx
    obtain ⟨v, hv, rfl⟩ := (ball_scale r x).2 hx
    obtain ⟨s, hs, e⟩ := ball_reach v hv
    refine ⟨s ++ [], [], by simpa using hs, ?_⟩
    simp only [disk, Option.bind_eq_bind, e [], Option.bind_some]

/-! ## Spheres -/

theorem unitVec_good (s t : List ℝ) (x : Fin n → ℝ) (hs : Good s) (e : unitVec n s = some (x, t)) : mag2 x = 1 ∧ Good t := by
  simp only [unitVec] at e
  rcases e1 : solidball n s with _ | ⟨v, s'⟩
  · rw [e1] at e
    cases e
  · rw [e1] at e
    simp only [Option.bind_eq_bind, Option.bind_some] at e
    rcases e2 : unit Real.sqrt v with _ | w
    · rw [e2] at e
      cases e
    · rw [e2] at e
      simp only [Option.bind_some, Option.some.injEq, Prod.mk.injEq] at e
      obtain ⟨rfl, rfl⟩ := e
      refine ⟨?_, (solidball_good s s' v hs e1).2⟩
      rw [mag2_eq]
      exact ((C37_unit isSqrt_real v).2 w e2).1

theorem unit_reach (x : Fin n → ℝ) (hx : mag2 x = 1) : ∃ s, Good s ∧ ∀ t, unitVec n (s ++ t) = some (x, t) := by
  obtain ⟨s, hs, e⟩ := ball_reach x hx.le
  refine ⟨s, hs, fun t => ?_⟩
  simp only [unitVec, Option.bind_eq_bind, e t, Option.bind_some, unit, hx, Real.sqrt_one, one_ne_zero, if_false, div_one]

/-- **C68**: `unit` returns all vectors of unit length, and no others. -/
theorem C68_unit : Out (unitVec n) = {x | mag2 x = 1} := by
  ext x
  constructor
  · rintro ⟨s, t, hs, e⟩
    exact (unitVec_good s t x hs e).1
  · intro hx
    obtain ⟨s, hs, e⟩ := unit_reach x hx
    exact ⟨s, [], hs, by simpa using e []⟩

/-- **C68** is refuted for one outcome of the generator: the point drawn may be the centre, which has no direction. -/
theorem C68_unit_refuted (n : ℕ) (t : List ℝ) : unitVec n (List.replicate n (1 / 2) ++ t) = none := by
  have e : solidball n (List.replicate n (1 / 2) ++ t) = some (0, t) := by
    have hb : box (fun _ : Fin n => -1) (fun _ => 1) (List.replicate n (1 / 2) ++ t) = some (0, t) := by
      unfold box
      rw [if_pos (by simp), Option.some.injEq, Prod.mk.injEq]
      constructor
      · ext i
        rw [List.getD_eq_getElem?_getD, List.getElem?_append_left (by simp), List.getElem?_replicate, if_pos i.2]
        norm_num
      · rw [List.drop_append_of_le_length (by simp), List.drop_of_length_le (by simp), List.nil_append]
    rw [solidball, ballLoop, hb]
    simp only [Option.bind_eq_bind, Option.bind_some]
    rw [if_neg]
    rw [mag2_eq]
    simp
  simp only [unitVec, Option.bind_eq_bind, e, Option.bind_some]
  rw [((C37_unit isSqrt_real (0 : Fin n → ℝ)).1).2 rfl]
  rfl

/-- **C68**: `unit(radius)` returns all vectors of the given length, and no others. -/
theorem C68_unit_radius (r : ℝ) (hr : r ≠ 0) : Out (unitR n r) = {x | mag2 x = r ^ 2} := by
  ext x
  constructor
  · rintro ⟨s, t, hs, e⟩
    simp only [unitR] at e
    rcases e1 : unitVec n s with _ | ⟨v, s'⟩
    · rw [e1] at e
      cases e
    · rw [e1] at e
      simp only [Option.bind_eq_bind, Option.bind_some, Option.some.injEq, Prod.mk.injEq] at e
      obtain ⟨rfl, -⟩ := e
      show mag2 (fun i => v i * r) = r ^ 2
      rw [mag2_mul, (unitVec_good s s' v hs e1).1, mul_one]
  · intro hx
    have hv : mag2 (fun i => x i * r⁻¹) = 1 := by
      rw [mag2_mul, inv_pow, (hx : mag2 x = r ^ 2), inv_mul_cancel₀ (pow_ne_zero 2 hr)]
    obtain ⟨s, hs, e⟩ := unit_reach _ hv
    refine ⟨s ++ [], [], by simpa using hs, ?_⟩
    simp only [unitR, Option.bind_eq_bind, e [], Option.bind_some, Option.some.injEq, Prod.mk.injEq, and_true]
    ext i
    field_simp

/-- The powers and roots taken by the samplers. -/
theorem root_between {a b t : ℝ} (h0 : 0 ≤ a) (hb : 0 < b) {k : ℝ} (hk : 0 < k) (h1 : b * (a / b) ^ k ≤ t) (h2 : t ≤ b) :
    ∃ u, a / b ≤ u ∧ u ≤ 1 ∧ u ^ k = t / b := by
  have hab : 0 ≤ a / b := div_nonneg h0 hb.le
  have ht : 0 ≤ t := le_trans (mul_nonneg hb.le (Real.rpow_nonneg hab _)) h1
  have htb : 0 ≤ t / b := div_nonneg ht hb.le
  refine ⟨(t / b) ^ k⁻¹, ?_, Real.rpow_le_one htb ((div_le_one hb).2 h2) (inv_nonneg.2 hk.le), Real.rpow_inv_rpow htb hk.ne'⟩
  rw [← Real.rpow_le_rpow_iff hab (Real.rpow_nonneg htb _) hk, Real.rpow_inv_rpow htb hk.ne', le_div_iff₀ hb, mul_comm]
  exact h1

theorem root_bound {a b u : ℝ} (h0 : 0 ≤ a) (hb : 0 < b) {k : ℝ} (hk : 0 ≤ k) (h1 : a / b ≤ u) (h2 : u ≤ 1) :
    0 ≤ b * (a / b) ^ k ∧ b * (a / b) ^ k ≤ b * u ^ k ∧ b * u ^ k ≤ b := by
  have hab : 0 ≤ a / b := div_nonneg h0 hb.le
  refine ⟨mul_nonneg hb.le (Real.rpow_nonneg hab _), mul_le_mul_of_nonneg_left (Real.rpow_le_rpow hab h1 hk) hb.le, ?_⟩
  have := Real.rpow_le_one (hab.trans h1) h2 hk
  nlinarith

/-- A direction for each vector. -/
theorem direction [NeZero n] (x : Fin n → ℝ) : ∃ v : Fin n → ℝ, mag2 v = 1 ∧ x = fun i => Real.sqrt (mag2 x) * v i := by
  by_cases hx : x = 0
  · refine ⟨Pi.single 0 1, by rw [mag2_eq]; simp, ?_⟩
    subst hx
    ext i
    rw [mag2_eq]
    simp
  · have hp : 0 < mag2 x := lt_of_le_of_ne (mag2_nonneg' x) fun h => hx ((self_dot_eq_zero x).1 (by rw [← mag2_eq]; exact h.symm))
    refine ⟨fun i => x i * (Real.sqrt (mag2 x))⁻¹, ?_, ?_⟩
    · rw [mag2_mul, inv_pow, Real.sq_sqrt hp.le, inv_mul_cancel₀ hp.ne']
    · ext i
      have := Real.sqrt_pos.2 hp
      field_simp

/-- **C68**: what `shell` returns: all vectors no longer than the greater radius and no shorter than
`max * (min / max) ^ (1 / n)`. -/
theorem C68_shell (n : ℕ) (a b : ℝ) (h0 : 0 ≤ a) (hab : a ≤ b) (hb : 0 < b) : Out (shell n a b) =
    {x | b * (a / b) ^ (1 / (n : ℝ)) ≤ Real.sqrt (mag2 x) ∧ Real.sqrt (mag2 x) ≤ b} := by
  have hab1 : a / b ≤ 1 := (div_le_one hb).2 hab
  ext x
  constructor
  · rintro ⟨s, t, hs, e⟩
    simp only [shell] at e
    rw [if_neg hb.ne'] at e
    rcases e1 : randIn (a / b) 1 s with _ | ⟨u, s'⟩
    · rw [e1] at e
      cases e
    · rw [e1] at e
      simp only [Option.bind_eq_bind, Option.bind_some] at e
      obtain ⟨h1, h2, hs'⟩ := (randIn_spec _ _ hab1).1 s u s' hs e1
      rcases e2 : unitVec n s' with _ | ⟨v, s''⟩
      · rw [e2] at e
        cases e
      · rw [e2] at e
        simp only [Option.bind_some, Option.some.injEq, Prod.mk.injEq] at e
        obtain ⟨rfl, -⟩ := e
        obtain ⟨h3, h4, h5⟩ := root_bound h0 hb (k := 1 / (n : ℝ)) (by positivity) h1 h2
        have hl : Real.sqrt (mag2 fun i => v i * u ^ (1 / (n : ℝ)) * b) = b * u ^ (1 / (n : ℝ)) := by
          rw [mag2_mul, mag2_mul, (unitVec_good s' s'' v hs' e2).1, mul_one, ← mul_pow, Real.sqrt_sq (h3.trans h4)]
        show _ ≤ Real.sqrt _ ∧ Real.sqrt _ ≤ _
        rw [hl]
        exact ⟨h4, h5⟩
  · rintro ⟨h1, h2⟩
    rcases Nat.eq_zero_or_pos n with hn | hn
    · subst hn
      rw [mag2_eq] at h1
      simp at h1
      linarith
    · have : NeZero n := ⟨hn.ne'⟩
      obtain ⟨v, hv, hxv⟩ := direction x
      have hn' : (0 : ℝ) < n := Nat.cast_pos.2 hn
      obtain ⟨u, hu1, hu2, hu⟩ := root_between h0 hb (k := 1 / (n : ℝ)) (by positivity) h1 h2
      obtain ⟨w, hw, hw'⟩ := (randIn_spec _ _ hab1).2 u hu1 hu2
      obtain ⟨s, hs, e⟩ := unit_reach v hv
      refine ⟨w :: (s ++ []), [], good_cons.2 ⟨hw, by simpa using hs⟩, ?_⟩
      simp only [shell, Option.bind_eq_bind, hw', e [], Option.bind_some, hu]
      rw [if_neg hb.ne', Option.some.injEq, Prod.mk.injEq]
      refine ⟨?_, rfl⟩
      conv_rhs => rw [hxv]
      ext i
      field_simp

/-- **C68**: so `shell` returns vectors in the shell. -/
theorem C68_shell_in (n : ℕ) (a b : ℝ) (h0 : 0 ≤ a) (hab : a ≤ b) (hb : 0 < b) (x : Fin n → ℝ) (hx : x ∈ Out (shell n a b)) :
    a ≤ Real.sqrt (mag2 x) ∧ Real.sqrt (mag2 x) ≤ b := by
  rw [C68_shell n a b h0 hab hb] at hx
  refine ⟨le_trans ?_ hx.1, hx.2⟩
  have hab0 : 0 ≤ a / b := div_nonneg h0 hb.le
  have h1 : (a / b) ^ (1 : ℝ) ≤ (a / b) ^ (1 / (n : ℝ)) := by
    rcases Nat.eq_zero_or_pos n with hn | hn
    · subst hn
      simpa using (div_le_one hb).2 hab
    · have : (1 : ℝ) ≤ n := by exact_mod_cast hn
      have h2 : 1 / (n : ℝ) ≤ 1 := (div_le_one (by linarith)).2 this
      exact Real.rpow_le_rpow_of_exponent_ge' hab0 ((div_le_one hb).2 hab) (by positivity) h2
  rw [Real.rpow_one, div_le_iff₀ hb, mul_comm] at h1
  exact h1

/-! ## Caps -/

/-- Polar coordinates. -/
theorem polar (x y : ℝ) : ∃ t, 0 ≤ t ∧ t ≤ 2 * Real.pi ∧ x = Real.sqrt (x * x + y * y) * Real.cos t ∧
    y = Real.sqrt (x * x + y * y) * Real.sin t := by
  have h1 : ‖(⟨x, y⟩ : ℂ)‖ = Real.sqrt (x * x + y * y) := by
    rw [Complex.norm_def, Complex.normSq_mk]
  have hc := Complex.norm_mul_cos_arg (⟨x, y⟩ : ℂ)
  have hs := Complex.norm_mul_sin_arg (⟨x, y⟩ : ℂ)
  rw [h1] at hc hs
  have h2 := Complex.neg_pi_lt_arg (⟨x, y⟩ : ℂ)
  have h3 := Complex.arg_le_pi (⟨x, y⟩ : ℂ)
  by_cases h : 0 ≤ Complex.arg ⟨x, y⟩
  · exact ⟨Complex.arg ⟨x, y⟩, h, by linarith [Real.pi_pos], hc.symm, hs.symm⟩
  · exact ⟨Complex.arg ⟨x, y⟩ + 2 * Real.pi, by linarith, by linarith, by rw [Real.cos_add_two_pi]; exact hc.symm,
      by rw [Real.sin_add_two_pi]; exact hs.symm⟩

theorem mag2_3 (x : Fin 3 → ℝ) : mag2 x = x 0 * x 0 + x 1 * x 1 + x 2 * x 2 := by
  rw [mag2_eq, dot3]

theorem cap_good (half : ℝ) (s t : List ℝ) (x : Fin 3 → ℝ) (hs : Good s) (e : cap half s = some (x, t)) :
    (mag2 x = 1 ∧ Real.cos half ≤ x 2) ∧ Good t := by
  simp only [cap] at e
  rcases e1 : randIn (Real.cos half) 1 s with _ | ⟨h, s'⟩
  · rw [e1] at e
    cases e
  · rw [e1] at e
    obtain ⟨h1, h2, hs'⟩ := (randIn_spec _ _ (Real.cos_le_one half)).1 s h s' hs e1
    rcases s' with _ | ⟨u, s'⟩
    · cases e
    · simp only [randTo, rand, Option.bind_eq_bind, Option.bind_some, Option.some.injEq, Prod.mk.injEq] at e
      obtain ⟨rfl, rfl⟩ := e
      refine ⟨⟨?_, h1⟩, (good_cons.1 hs').2⟩
      rw [mag2_3]
      have hr : 0 ≤ 1 - h * h := by nlinarith [Real.neg_one_le_cos half]
      have := Real.mul_self_sqrt hr
      have hcs := Real.cos_sq_add_sin_sq (2 * Real.pi * u)
      simp only [Matrix.cons_val_zero, Matrix.cons_val_one, Matrix.cons_val]
      linear_combination Real.sqrt (1 - h * h) * Real.sqrt (1 - h * h) * hcs + this

theorem cap_reach (half : ℝ) (x : Fin 3 → ℝ) (h1 : mag2 x = 1) (h2 : Real.cos half ≤ x 2) :
    ∃ s, Good s ∧ ∀ t, cap half (s ++ t) = some (x, t) := by
  rw [mag2_3] at h1
  have hx2 : x 2 ≤ 1 := by nlinarith [mul_self_nonneg (x 0), mul_self_nonneg (x 1)]
  obtain ⟨u, hu, hu'⟩ := (randIn_spec _ _ (Real.cos_le_one half)).2 (x 2) h2 hx2
  obtain ⟨t, ht0, ht1, hc, hs⟩ := polar (x 0) (x 1)
  have hpi := Real.two_pi_pos
  refine ⟨[u, t / (2 * Real.pi)], good_cons.2 ⟨hu, good_cons.2 ⟨⟨div_nonneg ht0 hpi.le, (div_le_one hpi).2 ht1⟩, by simp [Good]⟩⟩,
    fun r => ?_⟩
  simp only [cap, List.cons_append, List.nil_append, hu', randTo, rand, Option.bind_eq_bind, Option.bind_some,
    mul_div_cancel₀ _ hpi.ne', Option.some.injEq, Prod.mk.injEq, and_true]
  rw [show 1 - x 2 * x 2 = x 0 * x 0 + x 1 * x 1 by linarith, ← hc, ← hs]
  ext i
  fin_cases i <;> rfl

/-- **C68**: `cap(half_angle)` returns all unit vectors within the angle of the z-axis, and no others. -/
theorem C68_cap (half : ℝ) : Out (cap half) = {x | mag2 x = 1 ∧ Real.cos half ≤ x 2} := by
  ext x
  constructor
  · rintro ⟨s, t, hs, e⟩
    exact (cap_good half s t x hs e).1
  · rintro ⟨h1, h2⟩
    obtain ⟨s, hs, e⟩ := cap_reach half x h1 h2
    exact ⟨s, [], hs, by simpa using e []⟩

theorem isZero_iff (v : Fin 3 → ℝ) : isZero v = true ↔ v = 0 := (C37_eq v v).2

/-- The axis of the turn. -/
theorem axis_eq (dir : Fin 3 → ℝ) : cross ![0, 0, 1] dir = ![-dir 1, dir 0, 0] := by
  rw [cross_eq, cross_apply]
  ext i
  fin_cases i <;> simp

/-- The turn preserves products, reaches everything, and takes the z-axis to the direction, unless the direction is that of the
negative z-axis. -/
theorem turn_spec (dir : Fin 3 → ℝ) (h : dir 0 ≠ 0 ∨ dir 1 ≠ 0 ∨ 0 < dir 2) :
    ∃ f : (Fin 3 → ℝ) → (Fin 3 → ℝ), (∀ v, turn dir v = some (f v)) ∧ (∀ v w, f v ⬝ᵥ f w = v ⬝ᵥ w) ∧
      (∀ w, ∃ v, f v = w) ∧ (Real.sqrt (mag2 dir)) • f ![0, 0, 1] = dir := by
  by_cases hz : dir 0 = 0 ∧ dir 1 = 0
  · have h2 : 0 < dir 2 := by
      rcases h with h | h | h
      · exact absurd hz.1 h
      · exact absurd hz.2 h
      · exact h
    refine ⟨id, fun v => ?_, fun v w => rfl, fun w => ⟨w, rfl⟩, ?_⟩
    · rw [turn, axis_eq, if_pos]
      · rfl
      · rw [isZero_iff, hz.1, hz.2]
        ext i
        fin_cases i <;> simp
    · rw [mag2_3, hz.1, hz.2, show (0 : ℝ) * 0 + 0 * 0 + dir 2 * dir 2 = dir 2 ^ 2 by ring, Real.sqrt_sq h2.le]
      ext i
      fin_cases i <;> simp [hz.1, hz.2]
  · have hax : (![-dir 1, dir 0, 0] : Fin 3 → ℝ) ≠ 0 := by
      intro h'
      exact hz ⟨by simpa using congrFun h' 1, by simpa using congrFun h' 0⟩
    have hm : 0 < mag2 dir := by
      rw [mag2_eq, ← dotProduct_comm]
      refine lt_of_le_of_ne (self_dot_nonneg dir) fun h' => ?_
      have := (self_dot_eq_zero dir).1 h'.symm
      exact hz ⟨by rw [this]; rfl, by rw [this]; rfl⟩
    have hm' : 0 < Real.sqrt (mag2 dir) := Real.sqrt_pos.2 hm
    have hmm := Real.mul_self_sqrt hm.le
    set m := Real.sqrt (mag2 dir) with hmdef
    have hq : 0 < dir 0 * dir 0 + dir 1 * dir 1 := by
      rcases not_and_or.1 hz with h' | h'
      · nlinarith [mul_self_pos.2 h', mul_self_nonneg (dir 1)]
      · nlinarith [mul_self_pos.2 h', mul_self_nonneg (dir 0)]
    set q := Real.sqrt (dir 0 * dir 0 + dir 1 * dir 1) with hqdef
    have hq' : 0 < q := Real.sqrt_pos.2 hq
    have hqq : q * q = dir 0 * dir 0 + dir 1 * dir 1 := Real.mul_self_sqrt hq.le
    rw [mag2_3] at hmm
    have hb : -1 ≤ dir 2 / m ∧ dir 2 / m ≤ 1 := by
      rw [le_div_iff₀ hm', div_le_one hm']
      constructor <;> nlinarith
    set c := Real.cos (Real.arccos (dir 2 / m)) with hc
    set s := Real.sin (Real.arccos (dir 2 / m)) with hs
    have hcs : c * c + s * s = 1 := by
      have := Real.cos_sq_add_sin_sq (Real.arccos (dir 2 / m))
      rw [← hc, ← hs] at this
      linarith
    have hcv : c = dir 2 / m := Real.cos_arccos hb.1 hb.2
    have hsv : s = q / m := by
      rw [hs, Real.sin_arccos, show 1 - (dir 2 / m) ^ 2 = (q / m) ^ 2 by
        rw [div_pow, div_pow]
        field_simp
        nlinarith]
      exact Real.sqrt_sq (by positivity)
    have haa : (![-dir 1, dir 0, 0] : Fin 3 → ℝ) ⬝ᵥ ![-dir 1, dir 0, 0] = dir 0 * dir 0 + dir 1 * dir 1 := by
      rw [dot3]
      simp only [Matrix.cons_val_zero, Matrix.cons_val_one, Matrix.cons_val]
      ring
    set k : Fin 3 → ℝ := q⁻¹ • ![-dir 1, dir 0, 0] with hk
    have hkk : k ⬝ᵥ k = 1 := by
      rw [hk, smul_dotProduct, dotProduct_smul, haa, ← hqq]
      simp only [smul_eq_mul]
      field_simp
    have hrot : ∀ v, turn dir v = some (rodrigues c s k v) := by
      intro v
      have hr := (C39_rotate_iff isSqrt_real c s hax v).1.2 (by simp)
      rw [haa, ← hqdef] at hr
      rw [turn, axis_eq, if_neg (by rw [isZero_iff]; exact hax), if_neg hm'.ne']
      exact hr
    refine ⟨rodrigues c s k, hrot, fun v w => (rodrigues_spec hcs hkk v w).1, fun w => ⟨rodrigues c (-s) k w, ?_⟩, ?_⟩
    · have := (rodrigues_spec (c := c) (s := -s) (by linarith) hkk w w).2.2.2 c s
      rw [this, show c * c - s * -s = 1 by linarith, show s * c + c * -s = 0 by ring]
      simp [rodrigues]
    · rw [(rodrigues_spec hcs hkk ![0, 0, 1] 0).2.2.1 (by rw [hk, smul_dotProduct, dot3]; simp), hcv, hsv, hk, cross_apply]
      ext i
      fin_cases i
      · simp
        field_simp
      · simp
        field_simp
      · simp
        field_simp

/-- **C68**: `cap(dir, half_angle)` returns all unit vectors within the angle of the direction, and no others, unless the direction
is that of the negative z-axis. -/
theorem C68_cap_dir_partial (dir : Fin 3 → ℝ) (h : dir 0 ≠ 0 ∨ dir 1 ≠ 0 ∨ 0 < dir 2) (half : ℝ) :
    Out (capDir dir half) = {x | mag2 x = 1 ∧ Real.cos half * Real.sqrt (mag2 dir) ≤ x ⬝ᵥ dir} := by
  obtain ⟨f, hf, hp, hsurj, hd⟩ := turn_spec dir h
  have hm : 0 < Real.sqrt (mag2 dir) := by
    rw [Real.sqrt_pos, mag2_3]
    rcases h with h | h | h
    · nlinarith [mul_self_pos.2 h, mul_self_nonneg (dir 1), mul_self_nonneg (dir 2)]
    · nlinarith [mul_self_pos.2 h, mul_self_nonneg (dir 0), mul_self_nonneg (dir 2)]
    · nlinarith [mul_self_pos.2 h.ne', mul_self_nonneg (dir 1), mul_self_nonneg (dir 0)]
  have key : ∀ v, f v ⬝ᵥ dir = Real.sqrt (mag2 dir) * v 2 := by
    intro v
    conv_lhs => rw [← hd]
    rw [dotProduct_smul, hp, dot3]
    simp
  have hm2 : ∀ v, mag2 (f v) = mag2 v := by
    intro v
    rw [mag2_eq, mag2_eq, hp]
  ext x
  constructor
  · rintro ⟨s, t, hs, e⟩
    simp only [capDir] at e
    rcases e1 : cap half s with _ | ⟨v, s'⟩
    · rw [e1] at e
      cases e
    · rw [e1] at e
      simp only [Option.bind_eq_bind, Option.bind_some, hf, Option.some.injEq, Prod.mk.injEq] at e
      obtain ⟨rfl, -⟩ := e
      obtain ⟨⟨h1, h2⟩, -⟩ := cap_good half s s' v hs e1
      refine ⟨by rw [hm2, h1], ?_⟩
      rw [key, mul_comm]
      exact mul_le_mul_of_nonneg_left h2 hm.le
  · rintro ⟨h1, h2⟩
    obtain ⟨v, rfl⟩ := hsurj x
    rw [hm2] at h1
    rw [key, mul_comm] at h2
    obtain ⟨s, hs, e⟩ := cap_reach half v h1 (le_of_mul_le_mul_left h2 hm)
    refine ⟨s ++ [], [], by simpa using hs, ?_⟩
    simp only [capDir, Option.bind_eq_bind, e [], Option.bind_some, hf]

/-- **C68** is refuted for that direction: the cap returned is the one about the positive z-axis. -/
theorem C68_cap_dir_refuted (z : ℝ) (half : ℝ) :
    Out (capDir ![0, 0, z] half) = {x | mag2 x = 1 ∧ Real.cos half ≤ x 2} := by
  rw [← C68_cap]
  have : capDir ![0, 0, z] half = cap half := by
    funext s
    have ht : ∀ v, turn ![0, 0, z] v = some v := by
      intro v
      rw [turn, axis_eq, if_pos]
      rw [isZero_iff]
      ext i
      fin_cases i <;> simp
    rw [capDir]
    rcases cap half s with _ | ⟨v, s'⟩
    · rfl
    · simp [ht]
  rw [this]

/-- **C68**: what `solidcap` returns. -/
theorem C68_solidcap_partial (dir : Fin 3 → ℝ) (h : dir 0 ≠ 0 ∨ dir 1 ≠ 0 ∨ 0 < dir 2) (half a b : ℝ) (h0 : 0 ≤ a) (hab : a ≤ b)
    (hb : 0 < b) (x : Fin 3 → ℝ) (hx : x ≠ 0) : x ∈ Out (solidcap dir half a b) ↔
      Real.cos half * Real.sqrt (mag2 dir) * Real.sqrt (mag2 x) ≤ x ⬝ᵥ dir ∧
      b * (a / b) ^ (1 / 3 : ℝ) ≤ Real.sqrt (mag2 x) ∧ Real.sqrt (mag2 x) ≤ b := by
  have hab1 : a / b ≤ 1 := (div_le_one hb).2 hab
  have hC := C68_cap_dir_partial dir h half
  constructor
  · rintro ⟨s, t, hs, e⟩
    simp only [solidcap] at e
    rw [if_neg hb.ne'] at e
    rcases e1 : randIn (a / b) 1 s with _ | ⟨u, s'⟩
    · rw [e1] at e
      cases e
    · rw [e1] at e
      simp only [Option.bind_eq_bind, Option.bind_some] at e
      obtain ⟨h1, h2, hs'⟩ := (randIn_spec _ _ hab1).1 s u s' hs e1
      rcases e2 : capDir dir half s' with _ | ⟨v, s''⟩
      · rw [e2] at e
        cases e
      · rw [e2] at e
        simp only [Option.bind_some, Option.some.injEq, Prod.mk.injEq] at e
        obtain ⟨rfl, -⟩ := e
        have hv : v ∈ Out (capDir dir half) := ⟨s', s'', hs', e2⟩
        rw [hC] at hv
        obtain ⟨hv1, hv2⟩ := hv
        obtain ⟨h3, h4, h5⟩ := root_bound h0 hb (k := 1 / 3) (by norm_num) h1 h2
        have hl : Real.sqrt (mag2 fun i => b * u ^ (1 / 3 : ℝ) * v i) = b * u ^ (1 / 3 : ℝ) := by
          simp only [mul_comm _ (v _)]
          rw [mag2_mul, hv1, mul_one, Real.sqrt_sq (h3.trans h4)]
        rw [hl]
        refine ⟨?_, h4, h5⟩
        rw [show (fun i => b * u ^ (1 / 3 : ℝ) * v i) = (b * u ^ (1 / 3 : ℝ)) • v from rfl, smul_dotProduct, smul_eq_mul,
          mul_comm]
        exact mul_le_mul_of_nonneg_left hv2 (h3.trans h4)
  · rintro ⟨h1, h2, h3⟩
    obtain ⟨v, hv, hxv⟩ := direction x
    obtain ⟨u, hu1, hu2, hu⟩ := root_between h0 hb (k := 1 / 3) (by norm_num) h2 h3
    obtain ⟨w, hw, hw'⟩ := (randIn_spec _ _ hab1).2 u hu1 hu2
    have hxp : 0 < Real.sqrt (mag2 x) := by
      rw [Real.sqrt_pos]
      exact lt_of_le_of_ne (mag2_nonneg' x) fun h => hx ((self_dot_eq_zero x).1 (by rw [← mag2_eq]; exact h.symm))
    have hvm : v ∈ Out (capDir dir half) := by
      rw [hC]
      refine ⟨hv, ?_⟩
      have : x ⬝ᵥ dir = Real.sqrt (mag2 x) * (v ⬝ᵥ dir) := by
        conv_lhs => rw [hxv]
        exact smul_dotProduct (Real.sqrt (mag2 x)) v dir
      rw [this, mul_comm] at h1
      exact le_of_mul_le_mul_left h1 hxp
    obtain ⟨s, t, hs, e⟩ := hvm
    refine ⟨w :: s, t, good_cons.2 ⟨hw, hs⟩, ?_⟩
    simp only [solidcap, Option.bind_eq_bind, hw', e, Option.bind_some, hu]
    rw [if_neg hb.ne', Option.some.injEq, Prod.mk.injEq]
    refine ⟨?_, rfl⟩
    conv_rhs => rw [hxv]
    ext i
    field_simp

/-- The turn for a disk: any normal but zero. -/
theorem turn_disk (normal : Fin 3 → ℝ) (h : normal ≠ 0) :
    ∃ f : (Fin 3 → ℝ) → (Fin 3 → ℝ), (∀ v, turn normal v = some (f v)) ∧ (∀ v w, f v ⬝ᵥ f w = v ⬝ᵥ w) ∧
      (∀ w, ∃ v, f v = w) ∧ ∃ m ≠ 0, ∀ v, f v ⬝ᵥ normal = m * v 2 := by
  by_cases hd : normal 0 ≠ 0 ∨ normal 1 ≠ 0 ∨ 0 < normal 2
  · obtain ⟨f, hf, hp, hs, hz⟩ := turn_spec normal hd
    refine ⟨f, hf, hp, hs, Real.sqrt (mag2 normal), ?_, fun v => ?_⟩
    · intro h0
      rw [h0, zero_smul] at hz
      exact h hz.symm
    · conv_lhs => rw [← hz]
      rw [dotProduct_smul, hp, dot3]
      simp
  · push Not at hd
    refine ⟨id, fun v => ?_, fun v w => rfl, fun w => ⟨w, rfl⟩, normal 2, fun h2 => h ?_, fun v => ?_⟩
    · rw [turn, axis_eq, if_pos]
      · rfl
      · rw [isZero_iff, hd.1, hd.2.1]
        ext i
        fin_cases i <;> simp
    · ext i
      fin_cases i
      · exact hd.1
      · exact hd.2.1
      · exact h2
    · rw [dot3, hd.1, hd.2.1]
      simp
      ring

/-- **C68**: `oriented_disk` returns all points of the disk with the given normal and radius, and no others. -/
theorem C68_oriented_disk (normal : Fin 3 → ℝ) (h : normal ≠ 0) (r : ℝ) :
    Out (orientedDisk normal r) = {x | x ⬝ᵥ normal = 0 ∧ mag2 x ≤ r ^ 2} := by
  obtain ⟨f, hf, hp, hs, m, hm, hn⟩ := turn_disk normal h
  have hres : ∀ v : Fin 2 → ℝ, (resized 3 v : Fin 3 → ℝ) = ![v 0, v 1, 0] := by
    intro v
    ext i
    fin_cases i <;> rfl
  have hm2 : ∀ v : Fin 2 → ℝ, mag2 (f (resized 3 v)) = mag2 v := by
    intro v
    rw [mag2_eq, hp, hres, dot3, mag2_eq]
    simp [dotProduct, Fin.sum_univ_two]
  ext x
  constructor
  · rintro ⟨s, t, hg, e⟩
    simp only [orientedDisk] at e
    rcases e1 : disk r s with _ | ⟨v, s'⟩
    · rw [e1] at e
      cases e
    · rw [e1] at e
      simp only [Option.bind_eq_bind, Option.bind_some, hf, Option.some.injEq, Prod.mk.injEq] at e
      obtain ⟨rfl, -⟩ := e
      have hv : v ∈ Out (disk r) := ⟨s, s', hg, e1⟩
      rw [C68_disk] at hv
      refine ⟨by rw [hn, hres]; simp, ?_⟩
      rw [hm2]
      exact hv
  · rintro ⟨h1, h2⟩
    obtain ⟨v, rfl⟩ := hs x
    rw [hn] at h1
    have hv2 : v 2 = 0 := (mul_eq_zero.1 h1).resolve_left hm
    have hv : v = resized 3 ![v 0, v 1] := by
      rw [hres]
      ext i
      fin_cases i
      · rfl
      · rfl
      · exact hv2
    rw [hv, hm2] at h2
    have : (![v 0, v 1] : Fin 2 → ℝ) ∈ Out (disk r) := by
      rw [C68_disk]
      exact h2
    obtain ⟨s, t, hg, e⟩ := this
    refine ⟨s, t, hg, ?_⟩
    simp only [orientedDisk, Option.bind_eq_bind, e, Option.bind_some, ← hv, hf]

/-! ## Arcs -/

/-- **C68**: `arc` returns the unit vectors with angles in the range. -/
theorem C68_arc (lo hi : ℝ) (h : lo ≤ hi) :
    Out (arc lo hi) = {x | ∃ a, lo ≤ a ∧ a ≤ hi ∧ x = ![Real.cos a, Real.sin a]} := by
  ext x
  constructor
  · rintro ⟨s, t, hs, e⟩
    simp only [arc] at e
    rcases e1 : randIn lo hi s with _ | ⟨a, s'⟩
    · rw [e1] at e
      cases e
    · rw [e1] at e
      simp only [Option.bind_eq_bind, Option.bind_some, Option.some.injEq, Prod.mk.injEq] at e
      obtain ⟨rfl, -⟩ := e
      obtain ⟨h1, h2, -⟩ := (randIn_spec _ _ h).1 s a s' hs e1
      exact ⟨a, h1, h2, rfl⟩
  · rintro ⟨a, h1, h2, rfl⟩
    obtain ⟨u, hu, hu'⟩ := (randIn_spec _ _ h).2 a h1 h2
    refine ⟨[u], [], good_cons.2 ⟨hu, by simp [Good]⟩, ?_⟩
    simp only [arc, hu', Option.bind_eq_bind, Option.bind_some]

/-- **C68** is refuted for `solidarc`: what it returns has an angle for its length and a length for its angle. -/
theorem C68_solidarc_refuted (lo hi a b : ℝ) (h : lo ≤ hi) (h0 : 0 ≤ a) (hab : a ≤ b) (hb : 0 < b) :
    Out (solidarc lo hi a b) = {x | ∃ θ l, lo ≤ θ ∧ θ ≤ hi ∧ b * (a / b) ^ (1 / 2 : ℝ) ≤ l ∧ l ≤ b ∧
      x = ![θ * Real.cos l, θ * Real.sin l]} := by
  have hab1 : a / b ≤ 1 := (div_le_one hb).2 hab
  ext x
  constructor
  · rintro ⟨s, t, hs, e⟩
    simp only [solidarc] at e
    rcases e1 : randIn lo hi s with _ | ⟨θ, s'⟩
    · rw [e1] at e
      cases e
    · rw [e1] at e
      simp only [Option.bind_eq_bind, Option.bind_some] at e
      rw [if_neg hb.ne'] at e
      obtain ⟨h1, h2, hs'⟩ := (randIn_spec _ _ h).1 s θ s' hs e1
      rcases e2 : randIn (a / b) 1 s' with _ | ⟨u, s''⟩
      · rw [e2] at e
        cases e
      · rw [e2] at e
        simp only [Option.bind_some, Option.some.injEq, Prod.mk.injEq] at e
        obtain ⟨rfl, -⟩ := e
        obtain ⟨h3, h4, -⟩ := (randIn_spec _ _ hab1).1 s' u s'' hs' e2
        obtain ⟨-, h5, h6⟩ := root_bound h0 hb (k := 1 / 2) (by norm_num) h3 h4
        refine ⟨θ, b * Real.sqrt u, h1, h2, ?_, ?_, ?_⟩
        · rw [Real.sqrt_eq_rpow]
          exact h5
        · rw [Real.sqrt_eq_rpow]
          exact h6
        · simp [fromPolar]
  · rintro ⟨θ, l, h1, h2, h3, h4, rfl⟩
    obtain ⟨u, hu, hu'⟩ := (randIn_spec _ _ h).2 θ h1 h2
    obtain ⟨v, hv1, hv2, hv⟩ := root_between h0 hb (k := 1 / 2) (by norm_num) h3 h4
    obtain ⟨w, hw, hw'⟩ := (randIn_spec _ _ hab1).2 v hv1 hv2
    refine ⟨[u, w], [], good_cons.2 ⟨hu, good_cons.2 ⟨hw, by simp [Good]⟩⟩, ?_⟩
    simp only [solidarc, hu', hw', Option.bind_eq_bind, Option.bind_some]
    rw [if_neg hb.ne', Real.sqrt_eq_rpow, hv, mul_div_cancel₀ _ hb.ne']
    simp [fromPolar]

/-- A sector about the x-axis, sampled: nothing of it is returned but by accident; here, only the origin. -/
theorem C68_solidarc_zero_refuted : Out (solidarc 0 0 1 1) = {0} := by
  rw [C68_solidarc_refuted 0 0 1 1 le_rfl zero_le_one le_rfl one_pos]
  ext x
  constructor
  · rintro ⟨θ, l, h1, h2, -, -, rfl⟩
    have : θ = 0 := le_antisymm h2 h1
    subst this
    ext i
    fin_cases i <;> simp
  · rintro rfl
    refine ⟨0, 1, le_rfl, le_rfl, by simp, le_rfl, ?_⟩
    ext i
    fin_cases i <;> simp

/-! ## C82: reaching all of the set -/

/-- **C82**: `shell` reaches all of the shell if the inner radius is zero, if the radii are equal, or in one dimension. -/
theorem C82_shell_partial (n : ℕ) (hn : 0 < n) (a b : ℝ) (h0 : 0 ≤ a) (hab : a ≤ b) (hb : 0 < b) (h : a = 0 ∨ a = b ∨ n = 1) :
    Out (shell n a b) = {x | a ≤ Real.sqrt (mag2 x) ∧ Real.sqrt (mag2 x) ≤ b} := by
  rw [C68_shell n a b h0 hab hb]
  have : b * (a / b) ^ (1 / (n : ℝ)) = a := by
    rcases h with h | h | h
    · subst h
      have : (0 : ℝ) < n := Nat.cast_pos.2 hn
      rw [zero_div, Real.zero_rpow (by positivity), mul_zero]
    · subst h
      rw [div_self hb.ne', Real.one_rpow, mul_one]
    · subst h
      simp
      field_simp
  rw [this]

/-- **C82** is refuted in all other cases: no vector whose length is the inner radius, or a little more, is returned. -/
theorem C82_shell_refuted (n : ℕ) (hn : 2 ≤ n) (a b : ℝ) (h0 : 0 < a) (hab : a < b) :
    ∃ c, a < c ∧ c < b ∧ ∀ x : Fin n → ℝ, Real.sqrt (mag2 x) < c → x ∉ Out (shell n a b) := by
  have hb : 0 < b := h0.trans hab
  refine ⟨b * (a / b) ^ (1 / (n : ℝ)), ?_, ?_, fun x hx h => ?_⟩
  · have hn' : (1 : ℝ) < n := by exact_mod_cast hn
    have : (a / b) ^ (1 : ℝ) < (a / b) ^ (1 / (n : ℝ)) :=
      Real.rpow_lt_rpow_of_exponent_gt (div_pos h0 hb) ((div_lt_one hb).2 hab) ((div_lt_one (by linarith)).2 hn')
    rw [Real.rpow_one, div_lt_iff₀ hb, mul_comm] at this
    exact this
  · have : (0 : ℝ) < n := Nat.cast_pos.2 (by omega)
    have := Real.rpow_lt_one (div_pos h0 hb).le ((div_lt_one hb).2 hab) (z := 1 / (n : ℝ)) (by positivity)
    nlinarith
  · rw [C68_shell n a b h0.le hab.le hb] at h
    exact absurd h.1 (not_le.2 hx)

/-! ## Examples -/

/-- A point of the unit disk on its edge, after one rejected. -/
example : ∃ t, solidball 2 [1, 1, 0.8, 0.9, 0] = some (![0.6, 0.8], t) ∧ t = [0] := by
  refine ⟨[0], ?_, rfl⟩
  have b1 : box (fun _ : Fin 2 => -1) (fun _ => 1) [1, 1, 0.8, 0.9, 0] = some (![1, 1], [0.8, 0.9, 0]) := by
    unfold box
    rw [if_pos (by simp)]
    simp only [Option.some.injEq, Prod.mk.injEq]
    refine ⟨?_, rfl⟩
    ext i
    fin_cases i <;> norm_num
  have b2 : box (fun _ : Fin 2 => -1) (fun _ => 1) [0.8, 0.9, 0] = some (![0.6, 0.8], [0]) := by
    unfold box
    rw [if_pos (by simp)]
    simp only [Option.some.injEq, Prod.mk.injEq]
    refine ⟨?_, rfl⟩
    ext i
    fin_cases i <;> norm_num
  rw [solidball, ballLoop, b1]
  simp only [Option.bind_eq_bind, Option.bind_some, List.length_cons]
  rw [if_pos (by rw [mag2_eq]; simp [dotProduct, Fin.sum_univ_two]), ballLoop, b2]
  simp only [Option.bind_eq_bind, Option.bind_some]
  rw [if_neg (by rw [mag2_eq]; norm_num [dotProduct, Fin.sum_univ_two])]

/-- The shell between radii 1 and 4 in the plane: a vector of length 1.5 is in it, and not returned. -/
example : ![1.5, 0] ∉ Out (shell 2 1 4) := by
  rw [C68_shell 2 1 4 (by norm_num) (by norm_num) (by norm_num)]
  rintro ⟨h, -⟩
  rw [mag2_eq, show ((![1.5, 0] : Fin 2 → ℝ) ⬝ᵥ ![1.5, 0]) = 1.5 ^ 2 by simp [dotProduct, Fin.sum_univ_two]; norm_num,
    Real.sqrt_sq (by norm_num), Nat.cast_ofNat, ← Real.sqrt_eq_rpow, show (1 : ℝ) / 4 = (1 / 2) ^ 2 by norm_num,
    Real.sqrt_sq (by norm_num)] at h
  norm_num at h

end Geomc.Sampler
