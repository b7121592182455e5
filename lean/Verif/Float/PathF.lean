import Verif.Float.PathModel
import Verif.Float.Noise
import Verif.Float.Geom
import Verif.Path.Props
import Mathlib.Algebra.Order.Floor.Semifield

/-! # Property C137: paths in floating point -/

namespace Geomc.Flt

variable {K : Type} [Field K] [LinearOrder K] [IsStrictOrderedRing K] [FloorRing K] {p N : ℕ} {rnd : K → K}

/-! ## Whole and fractional parts of floats -/

theorem float_parts {t : K} (hp : 1 ≤ p) (ht : IsFloat p t) (t0 : 0 ≤ t) : IsFloat p ((⌊t⌋₊ : ℕ) : K) ∧ IsFloat p (t - ((⌊t⌋₊ : ℕ) : K)) := by
  obtain ⟨m, e, hm, rfl⟩ := ht
  have h2 : (0 : K) < 2 ^ e := by positivity
  have m0 : 0 ≤ m := by
    have := nonneg_of_mul_nonneg_left t0 h2
    exact_mod_cast this
  rcases le_or_gt 0 e with he | he
  · obtain ⟨k, rfl⟩ := Int.eq_ofNat_of_zero_le he
    obtain ⟨n, rfl⟩ := Int.eq_ofNat_of_zero_le m0
    have e1 : ((n : ℤ) : K) * 2 ^ ((k : ℕ) : ℤ) = ((n * 2 ^ k : ℕ) : K) := by
      push_cast
      rw [zpow_natCast]
    rw [e1, Nat.floor_natCast, sub_self]
    refine ⟨?_, float_zero p⟩
    rw [← e1]
    exact ⟨n, k, hm, rfl⟩
  · obtain ⟨k, hk⟩ := Int.eq_ofNat_of_zero_le (show 0 ≤ -e by omega)
    obtain ⟨n, rfl⟩ := Int.eq_ofNat_of_zero_le m0
    have e1 : ((n : ℤ) : K) * 2 ^ e = ((n : ℕ) : K) / ((2 ^ k : ℕ) : K) := by
      rw [show e = -(k : ℤ) by omega, zpow_neg, zpow_natCast]
      push_cast
      rw [div_eq_mul_inv]
    have fl : ⌊((n : ℤ) : K) * 2 ^ e⌋₊ = n / 2 ^ k := by
      rw [e1, Nat.floor_div_natCast, Nat.floor_natCast]
    have hn : (n : ℤ) < 2 ^ p := (le_abs_self _).trans_lt hm
    rw [fl]
    constructor
    · have := float_int (K := K) hp (k := ((n / 2 ^ k : ℕ) : ℤ)) (by
        rw [Nat.abs_cast]
        have : n / 2 ^ k ≤ n := Nat.div_le_self _ _
        have : ((n / 2 ^ k : ℕ) : ℤ) ≤ n := by exact_mod_cast this
        linarith)
      rwa [Int.cast_natCast] at this
    · refine ⟨((n % 2 ^ k : ℕ) : ℤ), e, ?_, ?_⟩
      · rw [Nat.abs_cast]
        have : n % 2 ^ k ≤ n := Nat.mod_le _ _
        have : ((n % 2 ^ k : ℕ) : ℤ) ≤ n := by exact_mod_cast this
        linarith
      · rw [e1, show (2 : K) ^ e = 1 / ((2 ^ k : ℕ) : K) by
          rw [show e = -(k : ℤ) by omega, zpow_neg, zpow_natCast]
          push_cast
          rw [one_div]]
        have hz : ((2 ^ k : ℕ) : K) ≠ 0 := by positivity
        have split : (n : K) = ((2 ^ k : ℕ) : K) * ((n / 2 ^ k : ℕ) : K) + ((n % 2 ^ k : ℕ) : K) := by
          exact_mod_cast (Nat.div_add_mod n (2 ^ k)).symm
        rw [Int.cast_natCast, mul_one_div, eq_div_iff hz, sub_mul, div_mul_cancel₀ _ hz]
        linarith

/-! ## Blending -/

theorem mixVec_near (hp : 10 ≤ p) (h : IsRound p rnd) {m m' : K} (m0 : 0 ≤ m) (m1 : m ≤ 1) (hm : |m' - m| ≤ 376 * eps K p) {k : ℕ}
    {a a' b b' : Fin N → K} {i : Fin N} {D : K} (ha : Near (eps K p) k (a' i) (a i) D) (hb : Near (eps K p) k (b' i) (b i) D) :
    Near (eps K p) (k + 757) (mixVec rnd a' b' m' i) (Path.mixV a b m i) D := by
  have z : Near (eps K p) (k + 754) (0 : K) 0 0 := ⟨by simp, by simp⟩
  have := slope_step hp h m0 m1 hm ha hb z
  rw [zero_add (rnd _), h.fix (h.mem _), zero_add, zero_add] at this
  exact this

theorem ray_near (hp : 1 ≤ p) (h : IsRound p rnd) (o d : Fin N → K) (i : Fin N) {k : ℕ} {s s' S : K} (hs : Near (eps K p) k s' s S) :
    Near (eps K p) (k + 2) (rayAt rnd o d s' i) (o i + d i * s) (|o i| + |d i| * S) := by
  have e0 := (eps_pos (K := K) p).le
  have t := ((Near.refl (eps K p) (d i)).mul e0 hs).round hp h le_rfl
  rw [zero_add] at t
  exact (((Near.refl (eps K p) (o i)).mono e0 (Nat.zero_le _)).add t).round hp h le_rfl

/-! ## The path -/

/-- **C137.** Between two knots the computed point is within 760 rounding errors of the exact one in every coordinate, relative to the larger of the
sums of the coordinates of position and velocity of the two knots. -/
theorem C137_between (hp : 10 ≤ p) (h : IsRound p rnd) (knots : List (Path.Knot N K)) (k : ℕ) (hk : k + 1 < knots.length) {t : K} (ht : IsFloat p t)
    (t64 : t < 2 ^ 64) (h0 : (k : K) ≤ t) (h1 : t < k + 1) :
    ∃ y' y, pathF rnd knots t = some y' ∧ Path.eval knots t = some y ∧
      ∀ i, |y' i - y i| ≤ ((1 + eps K p) ^ 760 - 1) *
        max (|knots[k].origin i| + |knots[k].direction i|) (|knots[k + 1].origin i| + |knots[k + 1].direction i|) := by
  have hp1 : 1 ≤ p := by omega
  have e0 := (eps_pos (K := K) p).le
  have t0 : 0 ≤ t := (Nat.cast_nonneg k).trans h0
  have fl : ⌊t⌋₊ = k := (Nat.floor_eq_iff t0).2 ⟨h0, h1⟩
  obtain ⟨fk, fu⟩ := float_parts hp1 ht t0
  rw [fl] at fk fu
  have c1 : (-1 : K) < t := by linarith
  have u0 : 0 ≤ t - k := by linarith
  have u1 : t - k ≤ 1 := by linarith
  have e1 : pathF rnd knots t = some (mixVec rnd (rayAt rnd knots[k].origin knots[k].direction (t - k))
      (rayAt rnd knots[k + 1].origin knots[k + 1].direction (rnd (t - k - 1))) (easeF rnd (t - k))) := by
    have a1 : ¬ knots.length < 1 := by omega
    have a2 : ¬ t < 0 := not_lt.2 t0
    have a3 : ¬ k ≥ knots.length - 1 := by omega
    simp only [pathF, Path.toSize, c1, t64, and_self, if_true, fl, Option.bind_eq_bind, Option.bind_some, a1, a2, a3, if_false, h.fix fk, h.fix fu,
      List.getElem?_eq_getElem hk, List.getElem?_eq_getElem (show k < knots.length by omega)]
  have e2 : Path.eval knots t = some (Path.mixV (knots[k].at (t - k)) (knots[k + 1].at (t - k - 1)) (Path.ease (t - k))) := by
    have a1 : ¬ knots.length < 1 := by omega
    have a2 : ¬ t < 0 := not_lt.2 t0
    have a3 : ¬ k ≥ knots.length - 1 := by omega
    simp only [Path.eval, Path.toSize, c1, t64, and_self, if_true, fl, Option.bind_eq_bind, Option.bind_some, a1, a2, a3, if_false,
      List.getElem?_eq_getElem hk, List.getElem?_eq_getElem (show k < knots.length by omega)]
  refine ⟨_, _, e1, e2, fun i => ?_⟩
  obtain ⟨m0, m1⟩ := fade_unit u0 u1
  have nu : Near (eps K p) 1 (t - k) (t - k) (t - k) := by
    have := (Near.refl (eps K p) (t - (k : K))).mono e0 (Nat.zero_le 1)
    rwa [abs_of_nonneg u0] at this
  have hm : |easeF rnd (t - k) - Path.ease (t - k)| ≤ 376 * eps K p := by
    refine (fade_near hp1 h u0 u1 nu).trans ?_
    have := fade_index (eps_pos (K := K) p) (eps_small (K := K) hp)
    linarith
  have w : Near (eps K p) 1 (rnd (t - k - 1)) (t - k - 1) 1 := by
    have := (Near.refl (eps K p) (t - k - 1)).round hp1 h le_rfl
    exact this.weaken e0 (abs_le.2 ⟨by linarith, by linarith⟩)
  have v0 := (ray_near hp1 h knots[k].origin knots[k].direction i (nu.weaken e0 u1)).weaken e0
    (Z := max (|knots[k].origin i| + |knots[k].direction i|) (|knots[k + 1].origin i| + |knots[k + 1].direction i|)) (by rw [mul_one]; exact le_max_left _ _)
  have v1 := (ray_near hp1 h knots[k + 1].origin knots[k + 1].direction i w).weaken e0
    (Z := max (|knots[k].origin i| + |knots[k].direction i|) (|knots[k + 1].origin i| + |knots[k + 1].direction i|)) (by rw [mul_one]; exact le_max_right _ _)
  exact (mixVec_near hp h m0 m1 hm v0 v1).1

/-- **C137.** At every knot the path is exactly at the position of the knot. -/
theorem C137_knot (hp : 10 ≤ p) (h : IsRound p rnd) (knots : List (Path.Knot N K)) (k : ℕ) (hk : k < knots.length) (hsz : knots.length ≤ 2 ^ p)
    (h64 : k < 2 ^ 64) (ho : ∀ i, IsFloat p (knots[k].origin i)) : pathF rnd knots (k : K) = some knots[k].origin := by
  have hp1 : 1 ≤ p := by omega
  have whole : ∀ n : ℕ, n ≤ 2 ^ p → rnd (n : K) = n := fun n hn => by
    have := h.fix (float_int (K := K) hp1 (k := (n : ℤ)) (by rw [Nat.abs_cast]; exact_mod_cast hn))
    simpa using this
  have z : rnd 0 = 0 := h.fix (float_zero p)
  have n1 : rnd 1 = 1 := by simpa using whole 1 (Nat.one_le_two_pow)
  have c1 : (-1 : K) < k := lt_of_lt_of_le (by norm_num) (Nat.cast_nonneg k)
  have c2 : (k : K) < 2 ^ 64 := by exact_mod_cast h64
  have a1 : ¬ knots.length < 1 := by omega
  have a2 : ¬ (k : K) < 0 := not_lt.2 (Nat.cast_nonneg k)
  by_cases a3 : k ≥ knots.length - 1
  · have ek : knots.length - 1 = k := by omega
    have es : rnd (rnd ((k : K) - rnd (knots.length : K)) + 1) = 0 := by
      rw [whole _ hsz, show (k : K) - (knots.length : K) = -1 by
        have : knots.length = k + 1 := by omega
        rw [this]
        push_cast
        ring]
      have : rnd (-1 : K) = -1 := by
        have := h.fix (float_int (K := K) hp1 (k := -1) (by rw [abs_neg, abs_one]; exact one_le_pow₀ (by norm_num)))
        simpa using this
      rw [this, neg_add_cancel, z]
    have g : knots[knots.length - 1]? = some knots[k] := by rw [ek, List.getElem?_eq_getElem hk]
    simp only [pathF, Path.toSize, c1, c2, and_self, if_true, Nat.floor_natCast, Option.bind_eq_bind, Option.bind_some, a1, a2, a3, if_false, es, g]
    congr 1
    funext i
    exact (C111_ray hp1 h knots[k].origin knots[k].direction 0 i).2 (ho i)
  · have hk1 : k + 1 < knots.length := by omega
    have ez : rnd ((k : K) - rnd (k : K)) = 0 := by rw [whole k (by omega), sub_self, z]
    have f0 : easeF rnd (0 : K) = 0 := (fadeF_ends hp h).1
    simp only [pathF, Path.toSize, c1, c2, and_self, if_true, Nat.floor_natCast, Option.bind_eq_bind, Option.bind_some, a1, a2, a3, if_false, ez, f0,
      List.getElem?_eq_getElem hk1, List.getElem?_eq_getElem hk]
    congr 1
    funext i
    simp only [mixVec]
    rw [(C111_ray hp1 h knots[k].origin knots[k].direction 0 i).2 (ho i), sub_zero, n1, one_mul, zero_mul, z, add_zero, h.fix (ho i), h.fix (ho i)]

/-- **C137.** After the last knot the computed point is within four rounding errors of the exact one. -/
theorem C137_after (hp : 1 ≤ p) (h : IsRound p rnd) (knots : List (Path.Knot N K)) (hne : knots ≠ []) (hsz : knots.length ≤ 2 ^ p) {t : K} (t64 : t < 2 ^ 64)
    (h0 : ((knots.length - 1 : ℕ) : K) ≤ t) :
    ∃ y' y, pathF rnd knots t = some y' ∧ Path.eval knots t = some y ∧
      ∀ i, |y' i - y i| ≤ ((1 + eps K p) ^ 4 - 1) * (|(knots.getLast hne).origin i| + |(knots.getLast hne).direction i| * (|t - knots.length| + 1)) := by
  have e0 := (eps_pos (K := K) p).le
  have hl : 0 < knots.length := List.length_pos_iff.2 hne
  have t0 : 0 ≤ t := (Nat.cast_nonneg _).trans h0
  have c1 : (-1 : K) < t := by linarith
  have a1 : ¬ knots.length < 1 := by omega
  have a2 : ¬ t < 0 := not_lt.2 t0
  have a3 : ⌊t⌋₊ ≥ knots.length - 1 := Nat.le_floor h0
  have whole : rnd (knots.length : K) = knots.length := by
    have := h.fix (float_int (K := K) hp (k := (knots.length : ℤ)) (by rw [Nat.abs_cast]; exact_mod_cast hsz))
    simpa using this
  have g : knots[knots.length - 1]? = some (knots.getLast hne) := by rw [List.getLast_eq_getElem, List.getElem?_eq_getElem (by omega)]
  have e1 : pathF rnd knots t = some (rayAt rnd (knots.getLast hne).origin (knots.getLast hne).direction (rnd (rnd (t - knots.length) + 1))) := by
    simp only [pathF, Path.toSize, c1, t64, and_self, if_true, Option.bind_eq_bind, Option.bind_some, a1, a2, a3, if_false, whole, g]
  have e2 : Path.eval knots t = some ((knots.getLast hne).at (t - knots.length + 1)) := by
    simp only [Path.eval, Path.toSize, c1, t64, and_self, if_true, Option.bind_eq_bind, Option.bind_some, a1, a2, a3, if_false, g]
  refine ⟨_, _, e1, e2, fun i => ?_⟩
  have n := (((Near.refl (eps K p) (t - knots.length)).round hp h le_rfl).add ((Near.refl (eps K p) 1).mono e0 (Nat.zero_le _))).round hp h le_rfl
  rw [abs_one] at n
  exact (ray_near hp h (knots.getLast hne).origin (knots.getLast hne).direction i n).1

/-- **C137.** Before the first knot, within two. -/
theorem C137_before (hp : 1 ≤ p) (h : IsRound p rnd) (k : Path.Knot N K) (knots : List (Path.Knot N K)) {t : K} (h1 : -1 < t) (h0 : t < 0) :
    ∃ y' y, pathF rnd (k :: knots) t = some y' ∧ Path.eval (k :: knots) t = some y ∧
      ∀ i, |y' i - y i| ≤ ((1 + eps K p) ^ 2 - 1) * (|k.origin i| + |k.direction i| * |t|) := by
  have t64 : t < 2 ^ 64 := h0.trans (by positivity)
  have e1 : pathF rnd (k :: knots) t = some (rayAt rnd k.origin k.direction t) := by
    simp [pathF, Path.toSize, h1, t64, h0]
  have e2 : Path.eval (k :: knots) t = some (k.at t) := by
    simp [Path.eval, Path.toSize, h1, t64, h0]
  exact ⟨_, _, e1, e2, fun i => (ray_near hp h k.origin k.direction i (Near.refl _ t)).1⟩

/-- **C137.** The path is defined for the same parameters in floating point. -/
theorem C137_defined (knots : List (Path.Knot N K)) (t : K) : (pathF rnd knots t).isSome = (Path.eval knots t).isSome := by
  unfold pathF Path.eval
  cases Path.toSize t with
  | none => rfl
  | some n =>
    simp only [Option.bind_eq_bind, Option.bind_some]
    split_ifs
    · rfl
    · cases knots[0]? <;> rfl
    · cases knots[knots.length - 1]? <;> rfl
    · cases knots[n]? <;> cases knots[n + 1]? <;> rfl

/-- **C137.** Without rounding the model is that of C66. -/
theorem C137_exact (knots : List (Path.Knot N K)) (t : K) : pathF id knots t = Path.eval knots t := rfl

/-- **C137, refuted.** A path that stands still need not stay at its position: between two equal knots without velocity the computed point is
another one. -/
theorem C137_still_refuted : ∃ (k : Path.Knot 1 ℚ) (t : ℚ), (∀ i, IsFloat 24 (k.origin i) ∧ k.direction i = 0) ∧ IsFloat 24 t ∧ (Path.eval [k, k] t).map (· 0) = some (k.origin 0) ∧
    (pathF (nearest 24) [k, k] t).map (· 0) ≠ some (k.origin 0) := by
  refine ⟨⟨![3], ![0]⟩, 15 / 32, ?_, ⟨15, -5, by norm_num, by norm_num⟩, by decide +kernel, by decide +kernel⟩
  · intro i
    fin_cases i
    exact ⟨⟨3, 0, by norm_num, by norm_num⟩, rfl⟩

/-- A path of the examples. -/
def samplePath : List (Path.Knot 2 ℚ) := [⟨![0, 1], ![1, 0]⟩, ⟨![3, 5], ![1 / 7, -2]⟩, ⟨![7, 2], ![0, 4]⟩]

example : pathF (nearest 24) samplePath 1 = some ![3, 5] := by
  have := C137_knot (p := 24) (rnd := nearest 24) (K := ℚ) (by norm_num) (C95_nearest (by norm_num)) samplePath 1 (by decide) (by decide) (by norm_num) (fun i => by
    fin_cases i
    · exact ⟨3, 0, by norm_num, by norm_num [samplePath]⟩
    · exact ⟨5, 0, by norm_num, by norm_num [samplePath]⟩)
  rw [Nat.cast_one] at this
  exact this

example : (pathF (nearest 24) samplePath (11 / 8)).map (· 0) ≠ (Path.eval samplePath (11 / 8)).map (· 0) := by decide +kernel

example : (pathF (nearest 24) samplePath (1 / 2)).map (· 1) = some (7 / 2 : ℚ) := by decide +kernel

example : (pathF (nearest 24) samplePath (-1)).isNone := by decide +kernel

end Geomc.Flt
