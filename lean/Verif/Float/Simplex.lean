import Verif.Float.SimplexModel
import Verif.Float.Lerp
import Verif.LU.Float

/-! # Property C129: point tests of simplexes in floating point -/

namespace Geomc.Flt

open Geomc.Shape (Simp oneThen raw)
open Geomc.LU (linearSolveF decompPluF backwardF forwardLuF loopM loop put C113_solve C113_failure)
open Finset (sum_le_sum sum_nonneg)

variable {K : Type} [Field K] [LinearOrder K] [IsStrictOrderedRing K] [FloorRing K] {N p : ℕ} {rnd : K → K}

/-! ## The weights -/

/-- Not solving for the first unknown leaves the others as they are. -/
theorem skip_one (hp : 1 ≤ p) (h : IsRound p rnd) (f : Bool) {A X Z : ℕ → ℕ → K} {n : ℕ} {m : K} (hm : 0 ≤ m)
    (hA : ∀ r < n + 2, ∀ c < n + 2, |A r c| ≤ m) (hZ : linearSolveF rnd f A (n + 2) 1 X 1 = some (true, Z)) :
    ∃ Y, linearSolveF rnd f A (n + 2) 1 X 0 = some (true, Y) ∧ ∀ r, 1 ≤ r → Y r 0 = Z r 0 := by
  have hn := LU.near_of_round hp h
  unfold linearSolveF at hZ ⊢
  simp only at hZ ⊢
  by_cases hb : 0 < (decompPluF rnd A (n + 2) (n + 2)).bad
  · rw [if_pos hb] at hZ
    exact absurd hZ (by simp)
  rw [if_neg hb] at hZ ⊢
  have h00 : (decompPluF rnd A (n + 2) (n + 2)).A 0 0 ≠ 0 := by
    have hb0 : (decompPluF rnd A (n + 2) (n + 2)).bad = 0 := by omega
    rw [(LU.plu_invE hn hm A (n + 2) (n + 2) hA).bad, Finset.card_eq_zero, Finset.filter_eq_empty_iff] at hb0
    exact hb0 (Finset.mem_range.2 (by omega))
  set M := (decompPluF rnd A (n + 2) (n + 2)).A
  cases ea : Mtx.permutationApply (n + 2) (decompPluF rnd A (n + 2) (n + 2)).p X with
  | none => rw [ea] at hZ; simp at hZ
  | some q =>
    obtain ⟨q1, X'⟩ := q
    rw [ea] at hZ
    simp only [Option.bind_eq_bind, Option.bind_some] at hZ ⊢
    cases eb : backwardF rnd f M (n + 2) 1 1 (forwardLuF rnd f M (n + 2) 1 X') with
    | none => rw [eb] at hZ; simp at hZ
    | some Z' =>
      rw [eb] at hZ
      simp only [Option.bind_some, Option.some.injEq, Prod.mk.injEq, true_and] at hZ
      subst hZ
      unfold backwardF at eb ⊢
      rw [show n + 2 - 0 = (n + 1) + 1 by omega, loopM]
      rw [show n + 2 - 1 = n + 1 by omega] at eb ⊢
      rw [eb, Option.bind_some, show n + 1 - (n + 1) = 0 by omega, loopM, loopM, Option.bind_some, if_neg h00, Option.bind_some]
      refine ⟨_, rfl, fun r hr => ?_⟩
      have hl : ∀ k (Y : ℕ → ℕ → K), (loop k (fun u X => put X 0 0 (LU.subProd rnd f (X 0 0) (X (n + 1 - u) 0) (M 0 (n + 1 - u)))) Y) r 0 = Y r 0 := by
        intro k Y
        induction k with
        | zero => rfl
        | succ k ih =>
          rw [loop, put, if_neg (by omega), ih]
      rw [put, if_neg (by omega)]
      exact hl _ _

/-- Weights that pass the checks are not negative, and their exact sum is hardly more than one. -/
theorem weightsOk_sound (hp : 1 ≤ p) (h : IsRound p rnd) (x : ℕ → K) : ∀ (k i : ℕ) (s : K), 0 ≤ s → s ≤ 1 → weightsOkF rnd x k i s = true →
    (∀ j < k, 0 ≤ x (i + j)) ∧ s + ∑ j ∈ Finset.range k, x (i + j) ≤ (1 + eps K p) ^ (2 * k) := by
  have e0 := eps_pos (K := K) p
  have e1 := eps_le (K := K) hp
  intro k
  induction k with
  | zero =>
    intro i s s0 s1 _
    exact ⟨fun j hj => absurd hj (by omega), by simpa using s1⟩
  | succ k ih =>
    intro i s s0 s1 hw
    rw [weightsOkF] at hw
    by_cases hc : x i < 0 ∨ rnd (s + x i) > 1
    · rw [if_pos hc] at hw
      cases hw
    rw [if_neg hc] at hw
    push Not at hc
    have hx : 0 ≤ s + x i := add_nonneg s0 hc.1
    obtain ⟨a, b⟩ := ih (i + 1) _ ((h.nonneg_iff hp _).2 hx) hc.2 hw
    have a' : ∀ j < k, 0 ≤ x (i + (j + 1)) := fun j hj => by
      have := a j hj
      rwa [show i + 1 + j = i + (j + 1) by omega] at this
    refine ⟨fun j hj => ?_, ?_⟩
    · rcases Nat.eq_zero_or_pos j with rfl | hj0
      · exact hc.1
      · obtain ⟨j, rfl⟩ : ∃ j', j = j' + 1 := ⟨j - 1, by omega⟩
        exact a' j (by omega)
    · rw [Finset.sum_range_succ', add_zero]
      have hs : ∑ j ∈ Finset.range k, x (i + 1 + j) = ∑ j ∈ Finset.range k, x (i + (j + 1)) :=
        Finset.sum_congr rfl fun j _ => by rw [show i + 1 + j = i + (j + 1) by omega]
      rw [hs] at b
      have hT : 0 ≤ ∑ j ∈ Finset.range k, x (i + (j + 1)) := sum_nonneg fun j hj => a' j (Finset.mem_range.1 hj)
      set T := ∑ j ∈ Finset.range k, x (i + (j + 1))
      have hr := (abs_le.1 (h.rel hp (s + x i))).1
      change -(eps K p * |s + x i|) ≤ _ at hr
      rw [abs_of_nonneg hx] at hr
      have q1 : (1 : K) ≤ (1 + eps K p) ^ 2 * (1 - eps K p) := by
        have g1 : eps K p * eps K p ≤ 1 / 2 * eps K p := mul_le_mul_of_nonneg_right e1 e0.le
        have g2 : eps K p * eps K p * eps K p ≤ 1 / 2 * eps K p * (1 / 2) := mul_le_mul g1 e1 e0.le (by linarith)
        nlinarith
      have h1 : s + x i ≤ (1 + eps K p) ^ 2 * rnd (s + x i) := by
        have h2 : (1 - eps K p) * (s + x i) ≤ rnd (s + x i) := by linarith
        have h3 := mul_le_mul_of_nonneg_left h2 (show 0 ≤ (1 + eps K p) ^ 2 by positivity)
        have h4 := mul_le_mul_of_nonneg_right q1 hx
        linarith
      have h5 : T ≤ (1 + eps K p) ^ 2 * T := le_mul_of_one_le_left hT (one_le_pow₀ (by linarith))
      rw [show 2 * (k + 1) = 2 + 2 * k by ring, pow_add]
      have h6 := mul_le_mul_of_nonneg_left b (show 0 ≤ (1 + eps K p) ^ 2 by positivity)
      linarith

/-- Weights that are not negative and have a sum somewhat less than one pass the checks. -/
theorem weightsOk_complete (hp : 1 ≤ p) (h : IsRound p rnd) (x : ℕ → K) : ∀ (k i : ℕ) (s : K), 0 ≤ s → (∀ j < k, 0 ≤ x (i + j)) →
    (s + ∑ j ∈ Finset.range k, x (i + j)) * (1 + eps K p) ^ k ≤ 1 → weightsOkF rnd x k i s = true := by
  have e0 := eps_pos (K := K) p
  intro k
  induction k with
  | zero => intro i s _ _ _; rfl
  | succ k ih =>
    intro i s s0 hx hs
    have x0 : 0 ≤ x i := hx 0 (by omega)
    have a' : ∀ j < k, 0 ≤ x (i + 1 + j) := fun j hj => by
      have := hx (j + 1) (by omega)
      rwa [show i + (j + 1) = i + 1 + j by omega] at this
    rw [Finset.sum_range_succ', add_zero] at hs
    have he : ∑ j ∈ Finset.range k, x (i + (j + 1)) = ∑ j ∈ Finset.range k, x (i + 1 + j) :=
      Finset.sum_congr rfl fun j _ => by rw [show i + 1 + j = i + (j + 1) by omega]
    rw [he] at hs
    have hT : 0 ≤ ∑ j ∈ Finset.range k, x (i + 1 + j) := sum_nonneg fun j hj => a' j (Finset.mem_range.1 hj)
    have hsx : 0 ≤ s + x i := add_nonneg s0 x0
    have hr := (abs_le.1 (h.rel hp (s + x i))).2
    change _ ≤ eps K p * |s + x i| at hr
    rw [abs_of_nonneg hsx] at hr
    have hk : (1 : K) ≤ (1 + eps K p) ^ k := one_le_pow₀ (by linarith)
    have key : (rnd (s + x i) + ∑ j ∈ Finset.range k, x (i + 1 + j)) * (1 + eps K p) ^ k ≤ 1 := by
      refine le_trans ?_ hs
      rw [pow_succ', ← mul_assoc]
      refine mul_le_mul_of_nonneg_right ?_ (by positivity)
      nlinarith
    have r0 : 0 ≤ rnd (s + x i) := (h.nonneg_iff hp _).2 hsx
    rw [weightsOkF, if_neg]
    · exact ih (i + 1) _ r0 a' key
    · push Not
      refine ⟨x0, ?_⟩
      refine le_trans ?_ key
      have : rnd (s + x i) * 1 ≤ (rnd (s + x i) + ∑ j ∈ Finset.range k, x (i + 1 + j)) * (1 + eps K p) ^ k :=
        mul_le_mul (by linarith) hk zero_le_one (by linarith)
      linarith

/-! ## Errors -/

/-- How far the equations solved may be from those given, for vertices with coordinates up to `m`. -/
def slack (e : K) (N : ℕ) (m : K) : K := ((1 + e) ^ (3 * (N + 1)) - 1) * ((N + 1 : ℕ) : K) * (2 * (1 + e)) ^ N * m

omit [FloorRing K] in
theorem slack_ge {e m : K} (he : 0 ≤ e) (hm : 1 ≤ m) : (1 + e) ^ (3 * (N + 1)) - 1 ≤ slack e N m := by
  have h0 : 0 ≤ (1 + e) ^ (3 * (N + 1)) - 1 := sub_nonneg.2 (one_le_pow₀ (by linarith))
  have h1 : (1 : K) ≤ ((N + 1 : ℕ) : K) := by exact_mod_cast Nat.succ_le_succ (Nat.zero_le N)
  have h2 : (1 : K) ≤ (2 * (1 + e)) ^ N := one_le_pow₀ (by linarith)
  rw [slack]
  have := le_mul_of_one_le_right h0 h1
  have h3 := le_mul_of_one_le_right (h0.trans this) h2
  have h4 := le_mul_of_one_le_right ((h0.trans this).trans h3) hm
  linarith

omit [FloorRing K] in
theorem oneThen_le {m : K} (hm : 1 ≤ m) {v : Fin N → K} (hv : ∀ i, |v i| ≤ m) (r : ℕ) : |oneThen v r| ≤ m := by
  unfold oneThen raw
  split_ifs
  · rwa [abs_one]
  · exact hv _
  · rw [abs_zero]
    linarith

omit [LinearOrder K] [IsStrictOrderedRing K] [FloorRing K] in
theorem oneThen_succ (v : Fin N → K) (i : Fin N) : oneThen v ((i.succ : Fin (N + 1)) : ℕ) = v i := by
  simp [oneThen, raw]

omit [FloorRing K] in
theorem err_le {E : Matrix (Fin (N + 1)) (Fin (N + 1)) K} {b : K} (hE : ∀ r c, |E r c| ≤ b) (w : Fin (N + 1) → K) (r : Fin (N + 1)) :
    |∑ c, E r c * w c| ≤ b * ∑ c, |w c| := by
  rw [Finset.mul_sum]
  refine (Finset.abs_sum_le_sum_abs _ _).trans (sum_le_sum fun c _ => ?_)
  rw [abs_mul]
  exact mul_le_mul_of_nonneg_right (hE r c) (abs_nonneg _)

/-- A point among the vertices of a simplex: an average of them. -/
def InHull (v : ℕ → Fin N → K) (q : Fin N → K) : Prop :=
  ∃ l : Fin (N + 1) → K, (∀ c, 0 ≤ l c) ∧ ∑ c, l c = 1 ∧ ∀ i, ∑ c, l c * v c i = q i

/-- **C129.** A point that is said to be in a simplex is near to it, however thin the simplex is: within a multiple of the unit in the last place, if the
coordinates of the vertices are not large. -/
theorem C129_near (hp : 1 ≤ p) (h : IsRound p rnd) (fused : Bool) (s : Simp K (N + 1)) (x : Fin (N + 1) → K) {m : K} (hm : 1 ≤ m)
    (hv : ∀ c ≤ N + 1, ∀ i, |s.pts c i| ≤ m) (hb : slack (eps K p) (N + 1) m ≤ 1 / 4) (hc : simpContains rnd fused s x = some true) :
    ∃ q, InHull s.pts q ∧ ∀ i, |x i - q i| ≤ 7 * slack (eps K p) (N + 1) m * m := by
  have e0 := eps_pos (K := K) p
  have e1 := eps_le (K := K) hp
  have m0 : 0 ≤ m := by linarith
  rw [simpContains] at hc
  by_cases hn : s.n < N + 1 + 1
  · rw [if_pos hn] at hc
    cases hc
  rw [if_neg hn, Option.map_eq_some_iff] at hc
  obtain ⟨⟨b, Z⟩, hZ, hw⟩ := hc
  cases b
  · simp at hw
  simp only [Bool.true_eq_false, if_false] at hw
  have hA : ∀ r < N + 2, ∀ c < N + 2, |(fun r c => oneThen (s.pts c) r) r c| ≤ m := fun r _ c hc => oneThen_le hm (hv c (by omega)) r
  obtain ⟨Y, hY, hYZ⟩ := skip_one hp h fused m0 hA hZ
  obtain ⟨E, hE, -, hE2⟩ := C113_solve hp h fused m0 hA hY 0 (by omega)
  obtain ⟨w0, wS⟩ := weightsOk_sound hp h _ _ _ _ le_rfl zero_le_one hw
  have hE2' : ∀ r c, |E r c| ≤ slack (eps K p) (N + 1) m := fun r c => hE2 r c
  set β := slack (eps K p) (N + 1) m with hβ
  have hge : (1 + eps K p) ^ (3 * (N + 1 + 1)) - 1 ≤ β := slack_ge e0.le hm
  set w : Fin (N + 2) → K := fun c => Y c 0 with hwdef
  have hη := err_le hE2' w
  have rows : ∀ r : Fin (N + 2), ∑ c : Fin (N + 2), oneThen (s.pts c) r * w c + ∑ c, E r c * w c = oneThen x r := fun r => by
    rw [← Finset.sum_add_distrib, ← hE r]
    exact Finset.sum_congr rfl fun c _ => by rw [add_mul]
  have wpos : ∀ c : Fin (N + 1), 0 ≤ w c.succ := fun c => by
    rw [hwdef]
    simp only
    rw [hYZ _ (by simp)]
    have := w0 c c.2
    rwa [add_comm 1] at this
  set S := ∑ c : Fin (N + 1), w c.succ with hS
  have S0 : 0 ≤ S := sum_nonneg fun c _ => wpos c
  have S1 : S ≤ 1 + β / 4 := by
    have h1 : S = ∑ j ∈ Finset.range (N + 1), Z (1 + j) 0 := by
      rw [hS, Finset.sum_range]
      refine Finset.sum_congr rfl fun c _ => ?_
      rw [hwdef]
      simp only
      rw [hYZ _ (by simp), Fin.val_succ, add_comm 1]
    rw [zero_add, ← h1] at wS
    refine wS.trans ?_
    have h2 : (1 + eps K p) ^ (2 * (N + 1)) - 1 ≤ β / 4 := by
      have g0 : 0 ≤ (1 + eps K p) ^ (2 * (N + 1)) - 1 := sub_nonneg.2 (one_le_pow₀ (by linarith))
      have g1 : (1 + eps K p) ^ (2 * (N + 1)) - 1 ≤ (1 + eps K p) ^ (3 * (N + 1 + 1)) - 1 :=
        sub_le_sub_right (pow_le_pow_right₀ (by linarith) (by omega)) 1
      have g2 : (2 : K) ≤ ((N + 1 + 1 : ℕ) : K) := by exact_mod_cast (by omega : 2 ≤ N + 1 + 1)
      have g3 : (2 : K) ≤ (2 * (1 + eps K p)) ^ (N + 1) := by
        have : (1 : K) ≤ (2 * (1 + eps K p)) ^ N := one_le_pow₀ (by linarith)
        rw [pow_succ]
        nlinarith
      have g4 : ((1 + eps K p) ^ (2 * (N + 1)) - 1) * 2 * 2 * 1 ≤ β := by
        rw [hβ, slack]
        refine mul_le_mul (mul_le_mul (mul_le_mul g1 g2 (by norm_num) (g0.trans g1)) g3 (by norm_num) ?_) hm zero_le_one ?_
        · exact mul_nonneg (g0.trans g1) (by linarith)
        · exact mul_nonneg (mul_nonneg (g0.trans g1) (by linarith)) (by linarith)
      linarith
    linarith
  have β0 : 0 ≤ β := le_trans (sub_nonneg.2 (one_le_pow₀ (by linarith))) hge
  have r0 := rows 0
  have o0 : ∀ v : Fin (N + 1) → K, oneThen v ((0 : Fin (N + 2)) : ℕ) = 1 := fun v => by simp [oneThen]
  simp only [o0, one_mul] at r0
  set η := fun r => ∑ c, E r c * w c with hηd
  set W := ∑ c, |w c| with hW
  have hη' : ∀ r, |η r| ≤ β * W := hη
  rw [Fin.sum_univ_succ, ← hS] at r0
  change w 0 + S + η 0 = 1 at r0
  have WS : W = |w 0| + S := by
    rw [hW, Fin.sum_univ_succ, hS]
    congr 1
    exact Finset.sum_congr rfl fun c _ => abs_of_nonneg (wpos c)
  have W3 : W ≤ 3 := by
    have h1 : |w 0| ≤ 1 + β * W := by
      have h2 := abs_le.1 (hη' 0)
      rw [abs_le]
      constructor <;> linarith
    have W0 : 0 ≤ W := sum_nonneg fun c _ => abs_nonneg _
    nlinarith
  have η3 : ∀ r, |η r| ≤ 3 * β := fun r => by
    have := mul_le_mul_of_nonneg_left W3 β0
    linarith [hη' r]
  have βm : β ≤ β * m := le_mul_of_one_le_right β0 hm
  have ri : ∀ i, x i = w 0 * s.pts 0 i + ∑ c : Fin (N + 1), w c.succ * s.pts (c + 1) i + η i.succ := fun i => by
    have := rows i.succ
    simp only [oneThen_succ] at this
    rw [Fin.sum_univ_succ] at this
    rw [← this]
    refine congrArg₂ _ (congrArg₂ _ (mul_comm _ _) (Finset.sum_congr rfl fun c _ => ?_)) rfl
    rw [mul_comm, Fin.val_succ]
  rcases le_or_gt S 1 with hS1 | hS1
  · refine ⟨fun i => (1 - S) * s.pts 0 i + ∑ c : Fin (N + 1), w c.succ * s.pts (c + 1) i, ⟨Fin.cons (1 - S) fun c => w c.succ, ?_, ?_, ?_⟩, fun i => ?_⟩
    · intro c
      refine Fin.cases ?_ (fun c => ?_) c
      · rw [Fin.cons_zero]; linarith
      · rw [Fin.cons_succ]; exact wpos c
    · rw [Fin.sum_univ_succ]
      simp only [Fin.cons_zero, Fin.cons_succ]
      rw [← hS]; ring
    · intro i
      rw [Fin.sum_univ_succ]
      simp only [Fin.cons_zero, Fin.cons_succ, Fin.val_zero, Fin.val_succ]
    · rw [ri i, show w 0 * s.pts 0 i + ∑ c : Fin (N + 1), w c.succ * s.pts (c + 1) i + η i.succ -
        ((1 - S) * s.pts 0 i + ∑ c : Fin (N + 1), w c.succ * s.pts (c + 1) i) = η i.succ - η 0 * s.pts 0 i by
          rw [show 1 - S = w 0 + η 0 by linarith]; ring]
      refine (abs_sub _ _).trans ?_
      rw [abs_mul]
      have := mul_le_mul (η3 0) (hv 0 (by omega) i) (abs_nonneg _) (by linarith)
      have := η3 i.succ
      have := mul_nonneg β0 m0
      linarith
  · have SP : 0 < S := by linarith
    refine ⟨fun i => ∑ c : Fin (N + 1), w c.succ / S * s.pts (c + 1) i, ⟨Fin.cons 0 fun c => w c.succ / S, ?_, ?_, ?_⟩, fun i => ?_⟩
    · intro c
      refine Fin.cases ?_ (fun c => ?_) c
      · rw [Fin.cons_zero]
      · rw [Fin.cons_succ]; exact div_nonneg (wpos c) S0
    · rw [Fin.sum_univ_succ]
      simp only [Fin.cons_zero, Fin.cons_succ]
      rw [← Finset.sum_div, ← hS, div_self SP.ne', zero_add]
    · intro i
      rw [Fin.sum_univ_succ]
      simp only [Fin.cons_zero, Fin.cons_succ, zero_mul, zero_add, Fin.val_succ]
    · set T := ∑ c : Fin (N + 1), w c.succ * s.pts (c + 1) i with hT
      have T1 : |T| ≤ S * m := by
        rw [hT, hS, Finset.sum_mul]
        refine (Finset.abs_sum_le_sum_abs _ _).trans (sum_le_sum fun c _ => ?_)
        rw [abs_mul, abs_of_nonneg (wpos c)]
        exact mul_le_mul_of_nonneg_left (hv _ (by omega) i) (wpos c)
      have e2 : ∑ c : Fin (N + 1), w c.succ / S * s.pts (c + 1) i = T / S := by
        rw [hT, Finset.sum_div]
        exact Finset.sum_congr rfl fun c _ => by ring
      rw [ri i]
      beta_reduce
      rw [e2, ← hT, show w 0 * s.pts 0 i + T + η i.succ - T / S = w 0 * s.pts 0 i + (S - 1) * (T / S) + η i.succ by field_simp; ring]
      have a1 : |w 0| ≤ (S - 1) + 3 * β := by
        have h2 := abs_le.1 (η3 0)
        rw [abs_le]
        constructor <;> linarith
      have a2 : |T / S| ≤ m := by
        rw [abs_div, abs_of_pos SP, div_le_iff₀ SP]
        linarith
      refine (abs_add_three _ _ _).trans ?_
      rw [abs_mul, abs_mul, abs_of_nonneg (show 0 ≤ S - 1 by linarith)]
      have b1 := mul_le_mul a1 (hv 0 (by omega) i) (abs_nonneg _) (by linarith)
      have b2 := mul_le_mul_of_nonneg_left a2 (show 0 ≤ S - 1 by linarith)
      have b3 := η3 i.succ
      have b4 := mul_le_mul_of_nonneg_right (show S - 1 ≤ β / 4 by linarith) m0
      have b5 := mul_nonneg β0 m0
      linarith

/-! ## Points well inside -/

section Box

variable {v : ℕ → Fin N → K} {x : Fin N → K} {ρ m : K}

omit [FloorRing K] in
theorem hull_le (hv : ∀ c ≤ N, ∀ i, |v c i| ≤ m) {q : Fin N → K} (hq : InHull v q) (i : Fin N) : |q i| ≤ m := by
  obtain ⟨l, l0, l1, lq⟩ := hq
  rw [← lq i]
  refine (Finset.abs_sum_le_sum_abs _ _).trans ?_
  calc _ ≤ ∑ c, l c * m := sum_le_sum fun c _ => by
        rw [abs_mul, abs_of_nonneg (l0 c)]
        exact mul_le_mul_of_nonneg_left (hv c (by omega) i) (l0 c)
    _ = m := by rw [← Finset.sum_mul, l1, one_mul]

omit [FloorRing K] in
theorem box_exists (hρ : 0 < ρ) (hbox : ∀ q : Fin N → K, (∀ i, |q i - x i| ≤ ρ) → InHull v q) {l : Fin (N + 1) → K} (l1 : ∑ c, l c = 1)
    (lx : ∀ i, ∑ c, l c * v c i = x i) (a : K) (y : Fin N → K) {t : K} (ht : 0 < t) (hy : ∀ i, |y i - a * x i| ≤ t * ρ) :
    ∃ μ : Fin (N + 1) → K, (∀ c, 0 ≤ μ c) ∧ ∑ c, μ c = 1 ∧ ∑ c, (a * l c + t * (μ c - l c)) = a ∧
      ∀ i, ∑ c, (a * l c + t * (μ c - l c)) * v c i = y i := by
  obtain ⟨μ, μ0, μ1, μq⟩ := hbox (fun i => x i + (y i - a * x i) / t) fun i => by
    rw [add_sub_cancel_left, abs_div, abs_of_pos ht, div_le_iff₀ ht, mul_comm ρ]
    exact hy i
  refine ⟨μ, μ0, μ1, ?_, fun i => ?_⟩
  · rw [Finset.sum_add_distrib, ← Finset.mul_sum, ← Finset.mul_sum, Finset.sum_sub_distrib, l1, μ1]
    ring
  · have e : ∀ c : Fin (N + 1), (a * l c + t * (μ c - l c)) * v c i = (a - t) * (l c * v c i) + t * (μ c * v c i) := fun c => by ring
    simp only [e]
    rw [Finset.sum_add_distrib, ← Finset.mul_sum, ← Finset.mul_sum, lx, μq]
    field_simp
    ring

omit [FloorRing K] in
/-- There is only one way to write a point as a weighted sum of the vertices. -/
theorem box_unique (hρ : 0 < ρ) (hbox : ∀ q : Fin N → K, (∀ i, |q i - x i| ≤ ρ) → InHull v q) {u w : Fin (N + 1) → K}
    (h1 : ∑ c, u c = ∑ c, w c) (h2 : ∀ i, ∑ c, u c * v c i = ∑ c, w c * v c i) : u = w := by
  obtain ⟨l, l0, l1, lx⟩ := hbox x fun i => by rw [sub_self, abs_zero]; exact hρ.le
  let A : Matrix (Fin (N + 1)) (Fin (N + 1)) K := fun r c => oneThen (v c) r
  have hA0 : ∀ z : Fin (N + 1) → K, A.mulVec z 0 = ∑ c, z c := fun z => by simp [A, Matrix.mulVec, dotProduct, oneThen]
  have hAi : ∀ (z : Fin (N + 1) → K) (i : Fin N), A.mulVec z i.succ = ∑ c, z c * v c i := fun z i => by
    change ∑ c : Fin (N + 1), oneThen (v c) (i.succ : Fin (N + 1)) * z c = _
    exact Finset.sum_congr rfl fun c _ => by rw [oneThen_succ, mul_comm]
  have sur : Function.Surjective A.mulVec := fun b => by
    set d : Fin N → K := fun i => b i.succ - b 0 * x i with hd
    have ht : 0 < (∑ i, |d i| + 1) / ρ := div_pos (by have : 0 ≤ ∑ i, |d i| := sum_nonneg fun i _ => abs_nonneg _
                                                      linarith) hρ
    obtain ⟨μ, -, -, h3, h4⟩ := box_exists hρ hbox l1 lx (b 0) (fun i => b i.succ) ht fun i => by
      rw [div_mul_cancel₀ _ hρ.ne']
      have := Finset.single_le_sum (f := fun i => |d i|) (fun i _ => abs_nonneg _) (Finset.mem_univ i)
      simp only [hd] at this ⊢
      linarith
    refine ⟨_, funext fun r => Fin.cases ((hA0 _).trans h3) (fun i => (hAi _ i).trans (h4 i)) r⟩
  have inj := Matrix.mulVec_injective_iff_isUnit.2 (Matrix.mulVec_surjective_iff_isUnit.1 sur)
  refine inj (funext fun r => Fin.cases ?_ (fun i => ?_) r)
  · rw [hA0, hA0, h1]
  · rw [hAi, hAi, h2]

omit [FloorRing K] in
theorem box_le {v : ℕ → Fin (N + 1) → K} {x : Fin (N + 1) → K} (hρ : 0 < ρ) (hbox : ∀ q : Fin (N + 1) → K, (∀ i, |q i - x i| ≤ ρ) → InHull v q) (hv : ∀ c ≤ N + 1, ∀ i, |v c i| ≤ m) : ρ ≤ m := by
  have h1 := hull_le hv (hbox (fun i => x i + ρ) fun i => by rw [add_sub_cancel_left, abs_of_pos hρ]) 0
  have h2 := hull_le hv (hbox (fun i => x i - ρ) fun i => by rw [sub_sub_cancel_left, abs_neg, abs_of_pos hρ]) 0
  have := (abs_le.1 h1).2
  have := (abs_le.1 h2).1
  linarith

omit [FloorRing K] in
/-- Solutions of equations near to those for the weights of `x` (or near to the equations with zero on the right). -/
theorem box_solve (hm : 1 ≤ m) (hρ : 0 < ρ) (hbox : ∀ q : Fin N → K, (∀ i, |q i - x i| ≤ ρ) → InHull v q) (hv : ∀ c ≤ N, ∀ i, |v c i| ≤ m)
    {l : Fin (N + 1) → K} (l0 : ∀ c, 0 ≤ l c) (l1 : ∑ c, l c = 1) (lx : ∀ i, ∑ c, l c * v c i = x i) {β b : K} (hβ : 0 < β) (hβρ : 32 * β * m ≤ ρ)
    {u : Fin (N + 1) → K} {E : Matrix (Fin (N + 1)) (Fin (N + 1)) K} (hE : ∀ r c, |E r c| ≤ β)
    (h0 : ∑ c, u c + ∑ c, E 0 c * u c = b) (hi : ∀ i : Fin N, ∑ c, u c * v c i + ∑ c, E i.succ c * u c = b * x i) :
    (∑ c, |u c| ≤ |b| + β * ∑ c, |u c| + (∑ c, |u c|) / 8) ∧ ∃ (t : K) (μ : Fin (N + 1) → K), 0 ≤ t ∧ t ≤ (∑ c, |u c|) / 16 ∧ (∀ c, 0 ≤ μ c) ∧
      ∀ c, u c = (∑ c, u c) * l c + t * (μ c - l c) := by
  have W0 : 0 ≤ ∑ c, |u c| := sum_nonneg fun c _ => abs_nonneg _
  rcases W0.eq_or_lt with W0 | W0
  · have hz : ∀ c, u c = 0 := fun c => by
      have := (Finset.sum_eq_zero_iff_of_nonneg (fun c _ => abs_nonneg (u c))).1 W0.symm c (Finset.mem_univ c)
      exact abs_eq_zero.1 this
    refine ⟨?_, 0, l, le_rfl, by rw [← W0]; norm_num, l0, fun c => ?_⟩
    · rw [← W0]
      have := abs_nonneg b
      linarith
    · simp [hz]
  have hη := err_le hE u
  set W := ∑ c, |u c| with hW
  have ht : 0 < 2 * m * β * W / ρ := by positivity
  have ht1 : 2 * m * β * W / ρ ≤ W / 16 := by
    rw [div_le_div_iff₀ hρ (by norm_num)]
    nlinarith
  have xm : ∀ i, |x i| ≤ m := hull_le hv ⟨l, l0, l1, lx⟩
  set a := ∑ c, u c with ha
  obtain ⟨μ, μ0, μ1, h3, h4⟩ := box_exists hρ hbox l1 lx a (fun i => ∑ c, u c * v c i) ht fun i => by
    rw [div_mul_cancel₀ _ hρ.ne', show ∑ c, u c * v c i - a * x i = (∑ c, E 0 c * u c) * x i - ∑ c, E i.succ c * u c by
      rw [show a = b - ∑ c, E 0 c * u c by linarith]
      linarith [hi i, sub_mul b (∑ c, E 0 c * u c) (x i)]]
    refine (abs_sub _ _).trans ?_
    rw [abs_mul]
    have g1 := mul_le_mul (hη 0) (xm i) (abs_nonneg _) (by positivity)
    have g2 := hη i.succ
    have g3 : β * W ≤ β * W * m := le_mul_of_one_le_right (by positivity) hm
    linarith
  have hu := box_unique hρ hbox (u := u) (w := fun c => a * l c + 2 * m * β * W / ρ * (μ c - l c)) (by rw [h3]) fun i => (h4 i).symm
  have hu' : ∀ c, u c = a * l c + 2 * m * β * W / ρ * (μ c - l c) := fun c => congrFun hu c
  refine ⟨?_, _, μ, ht.le, ht1, μ0, hu'⟩
  set t := 2 * m * β * W / ρ
  have k1 : W ≤ |a| + 2 * t := by
    calc W ≤ ∑ c, (|a| * l c + (t * μ c + t * l c)) := sum_le_sum fun c _ => by
          rw [hu' c]
          refine (abs_add_le _ _).trans ?_
          rw [abs_mul, abs_of_nonneg (l0 c), abs_mul, abs_of_pos ht]
          have : |μ c - l c| ≤ μ c + l c := by
            rw [abs_le]
            constructor <;> linarith [μ0 c, l0 c]
          have := mul_le_mul_of_nonneg_left this ht.le
          linarith
      _ = |a| + 2 * t := by
          rw [Finset.sum_add_distrib, Finset.sum_add_distrib, ← Finset.mul_sum, ← Finset.mul_sum, ← Finset.mul_sum, l1, μ1]
          ring
  have k2 : |a| ≤ |b| + β * W := by
    rw [show a = b - ∑ c, E 0 c * u c by linarith]
    exact (abs_sub _ _).trans (by linarith [hη 0])
  linarith

end Box

/-- **C129.** A point well inside a simplex is said to be in it: it is enough for a box around the point to be within the simplex, with sides of a multiple of the
unit in the last place, if the coordinates of the vertices are not large. -/
theorem C129_inside (hp : 1 ≤ p) (h : IsRound p rnd) (fused : Bool) (s : Simp K (N + 1)) (hn : s.n = N + 2) (x : Fin (N + 1) → K) {m ρ : K}
    (hm : 1 ≤ m) (hv : ∀ c ≤ N + 1, ∀ i, |s.pts c i| ≤ m) (hρ : 32 * slack (eps K p) (N + 1) m * m ≤ ρ)
    (hbox : ∀ q : Fin (N + 1) → K, (∀ i, |q i - x i| ≤ ρ) → InHull s.pts q) : simpContains rnd fused s x = some true := by
  have e0 := eps_pos (K := K) p
  have m0 : 0 < m := by linarith
  have β0 : 0 < slack (eps K p) (N + 1) m := by
    refine lt_of_lt_of_le (sub_pos.2 (one_lt_pow₀ (by linarith) ?_)) (slack_ge (N := N + 1) e0.le hm)
    omega
  have hA : ∀ r < N + 2, ∀ c < N + 2, |(fun r c => oneThen (s.pts c) r) r c| ≤ m := fun r _ c hc => oneThen_le hm (hv c (by omega)) r
  have ρ0 : 0 < ρ := lt_of_lt_of_le (by positivity) hρ
  have ρm := box_le ρ0 hbox hv
  obtain ⟨l, l0, l1, lx⟩ := hbox x fun i => by rw [sub_self, abs_zero]; exact ρ0.le
  have hβ : slack (eps K p) (N + 1) m ≤ 1 / 32 := by
    by_contra hc
    push Not at hc
    nlinarith
  have hge := slack_ge (N := N + 1) e0.le hm
  have hsmall : ((1 + eps K p) ^ (N + 2) - 1) * ((N + 2 : ℕ) : K) * (2 * (1 + eps K p)) ^ (N + 2 - 1) * m ≤ slack (eps K p) (N + 1) m := by
    rw [slack]
    have g1 : (1 + eps K p) ^ (N + 2) - 1 ≤ (1 + eps K p) ^ (3 * (N + 1 + 1)) - 1 := sub_le_sub_right (pow_le_pow_right₀ (by linarith) (by omega)) 1
    have g2 : 0 ≤ ((N + 2 : ℕ) : K) := Nat.cast_nonneg _
    have g3 : 0 ≤ (2 * (1 + eps K p)) ^ (N + 2 - 1) := by positivity
    exact mul_le_mul_of_nonneg_right (mul_le_mul_of_nonneg_right (mul_le_mul_of_nonneg_right g1 g2) g3) m0.le
  set β := slack (eps K p) (N + 1) m with hβd
  rw [simpContains, if_neg (by omega)]
  have fail : ∀ Z, ¬ (linearSolveF rnd fused (fun r c => oneThen (s.pts c) r) (N + 2) 1 (fun r _ => oneThen x r) 1 = some (false, Z) ∨
      linearSolveF rnd fused (fun r c => oneThen (s.pts c) r) (N + 2) 1 (fun r _ => oneThen x r) 1 = none) := by
    intro Z hf
    obtain ⟨E, hdet, hE⟩ := C113_failure hp h _ m0.le hA (Or.inl ⟨fused, 1, _, 1, Z, by omega, hf⟩)
    obtain ⟨u, hu0, hu⟩ := Matrix.exists_mulVec_eq_zero_iff.2 hdet
    have hr : ∀ r : Fin (N + 2), ∑ c : Fin (N + 2), u c * oneThen (s.pts c) r + ∑ c, E r c * u c = 0 := fun r => by
      rw [← Finset.sum_add_distrib, ← show _ = (0 : K) from congrFun hu r]
      refine Finset.sum_congr rfl fun c _ => ?_
      change _ = (oneThen (s.pts c) r + E r c) * u c
      ring
    have g0 := hr 0
    simp only [oneThen, Fin.val_zero, if_true, mul_one] at g0
    obtain ⟨hW, -⟩ := box_solve hm ρ0 hbox hv l0 l1 lx β0 hρ (fun r c => (hE r c).trans hsmall) g0 fun i => by
      have := hr i.succ
      simp only [oneThen_succ] at this
      rw [this, zero_mul]
    rw [abs_zero] at hW
    have W0 : 0 ≤ ∑ c, |u c| := sum_nonneg fun c _ => abs_nonneg _
    have W0' : ∑ c, |u c| = 0 := by nlinarith
    refine hu0 (funext fun c => ?_)
    have := (Finset.sum_eq_zero_iff_of_nonneg (fun c _ => abs_nonneg (u c))).1 W0' c (Finset.mem_univ c)
    exact abs_eq_zero.1 this
  cases eZ : linearSolveF rnd fused (fun r c => oneThen (s.pts c) r) (N + 1 + 1) 1 (fun r _ => oneThen x r) 1 with
  | none => exact absurd (Or.inr eZ) (fail fun _ _ => 0)
  | some bZ =>
    obtain ⟨b, Z⟩ := bZ
    cases b
    · exact absurd (Or.inl eZ) (fail Z)
    rw [Option.map_some]
    simp only [Bool.true_eq_false, if_false, Option.some.injEq]
    obtain ⟨Y, hY, hYZ⟩ := skip_one hp h fused m0.le hA eZ
    obtain ⟨E, hE, -, hE2⟩ := C113_solve hp h fused m0.le hA hY 0 (by omega)
    have hE2' : ∀ r c, |E r c| ≤ β := fun r c => hE2 r c
    set u : Fin (N + 2) → K := fun c => Y c 0 with hud
    have hr : ∀ r : Fin (N + 2), ∑ c : Fin (N + 2), u c * oneThen (s.pts c) r + ∑ c, E r c * u c = oneThen x r := fun r => by
      rw [← Finset.sum_add_distrib, ← hE r]
      exact Finset.sum_congr rfl fun c _ => by simp only [hud]; ring
    have g0 := hr 0
    simp only [oneThen, Fin.val_zero, if_true, mul_one] at g0
    obtain ⟨hW, t, μ, t0, t1, μ0, hu⟩ := box_solve hm ρ0 hbox hv l0 l1 lx β0 hρ hE2' g0 fun i => by
      have := hr i.succ
      simp only [oneThen_succ] at this
      rw [this, one_mul]
    have hη0 := err_le hE2' u 0
    have W0 : 0 ≤ ∑ c, |u c| := sum_nonneg fun c _ => abs_nonneg _
    set W := ∑ c, |u c|
    rw [abs_one] at hW
    have W2 : W ≤ 2 := by nlinarith
    have βW : β * W ≤ 2 * β := by nlinarith
    have ha := abs_le.1 hη0
    set a := ∑ c, u c with had
    have u0 : ∀ c, 0 ≤ u c := fun c => by
      rw [hu c]
      have := mul_nonneg (show 0 ≤ a - t by linarith) (l0 c)
      have := mul_nonneg t0 (μ0 c)
      linarith
    -- the weight that is not looked at
    have hl0 : ρ / (4 * m) ≤ l 0 := by
      have r1 : 0 < ρ / (2 * m) := by positivity
      have r2 : ρ / (2 * m) ≤ 1 := by
        rw [div_le_one (by positivity)]
        linarith
      have r3 : ρ / (4 * m) = ρ / (2 * m) / 2 := by field_simp; ring
      have r4 : ρ / (2 * m) * (2 * m) = ρ := div_mul_cancel₀ _ (by positivity)
      rw [r3]
      set k := ρ / (2 * m)
      have xm : ∀ i, |x i| ≤ m := hull_le hv ⟨l, l0, l1, lx⟩
      obtain ⟨κ, κ0, κ1, κq⟩ := hbox (fun i => x i - k * (s.pts 0 i - x i)) fun i => by
        rw [sub_sub_cancel_left, abs_neg, abs_mul, abs_of_pos r1, ← r4]
        refine mul_le_mul_of_nonneg_left ((abs_sub _ _).trans ?_) r1.le
        linarith [hv 0 (by omega) i, xm i]
      have := box_unique ρ0 hbox (u := κ) (w := fun c => (1 + k) * l c - k * (Pi.single 0 1 : Fin (N + 2) → K) c) (by
        have e : ∑ c, (Pi.single 0 1 : Fin (N + 2) → K) c = 1 :=
          (Finset.sum_eq_single (0 : Fin (N + 2)) (fun c _ hc => Pi.single_eq_of_ne hc _) (by simp)).trans (Pi.single_eq_same _ _)
        rw [κ1, Finset.sum_sub_distrib, ← Finset.mul_sum, ← Finset.mul_sum, l1, e]
        ring) fun i => by
          have e : ∀ c : Fin (N + 2), ((1 + k) * l c - k * (Pi.single 0 1 : Fin (N + 2) → K) c) * s.pts c i =
              (1 + k) * (l c * s.pts c i) - k * ((Pi.single 0 1 : Fin (N + 2) → K) c * s.pts c i) := fun c => by ring
          simp only [e]
          rw [κq, Finset.sum_sub_distrib, ← Finset.mul_sum, ← Finset.mul_sum, lx,
            Finset.sum_eq_single (0 : Fin (N + 2)) (fun c _ hc => by rw [Pi.single_eq_of_ne hc, zero_mul]) (by simp), Pi.single_eq_same]
          simp only [Fin.val_zero]
          ring
      have h0 := congrFun this 0
      simp only [Pi.single_eq_same] at h0
      have := κ0 0
      nlinarith [l0 0]
    have hl1 : 8 * β ≤ l 0 := by
      refine le_trans ?_ hl0
      rw [le_div_iff₀ (by positivity)]
      linarith
    have hu00 : 13 / 2 * β ≤ u 0 := by
      rw [hu 0]
      have k1 := mul_nonneg t0 (μ0 0)
      have k2 : 13 / 16 * l 0 ≤ (a - t) * l 0 := mul_le_mul_of_nonneg_right (by linarith) (l0 0)
      linarith
    refine weightsOk_complete hp h _ _ _ _ le_rfl (fun j hj => ?_) ?_
    · have := u0 ⟨j + 1, by omega⟩
      simp only [hud] at this
      rwa [hYZ _ (by omega), add_comm] at this
    · have hS : ∑ j ∈ Finset.range (N + 1), Z (1 + j) 0 = a - u 0 := by
        rw [had, Fin.sum_univ_succ, add_sub_cancel_left, Finset.sum_range]
        refine Finset.sum_congr rfl fun c _ => ?_
        simp only [hud]
        rw [hYZ _ (by simp), Fin.val_succ, add_comm 1]
      rw [zero_add, hS]
      have hpow : (1 + eps K p) ^ (N + 1) ≤ 1 + β := by
        have : (1 + eps K p) ^ (N + 1) ≤ (1 + eps K p) ^ (3 * (N + 1 + 1)) := pow_le_pow_right₀ (by linarith) (by omega)
        linarith
      have q0 : 0 ≤ (1 + eps K p) ^ (N + 1) := by positivity
      have hS2 : a - u 0 ≤ 1 - 9 / 2 * β := by linarith
      refine (mul_le_mul_of_nonneg_right hS2 q0).trans ((mul_le_mul_of_nonneg_left hpow (by linarith)).trans ?_)
      have := mul_pos β0 β0
      rw [show (1 - 9 / 2 * β) * (1 + β) = 1 - 7 / 2 * β - 9 / 2 * (β * β) by ring]
      linarith

/-! ## Points on the boundary -/

/-- A triangle of the plane. -/
def tri (a b c : Fin 2 → ℚ) : Simp ℚ 2 := ⟨fun i => if i = 0 then a else if i = 1 then b else c, 3⟩

/-- **C129, refuted.** A triangle need not contain its own vertices: in `float` and in `double`, and with fused multiplication or not, the triangle with vertices
`(1, 3)`, `(6, 7)` and `(-9, 2)` does not contain `(6, 7)`. -/
theorem C129_corner_refuted : ∀ p ∈ [24, 53], ∀ fused,
    simpContains (nearest p) fused (tri ![1, 3] ![6, 7] ![-9, 2]) ![6, 7] = some false := by
  decide +kernel

/-- **C129, refuted.** A point on the edge between two triangles need not be in either of them. -/
theorem C129_edge_refuted : ∀ fused,
    (simpContains (nearest 24) fused (tri ![6, -6] ![1, 6] ![-9, 2]) ![19 / 4, -3] = some false ∧
      simpContains (nearest 24) fused (tri ![1, 6] ![7, 5] ![6, -6]) ![19 / 4, -3] = some false) ∧
    (simpContains (nearest 53) fused (tri ![-4, 6] ![4, -6] ![-1, 5]) ![0, 0] = some false ∧
      simpContains (nearest 53) fused (tri ![4, -6] ![-4, 6] ![-7, -4]) ![0, 0] = some false) := by
  decide +kernel

/-- In exact arithmetic both points are in the triangles: they are averages of the vertices. -/
example : InHull (tri ![1, 3] ![6, 7] ![-9, 2]).pts ![6, 7] ∧ InHull (tri ![6, -6] ![1, 6] ![-9, 2]).pts ![19 / 4, -3] ∧
    InHull (tri ![1, 6] ![7, 5] ![6, -6]).pts ![19 / 4, -3] ∧ InHull (tri ![-4, 6] ![4, -6] ![-1, 5]).pts ![0, 0] ∧
    InHull (tri ![4, -6] ![-4, 6] ![-7, -4]).pts ![0, 0] :=
  ⟨⟨![0, 1, 0], by decide +kernel⟩, ⟨![3 / 4, 1 / 4, 0], by decide +kernel⟩, ⟨![1 / 4, 0, 3 / 4], by decide +kernel⟩,
    ⟨![1 / 2, 1 / 2, 0], by decide +kernel⟩, ⟨![1 / 2, 1 / 2, 0], by decide +kernel⟩⟩

/-- The bounds are small: for a triangle with coordinates up to one the slack in `float` is `108 u` and a little more. -/
example : slack (eps ℚ 24) 2 1 < 109 * eps ℚ 24 ∧ slack (eps ℚ 24) 2 1 ≤ 1 / 4 := by decide +kernel

/-- Points inside a triangle and outside it. -/
example : ∀ p ∈ [24, 53], ∀ fused, simpContains (nearest p) fused (tri ![1, 3] ![6, 7] ![-9, 2]) ![-1, 5] = some false ∧
    simpContains (nearest p) fused (tri ![1, 3] ![6, 7] ![-9, 2]) ![-2, 3] = some true := by
  decide +kernel

/-- Points of the boundary are in where no rounding happens; the last triangle has no inside, and its weights are divided by zero. -/
example : ∀ p ∈ [24, 53], ∀ fused, simpContains (nearest p) fused (tri ![0, 0] ![1, 0] ![0, 1]) ![1 / 4, 3 / 4] = some true ∧
    simpContains (nearest p) fused (tri ![0, 0] ![1, 0] ![0, 1]) ![0, 1 / 2] = some true ∧
    simpContains (nearest p) fused (tri ![0, 0] ![1, 0] ![0, 1]) ![1 / 2, 5 / 8] = some false ∧
    simpContains (nearest p) fused ⟨(tri ![0, 0] ![1, 0] ![0, 1]).pts, 2⟩ ![1 / 4, 1 / 4] = some false ∧
    simpContains (nearest p) fused (tri ![0, 0] ![1, 1] ![2, 2]) ![1, 1] = none := by
  decide +kernel

end Geomc.Flt
