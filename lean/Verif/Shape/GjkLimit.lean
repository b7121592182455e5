import Verif.Shape.Gjk
import Verif.Rect.Dist

/-!
# The iteration limit of the GJK test
-/

namespace Geomc.Shape

open Geomc.Vec Geomc.LU Finset

variable {K : Type} {N : ℕ} [Field K] [LinearOrder K]

variable {supA supB : (Fin N → K) → Fin N → K}

theorem loop_next {axis : Fin N → K} {s s' : Simp K N} {d d' : Fin N → K} (h : gjkStep supA supB s d = some (.next s' d'))
    (hd : mag2 d' ≠ 0) (left it : ℕ) : gjkLoop supA supB axis (left + 1) it s d = gjkLoop supA supB axis left (it + 1) s' d' := by
  rw [gjkLoop, h, Option.bind_some]
  exact if_neg hd

/-- The region between the parabola `y = -x²` and its chord from `(-1, -1)` to `(1, -1)`. -/
def bow : Set (Fin 2 → ℚ) := {p | -1 ≤ p 1 ∧ p 1 ≤ -(p 0 * p 0)}

/-- Its support function. -/
def bowSup (d : Fin 2 → ℚ) : Fin 2 → ℚ :=
  if 0 < d 1 then ![max (-1) (min 1 (d 0 / (2 * d 1))), -(max (-1) (min 1 (d 0 / (2 * d 1))) * max (-1) (min 1 (d 0 / (2 * d 1))))]
  else if 0 ≤ d 0 then ![1, -1] else ![-1, -1]

theorem bow_convex : Convex ℚ bow := by
  rintro x ⟨hx1, hx2⟩ y ⟨hy1, hy2⟩ a b ha hb hab
  have hb' : b = 1 - a := by linarith
  subst hb'
  refine ⟨?_, ?_⟩
  · simp only [Pi.add_apply, Pi.smul_apply, smul_eq_mul]
    nlinarith
  · simp only [Pi.add_apply, Pi.smul_apply, smul_eq_mul]
    have h1 := mul_le_mul_of_nonneg_left hx2 ha
    have h2 := mul_le_mul_of_nonneg_left hy2 hb
    have h3 := mul_nonneg (mul_nonneg ha hb) (mul_self_nonneg (x 0 - y 0))
    nlinarith

theorem bow_support (d : Fin 2 → ℚ) : IsSupport bow d (bowSup d) := by
  have hx1 : ∀ q ∈ bow, -1 ≤ q 0 ∧ q 0 ≤ 1 := by
    rintro q ⟨h1, h2⟩
    constructor <;> nlinarith
  rw [bowSup]
  by_cases hd : 0 < d 1
  · rw [if_pos hd]
    obtain ⟨t, ht⟩ : ∃ t, t = max (-1) (min 1 (d 0 / (2 * d 1))) := ⟨_, rfl⟩
    rw [← ht]
    have h1 : -1 ≤ t := ht ▸ le_max_left _ _
    have h2 : t ≤ 1 := ht ▸ max_le (by norm_num) (min_le_left _ _)
    refine ⟨⟨?_, le_rfl⟩, fun q hq => ?_⟩
    · simp only [Matrix.cons_val_one, Matrix.cons_val_zero]
      nlinarith
    obtain ⟨h3, h4⟩ := hx1 q hq
    rw [dot_eq, dot_eq, dotProduct, dotProduct, Fin.sum_univ_two, Fin.sum_univ_two]
    simp only [Matrix.cons_val_one, Matrix.cons_val_zero]
    have h5 := mul_le_mul_of_nonneg_right hq.2 hd.le
    -- the derivative of the parabola decides
    have h6 : 0 ≤ (t - q 0) * (d 0 - 2 * t * d 1) := by
      rcases le_total (d 0 / (2 * d 1)) (-1) with hc | hc
      · have e : t = -1 := by
          rw [ht, max_eq_left (le_trans (min_le_right _ _) hc)]
        rw [div_le_iff₀ (by positivity)] at hc
        rw [e]
        nlinarith
      · rcases le_total 1 (d 0 / (2 * d 1)) with hc' | hc'
        · have e : t = 1 := by
            rw [ht, min_eq_left hc', max_eq_right (by norm_num)]
          rw [le_div_iff₀ (by positivity)] at hc'
          rw [e]
          nlinarith
        · have e : t = d 0 / (2 * d 1) := by
            rw [ht, min_eq_right hc', max_eq_right hc]
          have : d 0 - 2 * t * d 1 = 0 := by
            rw [e]
            field_simp
            ring
          rw [this, mul_zero]
    nlinarith [mul_nonneg hd.le (mul_self_nonneg (t - q 0))]
  · rw [if_neg hd]
    have hd' := not_lt.1 hd
    have key : ∀ e : ℚ, e * e = 1 → 0 ≤ e * d 0 → IsSupport bow d ![e, -1] := by
      intro e he hed
      refine ⟨⟨le_rfl, by simp [he]⟩, fun q hq => ?_⟩
      obtain ⟨h3, h4⟩ := hx1 q hq
      rw [dot_eq, dot_eq, dotProduct, dotProduct, Fin.sum_univ_two, Fin.sum_univ_two]
      simp only [Matrix.cons_val_one, Matrix.cons_val_zero]
      have h5 := mul_le_mul_of_nonpos_right hq.1 hd'
      have h6 : q 0 * d 0 ≤ e * d 0 := by
        rcases le_total 0 (d 0) with h | h
        · have : 0 ≤ e ∨ d 0 = 0 := by
            by_contra hc
            push Not at hc
            have := mul_neg_of_neg_of_pos hc.1 (lt_of_le_of_ne h (Ne.symm hc.2))
            linarith
          rcases this with h7 | h7
          · have : e = 1 := by nlinarith
            rw [this]
            nlinarith
          · rw [h7]
            simp
        · have : e ≤ 0 ∨ d 0 = 0 := by
            by_contra hc
            push Not at hc
            have := mul_neg_of_pos_of_neg hc.1 (lt_of_le_of_ne h hc.2)
            linarith
          rcases this with h7 | h7
          · have : e = -1 := by nlinarith
            rw [this]
            nlinarith
          · rw [h7]
            simp
      linarith
    split_ifs with h0
    · exact key 1 (by norm_num) (by linarith)
    · exact key (-1) (by norm_num) (by linarith)

/-- A point just above the parabola. -/
def dot8 : Fin 2 → ℚ := ![1/3, -1/9 + 1/10^8]

/-- A segment. -/
def seg (P Q : Fin 2 → ℚ) : Simp ℚ 2 := ⟨fun i => if i ≤ 1 then (if i = 0 then P else Q) else 0, 2⟩

/-- One round leads to the given segment and direction. -/
def isNext (x : Option (GStep ℚ 2)) (P Q d : Fin 2 → ℚ) : Bool :=
  match x with
  | some (.next s d') => decide (s.n = 2 ∧ s.pts 0 = P ∧ s.pts 1 = Q ∧ d' = d)
  | _ => false

theorem next_of_isNext {supA supB : (Fin 2 → ℚ) → Fin 2 → ℚ} {s : Simp ℚ 2} {d P Q d' : Fin 2 → ℚ}
    (h : isNext (gjkStep supA supB s d) P Q d' = true) : gjkStep supA supB s d = some (.next (seg P Q) d') := by
  rw [gjkStep] at h ⊢
  simp only at h ⊢
  by_cases hc : dot (supA d - supB (-d)) d < 0 ∨ supA d - supB (-d) = s.pts (s.n - 1)
  · rw [if_pos hc] at h
    cases h
  · rw [if_neg hc] at h ⊢
    cases hr : projectSimplex (s.insert (supA d - supB (-d))) 0 .clip true with
    | none =>
      rw [hr] at h
      cases h
    | some r =>
      rw [hr, Option.bind_some] at h
      rw [Option.bind_some]
      split_ifs at h ⊢
      · cases h
      · cases h
      · simp only [isNext, decide_eq_true_eq] at h
        obtain ⟨h1, h2, h3, h4⟩ := h
        rw [h4]
        congr 2
        simp only [projectedFace] at h1 h2 h3 ⊢
        have hn : r.face.n = 1 := by omega
        rw [seg, hn]
        congr 1
        funext i
        by_cases h0 : i = 0
        · subst h0
          rw [hn] at h2
          simpa using h2
        · by_cases h1 : i = 1
          · subst h1
            rw [hn] at h3
            simpa using h3
          · rw [if_neg (by omega), if_neg (by omega)]

theorem round1 : gjkStep bowSup (fun _ => dot8) (Simp.insert ⟨fun _ => 0, 0⟩ (bowSup ![1, 0] - dot8)) (-(bowSup ![1, 0] - dot8)) = some (.next (seg ![2/3, -800000009/900000000]
    ![-1700000009/2400000027, -17000004320000121500000729/576000012960000072900000000]) ![550000014400000081/640000014400000081, 1100000009/800000009]) :=
  next_of_isNext (by decide +kernel)

theorem round2 : gjkStep bowSup (fun _ => dot8) (seg ![2/3, -800000009/900000000]
    ![-1700000009/2400000027, -17000004320000121500000729/576000012960000072900000000]) ![550000014400000081/640000014400000081, 1100000009/800000009] = some (.next (seg ![2/3, -800000009/900000000]
    ![-99999991/4800000054, 7749993654999860274999271/576000012960000072900000000]) ![2310000048600000243/2560000057600000324, 1100000009/1600000018]) :=
  next_of_isNext (by decide +kernel)

theorem round3 : gjkStep bowSup (fun _ => dot8) (seg ![2/3, -800000009/900000000]
    ![-99999991/4800000054, 7749993654999860274999271/576000012960000072900000000]) ![2310000048600000243/2560000057600000324, 1100000009/1600000018] = some (.next (seg ![-99999991/4800000054, 7749993654999860274999271/576000012960000072900000000]
    ![3100000045/9600000108, -184062510698750162506250729/576000012960000072900000000]) ![3410000077400000405/10240000230400001296, 1100000009/3200000036]) :=
  next_of_isNext (by decide +kernel)

theorem round4 : gjkStep bowSup (fun _ => dot8) (seg ![-99999991/4800000054, 7749993654999860274999271/576000012960000072900000000]
    ![3100000045/9600000108, -184062510698750162506250729/576000012960000072900000000]) ![3410000077400000405/10240000230400001296, 1100000009/3200000036] = some (.next (seg ![-99999991/4800000054, 7749993654999860274999271/576000012960000072900000000]
    ![2900000063/19200000216, -71140633243437649976563229/576000012960000072900000000]) ![5610000135000000729/40960000921600005184, 1100000009/6400000072]) :=
  next_of_isNext (by decide +kernel)

theorem round5 : gjkStep bowSup (fun _ => dot8) (seg ![-99999991/4800000054, 7749993654999860274999271/576000012960000072900000000]
    ![2900000063/19200000216, -71140633243437649976563229/576000012960000072900000000]) ![5610000135000000729/40960000921600005184, 1100000009/6400000072] = some (.next (seg ![-99999991/4800000054, 7749993654999860274999271/576000012960000072900000000]
    ![2500000099/38400000432, -13720706737304759783008177/288000006480000036450000000]) ![10010000250200001377/163840003686400020736, 1100000009/12800000144]) :=
  next_of_isNext (by decide +kernel)

theorem round6 : gjkStep bowSup (fun _ => dot8) (seg ![-99999991/4800000054, 7749993654999860274999271/576000012960000072900000000]
    ![2500000099/38400000432, -13720706737304759783008177/288000006480000036450000000]) ![10010000250200001377/163840003686400020736, 1100000009/12800000144] = some (.next (seg ![-99999991/4800000054, 7749993654999860274999271/576000012960000072900000000]
    ![1700000171/76800000864, -35128933319609943297268541/2304000051840000291600000000]) ![18810000480600002673/655360014745600082944, 1100000009/25600000288]) :=
  next_of_isNext (by decide +kernel)

theorem round7 : gjkStep bowSup (fun _ => dot8) (seg ![-99999991/4800000054, 7749993654999860274999271/576000012960000072900000000]
    ![1700000171/76800000864, -35128933319609943297268541/2304000051840000291600000000]) ![18810000480600002673/655360014745600082944, 1100000009/25600000288] = some (.next (seg ![-99999991/4800000054, 7749993654999860274999271/576000012960000072900000000]
    ![100000315/153600001728, -4004011079611629109777289/9216000207360001166400000000]) ![36410000941400005265/2621440058982400331776, 1100000009/51200000576]) :=
  next_of_isNext (by decide +kernel)

theorem round8 : gjkStep bowSup (fun _ => dot8) (seg ![-99999991/4800000054, 7749993654999860274999271/576000012960000072900000000]
    ![100000315/153600001728, -4004011079611629109777289/9216000207360001166400000000]) ![36410000941400005265/2621440058982400331776, 1100000009/51200000576] = some (.next (seg ![100000315/153600001728, -4004011079611629109777289/9216000207360001166400000000]
    ![-3099999397/307200003456, 244245681120381645865187719/36864000829440004665600000000]) ![74030001902600010611/10485760235929601327104, 1100000009/102400001152]) :=
  next_of_isNext (by decide +kernel)

theorem round9 : gjkStep bowSup (fun _ => dot8) (seg ![100000315/153600001728, -4004011079611629109777289/9216000207360001166400000000]
    ![-3099999397/307200003456, 244245681120381645865187719/36864000829440004665600000000]) ![74030001902600010611/10485760235929601327104, 1100000009/102400001152] = some (.next (seg ![100000315/153600001728, -4004011079611629109777289/9216000207360001166400000000]
    ![-2899998767/614400006912, 460713179923479634136922751/147456003317760018662400000000]) ![149270003825000021303/41943040943718405308416, 1100000009/204800002304]) :=
  next_of_isNext (by decide +kernel)

theorem round10 : gjkStep bowSup (fun _ => dot8) (seg ![100000315/153600001728, -4004011079611629109777289/9216000207360001166400000000]
    ![-2899998767/614400006912, 460713179923479634136922751/147456003317760018662400000000]) ![149270003825000021303/41943040943718405308416, 1100000009/204800002304] = some (.next (seg ![100000315/153600001728, -4004011079611629109777289/9216000207360001166400000000]
    ![-2499997507/1228800013824, 797551911618996512045737879/589824013271040074649600000000]) ![299750007669800042687/167772163774873621233664, 1100000009/409600004608]) :=
  next_of_isNext (by decide +kernel)

theorem round11 : gjkStep bowSup (fun _ => dot8) (seg ![100000315/153600001728, -4004011079611629109777289/9216000207360001166400000000]
    ![-2499997507/1228800013824, 797551911618996512045737879/589824013271040074649600000000]) ![299750007669800042687/167772163774873621233664, 1100000009/409600004608] = some (.next (seg ![100000315/153600001728, -4004011079611629109777289/9216000207360001166400000000]
    ![-1699994987/2457600027648, 1086844311367313873324748391/2359296053084160298598400000000]) ![600710015359400085455/671088655099494484934656, 1100000009/819200009216]) :=
  next_of_isNext (by decide +kernel)

/-- The region and the point are apart, but the test with its default limit of ten iterations in the plane answers that they
meet. -/
theorem C79_limit_refuted :
    Convex ℚ bow ∧ (∀ d, IsSupport bow d (bowSup d)) ∧ bow ∩ {dot8} = ∅ ∧ gjkLimit 2 = some 10 ∧
      intersects bowSup (fun _ => dot8) = some true := by
  refine ⟨bow_convex, bow_support, ?_, rfl, ?_⟩
  · refine Set.eq_empty_iff_forall_notMem.2 ?_
    rintro x ⟨⟨-, h⟩, rfl⟩
    simp [dot8] at h
    norm_num at h
  · have hax : (fun i : Fin 2 => if (i : ℕ) = 0 then (1 : ℚ) else 0) = ![1, 0] := by
      ext i
      fin_cases i <;> rfl
    rw [intersects, show gjkLimit 2 = some 10 from rfl, Option.bind_some, gjk, hax]
    simp only
    rw [loop_next round1 (by decide +kernel),
      loop_next round2 (by decide +kernel),
      loop_next round3 (by decide +kernel),
      loop_next round4 (by decide +kernel),
      loop_next round5 (by decide +kernel),
      loop_next round6 (by decide +kernel),
      loop_next round7 (by decide +kernel),
      loop_next round8 (by decide +kernel),
      loop_next round9 (by decide +kernel),
      loop_next round10 (by decide +kernel), gjkLoop, round11]
    rfl

/-- In four dimensions the test of two boxes can divide by zero: a box two units wide that overlaps another, and one that is
apart from it. -/
theorem C79_four_refuted :
    ∃ a b c : Geomc.Rect.Box ℚ 4, (a.pts ∩ b.pts).Nonempty ∧ a.pts ∩ c.pts = ∅ ∧
      (∀ d, IsSupport a.pts d (a.support d) ∧ IsSupport b.pts d (b.support d) ∧ IsSupport c.pts d (c.support d)) ∧
      intersects a.support b.support = none ∧ intersects a.support c.support = none := by
  refine ⟨⟨fun _ => -1, fun _ => 1⟩, ⟨![-1/2, -2/3, 0, 1/2], ![3/2, 4/3, 2, 5/2]⟩, ⟨![0, -1/2, 0, 3/2], ![2, 3/2, 2, 7/2]⟩, ?_, ?_, ?_, ?_, ?_⟩
  · refine ⟨fun _ => 1, ?_, ?_⟩ <;> constructor <;> intro i <;> fin_cases i <;> norm_num
  · refine Set.eq_empty_iff_forall_notMem.2 ?_
    rintro x ⟨h1, h2⟩
    have h3 := h1.2 3
    have h4 := h2.1 3
    simp at h3 h4
    linarith
  · intro d
    exact ⟨(Geomc.Rect.C48_support _ (by decide +kernel) d).2, (Geomc.Rect.C48_support _ (by decide +kernel) d).2,
      (Geomc.Rect.C48_support _ (by decide +kernel) d).2⟩
  · decide +kernel
  · decide +kernel

/-- A triangle meets a point of it, and is apart from a point beyond its longest edge. -/
example : intersects tri.support (fun _ => ![2, 2]) = some true ∧ intersects tri.support (fun _ => ![4, 3]) = some false := by
  decide +kernel

/-- The separating axis that is reported, with the gap it proves. -/
example : (gjk tri.support (fun _ => ![4, 3]) 10 ![1, 0] ⟨fun _ => 0, 0⟩).map (fun r => (r.hit, r.axis, r.iterations)) =
    some (false, ![2/13, 3/13], 2) := by decide +kernel

/-- With a finite set of support points and a high enough limit the test is exact, whatever was in the buffers before. -/
example (axis : Fin 2 → ℚ) (h : axis ≠ 0) (buffer : Simp ℚ 2) (p : Fin 2 → ℚ) :
    ∃ r, gjk tri.support (fun _ => p) 8 axis buffer = some r ∧ (r.hit = true ↔ (tri.set ∩ {p}).Nonempty) := by
  refine C79_exact (Or.inl rfl) ?_ (convex_singleton p) (fun d _ => (C56_support tri (by decide) d).2)
    (fun d _ => ⟨rfl, fun q hq => by rw [hq]⟩) (V := {tri.pts 0 - p, tri.pts 1 - p, tri.pts 2 - p}) (fun d _ => ?_) ?_ h buffer
  · rintro x ⟨w, h1, h2, rfl⟩ y ⟨w', h3, h4, rfl⟩ a b ha hb hab
    refine ⟨fun i => a * w i + b * w' i, fun i hi => add_nonneg (mul_nonneg ha (h1 i hi)) (mul_nonneg hb (h3 i hi)), ?_, ?_⟩
    · rw [sum_add_distrib, ← mul_sum, ← mul_sum, h2, h4, mul_one, mul_one, hab]
    · rw [smul_sum, smul_sum, ← sum_add_distrib]
      exact sum_congr rfl fun i _ => by rw [smul_smul, smul_smul, add_smul]
  · obtain ⟨i, hi, e, -⟩ := (C56_support tri (by decide) d).1
    rw [e]
    have : i < 3 := hi
    interval_cases i <;> simp
  · exact Nat.pow_le_pow_right (by norm_num) (card_le_three)

end Geomc.Shape
