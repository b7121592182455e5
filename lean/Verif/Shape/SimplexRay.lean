import Verif.Shape.Simplex

/-!
# C56: degenerate simplexes, rays, facing and volume
-/

namespace Geomc.Shape

open Geomc.Vec Geomc.Rect Geomc.Affine Geomc.LU Finset
open scoped Matrix

variable {K : Type} {N : ℕ} [Field K] [LinearOrder K] [IsStrictOrderedRing K]

/-! ### Degenerate simplexes -/

/-- **C56**: a degenerate simplex is reported empty, or its last pivot is divided by. -/
theorem C56_contains_degenerate (s : Simp K N) (p : Fin N → K) (hn : s.n = N + 1) (hi : ¬ AffInd s.pts s.n) :
    s.contains p = some false ∨ s.contains p = none := by
  rw [Simp.contains, if_neg (by omega)]
  rcases linearSolve_cases (fun r c => oneThen (s.pts c) r) (fun r _ => oneThen p r) (N + 1) 1 1 (by omega) with
    ⟨-, e⟩ | ⟨-, -, -, e⟩ | ⟨hb, hp, -⟩
  · exact Or.inl (by rw [e]; rfl)
  · exact Or.inr (by rw [e]; rfl)
  · exfalso
    rw [hn, ← aug_det, not_not] at hi
    have hne : ¬ (aug s.pts).det ≠ 0 := not_not.2 hi
    apply hne
    rw [aug, plu_det_ne_zero]
    intro r hr
    rcases Nat.eq_zero_or_pos r with rfl | h
    · rcases Nat.eq_zero_or_pos N with rfl | hN
      · exfalso
        apply hne
        rw [aug, Matrix.det_fin_one]
        simp [view, oneThen]
      · intro h0
        rw [C31_plu_count, min_self, Finset.card_eq_zero, Finset.filter_eq_empty_iff] at hb
        exact hb (Finset.mem_range.2 (by omega)) h0
    · rcases hp r h hr with h | h
      · exact h
      · omega

/-- **C56** refuted for degenerate simplexes: three points on a line "contain" according to a division by zero. -/
theorem C56_degenerate_refuted :
    (Simp.ofList [![0, 0], ![1, 1], ![2, 2]] : Simp ℚ 2).contains ![5, 5] = none ∧
    ¬ AffInd (Simp.ofList [![0, 0], ![1, 1], ![2, 2]] : Simp ℚ 2).pts 3 := by
  refine ⟨by decide +kernel, fun h => ?_⟩
  have := h (fun i => if i = 0 then 1 else if i = 1 then -2 else 1) (by simp [sum_range_succ]; norm_num)
    (by ext i; fin_cases i <;> simp [sum_range_succ, Simp.ofList]) 0 (by norm_num)
  simp at this

/-! ### Solving for coordinates -/

theorem small_spec {n : ℕ} (inv : (ℕ → K) → (ℕ → K) → Bool × (ℕ → K))
    (hinv : ∀ out m : ℕ → K, ∀ lo lm, ((flat n lm m).det = 0 → classInv n inv lo lm out m = (false, out)) ∧
      ((flat n lm m).det ≠ 0 → ∃ z, classInv n inv lo lm out m = (true, z) ∧
      flat n lo z * flat n lm m = 1 ∧ flat n lm m * flat n lo z = 1)) (bases X : ℕ → ℕ → K) :
    ((view (fun r c => bases c r) n n).det = 0 → vecSolveSmall n inv bases X = (false, X)) ∧
    ((view (fun r c => bases c r) n n).det ≠ 0 → ∃ Z, vecSolveSmall n inv bases X = (true, Z) ∧
      ∀ j, ∀ w : ℕ → K, (∀ r < n, ∑ i ∈ range n, w i * bases i r = X j r) → ∀ r < n, Z j r = w r) := by
  have hf : flat n false (fun k => bases (k / n) (k % n)) = view (fun r c => bases c r) n n := by
    ext r c
    have hn : 0 < n := r.pos
    simp [flat, view, Nat.mul_add_div hn, Nat.mul_add_mod, Nat.mod_eq_of_lt r.2, Nat.div_eq_of_lt r.2]
  obtain ⟨h0, h1⟩ := hinv (fun _ => 0) (fun k => bases (k / n) (k % n)) true false
  rw [hf] at h0 h1
  refine ⟨fun h => ?_, fun h => ?_⟩
  · rw [vecSolveSmall, h0 h]
    rfl
  · obtain ⟨z, e, hz, -⟩ := h1 h
    rw [vecSolveSmall, e]
    refine ⟨_, rfl, fun j w hw r hr => ?_⟩
    have : ∀ c ∈ range n, z (n * r + c) * X j c = ∑ i ∈ range n, z (n * r + c) * (w i * bases i c) := fun c hc => by
      rw [← mul_sum, hw c (mem_range.1 hc)]
    simp only
    rw [sum_congr rfl this, sum_comm]
    have hid : ∀ i < n, ∑ c ∈ range n, z (n * r + c) * bases i c = if r = i then 1 else 0 := by
      intro i hi
      have := congrFun (congrFun hz ⟨r, hr⟩) ⟨i, hi⟩
      rw [Matrix.mul_apply, Matrix.one_apply] at this
      simp only [Fin.mk.injEq] at this
      rw [← this, ← Fin.sum_univ_eq_sum_range (fun c => z (n * r + c) * bases i c)]
      exact sum_congr rfl fun c _ => by simp [flat, view]
    calc ∑ i ∈ range n, ∑ c ∈ range n, z (n * r + c) * (w i * bases i c)
        = ∑ i ∈ range n, w i * (if r = i then 1 else 0) := by
          refine sum_congr rfl fun i hi => ?_
          rw [← hid i (mem_range.1 hi), mul_sum]
          exact sum_congr rfl fun c _ => by ring
      _ = w r := by simp [hr]

/-- What the solver for vectors gives: the coefficients of a vector in an independent basis; small dependent systems are
refused. -/
theorem vecSolve_spec {n m : ℕ} (hn : 1 ≤ n) (bases X : ℕ → ℕ → K) {skip : ℕ} (hs : skip ≤ n) :
    ((view (fun r c => bases c r) n n).det ≠ 0 → ∃ Z, vecSolve n m bases X skip = some (true, Z) ∧
      ∀ j < m, ∀ w : ℕ → K, (∀ r < n, ∑ i ∈ range n, w i * bases i r = X j r) → ∀ r, skip ≤ r ∨ n ≤ 4 → r < n → Z j r = w r) ∧
    ((view (fun r c => bases c r) n n).det = 0 → 2 ≤ n → n ≤ 4 → vecSolve n m bases X skip = some (false, X)) := by
  have hbig : ∀ n, 1 ≤ n → skip ≤ n → (view (fun r c => bases c r) n n).det ≠ 0 →
      ∃ Z, (linearSolve (fun r c => bases c r) n m (fun r j => X j r) skip).map
        (fun z => (z.1, fun j r => z.2 r j)) = some (true, Z) ∧
      ∀ j < m, ∀ w : ℕ → K, (∀ r < n, ∑ i ∈ range n, w i * bases i r = X j r) → ∀ r, skip ≤ r → r < n → Z j r = w r := by
    intro n hn hs h
    obtain ⟨Z, e, hZ⟩ := C32_complete (fun r c => bases c r) (fun r j => X j r) (m := m) hs h
    rw [e]
    refine ⟨_, rfl, fun j hj w hw r hr hrn => ?_⟩
    simp only
    rw [hZ ⟨r, hrn⟩ ⟨j, hj⟩ hr]
    have hX : ∀ j' : Fin m, (j' : ℕ) = j → ∀ r : Fin n, view (fun r j => X j r) n m r j' =
        ((view (fun r c => bases c r) n n) *ᵥ fun c => w c) r := by
      intro j' hj' r
      rw [Matrix.mulVec, dotProduct, view, Matrix.of_apply, hj', ← hw r r.2, ← Fin.sum_univ_eq_sum_range (fun i => w i * bases i r)]
      exact sum_congr rfl fun c _ => by simp [view, mul_comm]
    rw [Matrix.mul_apply]
    simp only [hX ⟨j, hj⟩ rfl]
    change ((view (fun r c => bases c r) n n)⁻¹ *ᵥ ((view (fun r c => bases c r) n n) *ᵥ fun c => w c)) ⟨r, hrn⟩ = _
    rw [Matrix.mulVec_mulVec, Matrix.nonsing_inv_mul _ (isUnit_iff_ne_zero.2 h), Matrix.one_mulVec]
  match n, hn, hs with
  | 1, _, hs =>
    refine ⟨fun h => ?_, fun _ h => by omega⟩
    obtain ⟨Z, e⟩ := (C33_invNxN_complete (fun _ _ => 0) (fun r c => bases c r) 1).1 h
    have hz := (C33_invNxN_sound e).2
    rw [vecSolve, e]
    refine ⟨_, rfl, fun j hj w hw r hr hrn => ?_⟩
    obtain rfl : r = 0 := by omega
    have h1 := congrFun (congrFun hz 0) 0
    rw [Matrix.mul_apply] at h1
    simp [view] at h1
    have h2 := hw 0 (by omega)
    rw [sum_range_one] at h2
    simp only [sum_range_one]
    rw [← h2]
    linear_combination w 0 * h1
  | 2, _, hs =>
    obtain ⟨h0, h1⟩ := small_spec inv2 C33_inv2 bases X
    refine ⟨fun h => ?_, fun h _ _ => by rw [vecSolve, h0 h]⟩
    obtain ⟨Z, e, hZ⟩ := h1 h
    exact ⟨Z, by rw [vecSolve, e], fun j _ w hw r _ hr => hZ j w hw r hr⟩
  | 3, _, hs =>
    obtain ⟨h0, h1⟩ := small_spec inv3 C33_inv3 bases X
    refine ⟨fun h => ?_, fun h _ _ => by rw [vecSolve, h0 h]⟩
    obtain ⟨Z, e, hZ⟩ := h1 h
    exact ⟨Z, by rw [vecSolve, e], fun j _ w hw r _ hr => hZ j w hw r hr⟩
  | 4, _, hs =>
    obtain ⟨h0, h1⟩ := small_spec inv4 C33_inv4 bases X
    refine ⟨fun h => ?_, fun h _ _ => by rw [vecSolve, h0 h]⟩
    obtain ⟨Z, e, hZ⟩ := h1 h
    exact ⟨Z, by rw [vecSolve, e], fun j _ w hw r _ hr => hZ j w hw r hr⟩
  | n + 5, hn, hs =>
    refine ⟨fun h => ?_, fun _ _ h => by omega⟩
    obtain ⟨Z, e, hZ⟩ := hbig (n + 5) hn hs h
    exact ⟨Z, e, fun j hj w hw r hr hrn => hZ j hj w hw r (by omega) hrn⟩

/-- The basis is independent if no combination vanishes. -/
theorem det_of_indep {n : ℕ} {bases : ℕ → ℕ → K}
    (h : ∀ w : ℕ → K, (∀ r < n, ∑ i ∈ range n, w i * bases i r = 0) → ∀ i < n, w i = 0) :
    (view (fun r c => bases c r) n n).det ≠ 0 := by
  rw [ne_eq, ← Matrix.exists_mulVec_eq_zero_iff]
  push Not
  intro v hv h0
  have hw : ∀ i : Fin n, (fun i => if h : i < n then v ⟨i, h⟩ else 0 : ℕ → K) i = v i := fun i => dif_pos i.2
  generalize (fun i => if h : i < n then v ⟨i, h⟩ else 0 : ℕ → K) = w at hw
  apply hv
  ext i
  rw [← hw]
  refine h w (fun r hr => ?_) i i.2
  have := congrFun h0 ⟨r, hr⟩
  rw [Matrix.mulVec, dotProduct] at this
  rw [← Fin.sum_univ_eq_sum_range (fun i => w i * bases i r)]
  rw [Pi.zero_apply] at this
  rw [← this]
  exact sum_congr rfl fun c _ => by simp [view, hw, mul_comm]

/-! ### Rays -/

theorem unit_span {p k t : K} (hk : k ≠ 0) : InIval (ival (-p / k) ((1 - p) / k)) t ↔ 0 ≤ p + t * k ∧ p + t * k ≤ 1 := by
  rw [inIval_ival]
  rcases lt_or_gt_of_ne hk with h | h
  · have hle : (1 - p) / k ≤ -p / k := by
      rw [div_le_div_right_of_neg h]
      linarith
    rw [min_eq_right hle, max_eq_left hle, div_le_iff_of_neg h, le_div_iff_of_neg h]
    constructor <;> rintro ⟨h1, h2⟩ <;> constructor <;> linarith
  · have hle : -p / k ≤ (1 - p) / k := by
      rw [div_le_div_iff_of_pos_right h]
      linarith
    rw [min_eq_left hle, max_eq_right hle, div_le_iff₀ h, le_div_iff₀ h]
    constructor <;> rintro ⟨h1, h2⟩ <;> constructor <;> linarith

theorem weightSpan_spec (p k : ℕ → K) (l : List ℕ) (iv : Ext K × Ext K) :
    (∀ t, InIval iv t → (∀ i ∈ l, 0 ≤ p i + t * k i ∧ p i + t * k i ≤ 1) → InIval (weightSpan p k l iv) t) ∧
    ((weightSpan p k l iv).1 < (weightSpan p k l iv).2 → ∀ t, InIval (weightSpan p k l iv) t →
      InIval iv t ∧ ∀ i ∈ l, 0 ≤ p i + t * k i ∧ p i + t * k i ≤ 1) := by
  induction l generalizing iv with
  | nil => exact ⟨fun t h _ => h, fun _ t h => ⟨h, fun i hi => absurd hi List.not_mem_nil⟩⟩
  | cons i l ih =>
    rw [weightSpan]
    by_cases hlt : iv.1 < iv.2
    · rw [if_pos hlt]
      by_cases hk : k i ≠ 0
      · rw [if_pos hk]
        obtain ⟨h1, h2⟩ := ih (meet iv (ival (-p i / k i) ((1 - p i) / k i)))
        refine ⟨fun t ht ha => h1 t ?_ fun j hj => ha j (List.mem_cons_of_mem _ hj), fun hR t ht => ?_⟩
        · rw [inIval_meet, unit_span hk]
          exact ⟨ht, ha i List.mem_cons_self⟩
        · obtain ⟨h3, h4⟩ := h2 hR t ht
          rw [inIval_meet, unit_span hk] at h3
          refine ⟨h3.1, fun j hj => ?_⟩
          rcases List.mem_cons.1 hj with rfl | hj
          · exact h3.2
          · exact h4 j hj
      · rw [if_neg hk]
        rw [not_not] at hk
        by_cases hp : p i < 0 ∨ p i > 1
        · rw [if_pos hp]
          refine ⟨fun t ht ha => ?_, fun hR => absurd hR (by simp [void])⟩
          have := ha i List.mem_cons_self
          rw [hk, mul_zero, add_zero] at this
          rcases hp with hp | hp
          · exact absurd this.1 (not_le.2 hp)
          · exact absurd this.2 (not_le.2 hp)
        · rw [if_neg hp]
          push Not at hp
          obtain ⟨h1, h2⟩ := ih iv
          refine ⟨fun t ht ha => h1 t ht fun j hj => ha j (List.mem_cons_of_mem _ hj), fun hR t ht => ?_⟩
          obtain ⟨h3, h4⟩ := h2 hR t ht
          refine ⟨h3, fun j hj => ?_⟩
          rcases List.mem_cons.1 hj with rfl | hj
          · rw [hk, mul_zero, add_zero]
            exact hp
          · exact h4 j hj
    · rw [if_neg hlt]
      exact ⟨fun t h _ => h, fun h => absurd h hlt⟩

omit [LinearOrder K] [IsStrictOrderedRing K] in
theorem last_mul [LinearOrder K] (pts : ℕ → Fin N → K) (w : ℕ → K) (p : Fin N → K) (t : K) (h1 : ∑ i ∈ range (N + 1), w i = t)
    (h2 : ∑ i ∈ range (N + 1), w i • pts i = p) :
    ∀ r < N + 1, ∑ i ∈ range (N + 1), w i * thenLast (pts i) 1 r = thenLast p t r := by
  intro r hr
  by_cases h : r = N
  · simp [thenLast, h, h1]
  · simp only [thenLast, if_neg h]
    have hr : r < N := by omega
    simp only [raw, dif_pos hr]
    rw [← h2, Finset.sum_apply]
    rfl

omit [IsStrictOrderedRing K] in
theorem last_indep {pts : ℕ → Fin N → K} (h : AffInd pts (N + 1)) (w : ℕ → K)
    (hw : ∀ r < N + 1, ∑ i ∈ range (N + 1), w i * thenLast (pts i) 1 r = 0) : ∀ i < N + 1, w i = 0 := by
  refine h w ?_ ?_
  · have := hw N (by omega)
    simpa [thenLast] using this
  · ext r
    have := hw r (by omega)
    simp only [thenLast, if_neg (Nat.ne_of_lt r.2), raw_lt] at this
    rw [Finset.sum_apply]
    exact this

/-- **C56**: the ray test of a full simplex with independent vertices.  Every hit is in the reported interval, and if the
interval is longer than a point it contains nothing else.  (It need not be if it is a single point.) -/
theorem C56_ray (s : Simp K N) (hn : s.n = N + 1) (hi : AffInd s.pts s.n) (o v : Fin N → K) :
    ∃ iv, s.ray o v = some iv ∧ (∀ t : K, o + t • v ∈ s.set → InIval iv t) ∧
      (iv.1 < iv.2 → ∀ t : K, InIval iv t ↔ o + t • v ∈ s.set) ∧ (iv.2 < iv.1 → ∀ t : K, o + t • v ∉ s.set) := by
  rw [hn] at hi
  obtain ⟨hd, -⟩ := vecSolve_spec (n := N + 1) (m := 2) (by omega) (fun i => thenLast (s.pts i) 1)
    (fun j => if j = 0 then thenLast o 1 else thenLast v 0) (skip := 0) (by omega)
  obtain ⟨Z, e, hZ⟩ := hd (det_of_indep (last_indep hi))
  obtain ⟨a, ha1, ha2⟩ := bary hi o
  obtain ⟨b, hb1, hb2⟩ := bary hi (o + v)
  have hk1 : ∑ i ∈ range (N + 1), (b i - a i) = 0 := by rw [sum_sub_distrib, ha1, hb1, sub_self]
  have hk2 : ∑ i ∈ range (N + 1), (b i - a i) • s.pts i = v := by
    simp only [sub_smul]
    rw [sum_sub_distrib, ha2, hb2, add_sub_cancel_left]
  have hZ0 : ∀ i < N + 1, Z 0 i = a i := fun i h => hZ 0 (by omega) a (by
    simp only [if_true]
    exact last_mul s.pts a o 1 ha1 ha2) i (Or.inl (by omega)) h
  have hZ1 : ∀ i < N + 1, Z 1 i = b i - a i := fun i h => hZ 1 (by omega) (fun i => b i - a i) (by
    simp only [if_neg one_ne_zero]
    exact last_mul s.pts _ v 0 hk1 hk2) i (Or.inl (by omega)) h
  have hmem : ∀ t : K, o + t • v ∈ s.set ↔ ∀ i ∈ List.range (N + 1), 0 ≤ Z 0 i + t * Z 1 i ∧ Z 0 i + t * Z 1 i ≤ 1 := by
    intro t
    have e1 : o + t • v = ∑ i ∈ range (N + 1), (a i + t * (b i - a i)) • s.pts i := by
      simp only [add_smul, mul_smul]
      rw [sum_add_distrib, ha2, ← smul_sum, hk2]
    have e2 : ∑ i ∈ range (N + 1), (a i + t * (b i - a i)) = 1 := by
      rw [sum_add_distrib, ha1, ← mul_sum, hk1, mul_zero, add_zero]
    rw [e1, Simp.set, hn, mem_hull hi e2]
    constructor
    · intro h i hi
      rw [List.mem_range] at hi
      rw [hZ0 i hi, hZ1 i hi]
      refine ⟨h i hi, ?_⟩
      rw [← e2]
      exact single_le_sum (f := fun i => a i + t * (b i - a i)) (fun j hj => h j (mem_range.1 hj)) (mem_range.2 hi)
    · intro h i hi
      have := (h i (List.mem_range.2 hi)).1
      rwa [hZ0 i hi, hZ1 i hi] at this
  rw [Simp.ray, if_pos hn, e]
  obtain ⟨h1, h2⟩ := weightSpan_spec (Z 0) (Z 1) (List.range (N + 1)) full
  have hall : ∀ t : K, o + t • v ∈ s.set → InIval (weightSpan (Z 0) (Z 1) (List.range (N + 1)) full) t :=
    fun t ht => h1 t (inIval_full t) ((hmem t).1 ht)
  refine ⟨_, rfl, ?_⟩
  simp only [Bool.true_eq_false, if_false]
  refine ⟨hall, fun hR t => ⟨fun ht => (hmem t).2 (h2 hR t ht).2, hall t⟩, fun hR t ht => ?_⟩
  have := hall t ht
  exact absurd (this.1.trans this.2) (not_le.2 hR)

/-- **C56** refuted for rays: a ray along a line below a triangle is reported to hit it. -/
theorem C56_ray_refuted : (Simp.standard : Simp ℚ 2).ray ![2, -1] ![-1, 0] = some (((1 : ℚ) : Ext ℚ), ((1 : ℚ) : Ext ℚ)) ∧
    ∀ t : ℚ, ![2, -1] + t • ![-1, 0] ∉ (Simp.standard : Simp ℚ 2).set := by
  refine ⟨by decide +kernel, ?_⟩
  rintro t ⟨w, h1, h2, h3⟩
  have := congrFun h3 1
  simp [Simp.standard, sum_range_succ, Pi.single_apply] at this
  have h4 := h1 2 (by simp [Simp.standard])
  linarith

omit [IsStrictOrderedRing K] in
theorem exists_coeffs {n : ℕ} {bases : ℕ → ℕ → K} (h : (view (fun r c => bases c r) n n).det ≠ 0) (x : ℕ → K) :
    ∃ w : ℕ → K, ∀ r < n, ∑ i ∈ range n, w i * bases i r = x r := by
  let v : Fin n → K := (view (fun r c => bases c r) n n)⁻¹ *ᵥ fun r : Fin n => x r
  have hv : (view (fun r c => bases c r) n n) *ᵥ v = fun r : Fin n => x r := by
    rw [Matrix.mulVec_mulVec, Matrix.mul_nonsing_inv _ (isUnit_iff_ne_zero.2 h), Matrix.one_mulVec]
  refine ⟨fun i => if h : i < n then v ⟨i, h⟩ else 0, fun r hr => ?_⟩
  have := congrFun hv ⟨r, hr⟩
  rw [Matrix.mulVec, dotProduct] at this
  simp only at this
  rw [← this, ← Fin.sum_univ_eq_sum_range (fun i => (if h : i < n then v ⟨i, h⟩ else 0) * bases i r)]
  exact sum_congr rfl fun c _ => by simp [view, mul_comm]

/-- Averages as the first vertex plus a combination of edges. -/
theorem mem_hull_edges (pts : ℕ → Fin N → K) (n : ℕ) (p : Fin N → K) :
    p ∈ hull pts (n + 1) ↔ ∃ u : ℕ → K, (∀ i < n, 0 ≤ u i) ∧ ∑ i ∈ range n, u i ≤ 1 ∧
      p - pts 0 = ∑ i ∈ range n, u i • (pts (i + 1) - pts 0) := by
  constructor
  · rintro ⟨w, h1, h2, h3⟩
    rw [sum_range_succ'] at h2 h3
    refine ⟨fun i => w (i + 1), fun i hi => h1 _ (by omega), by linarith [h1 0 (by omega)], ?_⟩
    simp only [smul_sub]
    rw [sum_sub_distrib, ← sum_smul, h3, show ∑ i ∈ range n, w (i + 1) = 1 - w 0 by linarith, sub_smul, one_smul]
    abel
  · rintro ⟨u, h1, h2, h3⟩
    refine ⟨fun i => if i = 0 then 1 - ∑ i ∈ range n, u i else u (i - 1), fun i hi => ?_, ?_, ?_⟩
    · beta_reduce
      split_ifs with h
      · linarith
      · exact h1 _ (by omega)
    · rw [sum_range_succ']
      simp
    · rw [sum_range_succ']
      simp only [Nat.add_eq_zero_iff, one_ne_zero, and_false, if_false, if_true, Nat.add_sub_cancel]
      simp only [smul_sub] at h3
      rw [sum_sub_distrib, ← sum_smul] at h3
      rw [sub_smul, one_smul, eq_add_of_sub_eq h3]
      abel

/-- **C56** refuted for flat simplexes of two to four dimensions: every ray that hits one in a single point reads past the end
of a vector; every other is right to be a miss. -/
theorem C56_flat_ray_refuted (hN : 2 ≤ N) (hN' : N ≤ 4) (s : Simp K N) (hn : s.n = N) (o v : Fin N → K)
    (hi : ∀ w : ℕ → K, ∑ i ∈ range (N - 1), w i • (s.pts (i + 1) - s.pts 0) = w (N - 1) • v → ∀ i < N, w i = 0) :
    (s.ray o v = none ↔ ∃ t : K, o + t • v ∈ s.set) ∧ (s.ray o v = some void ↔ ∀ t : K, o + t • v ∉ s.set) := by
  obtain ⟨M, rfl⟩ : ∃ M, N = M + 1 := ⟨N - 1, by omega⟩
  rw [Nat.add_sub_cancel] at hi
  -- sums against the basis
  have hsum : ∀ (w : ℕ → K) (x : Fin (M + 1) → K), (∀ r < M + 1, ∑ i ∈ range (M + 1), w i *
      (if i + 1 < M + 1 then raw (s.pts (i + 1) - s.pts 0) r else raw (-v) r) = raw x r) ↔
      ∑ i ∈ range M, w i • (s.pts (i + 1) - s.pts 0) - w M • v = x := by
    intro w x
    have hr : ∀ r : Fin (M + 1), ∑ i ∈ range (M + 1), w i *
        (if i + 1 < M + 1 then raw (s.pts (i + 1) - s.pts 0) r else raw (-v) r) =
        (∑ i ∈ range M, w i • (s.pts (i + 1) - s.pts 0) - w M • v) r := by
      intro r
      rw [sum_range_succ, if_neg (lt_irrefl _), Pi.sub_apply, Finset.sum_apply, raw_lt]
      rw [sum_congr rfl fun i hi => by rw [if_pos (by have := mem_range.1 hi; omega), raw_lt]]
      simp [sub_eq_add_neg]
    constructor
    · intro h
      ext r
      rw [← hr, h r r.2, raw_lt]
    · rintro rfl r hr'
      rw [hr ⟨r, hr'⟩]
      exact (raw_lt _ ⟨r, hr'⟩).symm
  have hdet : (view (fun r c => if c + 1 < M + 1 then raw (s.pts (c + 1) - s.pts 0) r else raw (-v) r) (M + 1) (M + 1)).det ≠ 0 := by
    refine det_of_indep (bases := fun i r => if i + 1 < M + 1 then raw (s.pts (i + 1) - s.pts 0) r else raw (-v) r) fun w hw => ?_
    refine hi w ?_
    have := (hsum w 0).1 fun r hr => by rw [hw r hr]; simp [raw]
    exact sub_eq_zero.1 this
  obtain ⟨hd, -⟩ := vecSolve_spec (n := M + 1) (m := 1) (by omega)
    (fun i r => if i + 1 < M + 1 then raw (s.pts (i + 1) - s.pts 0) r else raw (-v) r) (fun _ r => raw (o - s.pts 0) r)
    (skip := M + 1 - 1) (by omega)
  obtain ⟨Z, e, hZ⟩ := hd hdet
  obtain ⟨w, hw⟩ := exists_coeffs hdet (raw (o - s.pts 0))
  have hw' := (hsum w _).1 hw
  have hZw : ∀ i < M + 1, Z 0 i = w i := fun i h => hZ 0 (by omega) w hw i (Or.inr hN') h
  have hit : (∃ t : K, o + t • v ∈ s.set) ↔ (∀ i < M, 0 ≤ w i) ∧ ∑ i ∈ range M, w i ≤ 1 := by
    rw [Simp.set, hn]
    constructor
    · rintro ⟨t, ht⟩
      rw [mem_hull_edges] at ht
      obtain ⟨u, h1, h2, h3⟩ := ht
      have hu : ∀ i < M, w i = u i := by
        intro i h
        have := hi (fun i => if i < M then w i - u i else w M - t) (by
          rw [if_neg (lt_irrefl _), sum_congr rfl fun i hi => by rw [if_pos (mem_range.1 hi), sub_smul]]
          rw [sum_sub_distrib, ← h3, sub_smul]
          rw [sub_eq_iff_eq_add] at hw'
          rw [hw']
          abel) i (by omega)
        simp only [if_pos h] at this
        exact sub_eq_zero.1 this
      refine ⟨fun i h => by rw [hu i h]; exact h1 i h, ?_⟩
      rw [sum_congr rfl fun i h => hu i (mem_range.1 h)]
      exact h2
    · rintro ⟨h1, h2⟩
      refine ⟨w M, ?_⟩
      rw [mem_hull_edges]
      refine ⟨w, h1, h2, ?_⟩
      rw [sub_eq_iff_eq_add] at hw'
      rw [hw']
      abel
  have hfold : (List.range M).foldl (fun a i => a + Z 0 i) 0 = ∑ i ∈ range M, w i := by
    have : ∀ m ≤ M, (List.range m).foldl (fun a i => a + Z 0 i) 0 = ∑ i ∈ range m, w i := by
      intro m hm
      induction m with
      | zero => rfl
      | succ m ih =>
        rw [List.range_succ, List.foldl_append, ih (by omega), List.foldl_cons, List.foldl_nil, sum_range_succ, hZw m (by omega)]
    exact this M le_rfl
  have htr : traceSimplex s.pts o v = if (∀ i < M, 0 ≤ w i) ∧ ∑ i ∈ range M, w i ≤ 1 then none else some false := by
    rw [traceSimplex, e, Option.bind_some]
    simp only [Bool.true_eq_false, if_false, Nat.add_sub_cancel]
    rw [hfold]
    have hany : ((List.range M).any fun i => decide (Z 0 i < 0)) = true ↔ ¬ ∀ i < M, 0 ≤ w i := by
      rw [List.any_eq_true]
      push Not
      refine exists_congr fun i => ?_
      rw [List.mem_range, decide_eq_true_eq]
      exact and_congr_right fun h => by rw [hZw i (by omega)]
    simp only [hany]
    by_cases h1 : ∀ i < M, 0 ≤ w i
    · by_cases h2 : ∑ i ∈ range M, w i ≤ 1
      · rw [if_neg (not_not.2 h1), if_neg (not_lt.2 h2), if_pos ⟨h1, h2⟩]
      · rw [if_neg (not_not.2 h1), if_pos (not_le.1 h2), if_neg fun h => h2 h.2]
    · simp only [h1, not_false_eq_true, if_true, false_and, if_false]
  have hnone : (∀ t : K, o + t • v ∉ s.set) ↔ ¬ ((∀ i < M, 0 ≤ w i) ∧ ∑ i ∈ range M, w i ≤ 1) := by
    rw [← hit]
    push Not
    rfl
  rw [Simp.ray, if_neg (by omega), if_pos hn, htr, hit, hnone]
  split_ifs with h
  · exact ⟨⟨fun _ => h, fun _ => rfl⟩, ⟨fun h' => absurd h' (by simp), fun h' => absurd h h'⟩⟩
  · exact ⟨⟨fun h' => absurd h' (by simp), fun h' => absurd h' h⟩, ⟨fun _ => h, fun _ => rfl⟩⟩

/-- **C56**: simplexes with still fewer vertices are never hit. -/
theorem C56_thin_ray (s : Simp K N) (hn : s.n < N) (o v : Fin N → K) : s.ray o v = some void := by
  rw [Simp.ray, if_neg (by omega), if_neg (by omega)]

/-! ### Facing -/

/-- **C56**: points, edges and full simplexes: facing means that the orthogonal projection is on the simplex. -/
theorem C56_facing (s : Simp K N) (p : Fin N → K) :
    (s.n = 0 → s.isFacing p = some false) ∧ (s.n = 1 → s.isFacing p = some true) ∧
    (s.n = 2 → s.pts 1 ≠ s.pts 0 → ∃ b, s.isFacing p = some b ∧
      (b = true ↔ ∃ q ∈ s.set, (p - q) ⬝ᵥ (s.pts 1 - s.pts 0) = 0)) ∧
    (2 ≤ N → s.n = N + 1 → AffInd s.pts s.n → ∃ b, s.isFacing p = some b ∧ (b = true ↔ p ∈ s.set)) := by
  refine ⟨fun h => if_pos h, fun h => ?_, fun h hne => ?_, fun hN hn hi => ?_⟩
  · rw [Simp.isFacing, if_neg (by omega), if_pos h]
  · have hv : s.pts 1 - s.pts 0 ≠ 0 := sub_ne_zero.2 hne
    have hpos := self_dot_pos hv
    rw [Simp.isFacing, if_neg (by omega), if_neg (by omega), if_pos h]
    simp only
    rw [if_neg (by rw [mag2_eq]; exact hpos.ne'), mag2_eq, dot_eq]
    refine ⟨_, rfl, ?_⟩
    rw [Bool.and_eq_true, decide_eq_true_eq, decide_eq_true_eq, Simp.set, h]
    generalize hvd : s.pts 1 - s.pts 0 = d at *
    have key : ∀ u : K, (p - (s.pts 0 + u • d)) ⬝ᵥ d = 0 ↔ u = d ⬝ᵥ (p - s.pts 0) / (d ⬝ᵥ d) := by
      intro u
      rw [eq_div_iff hpos.ne', ← sub_sub, sub_dotProduct, smul_dotProduct, smul_eq_mul, dotProduct_comm d (p - s.pts 0), sub_eq_zero, eq_comm]
    constructor
    · rintro ⟨h1, h2⟩
      refine ⟨s.pts 0 + (d ⬝ᵥ (p - s.pts 0) / (d ⬝ᵥ d)) • d, ?_, (key _).2 rfl⟩
      rw [mem_hull_edges]
      exact ⟨fun _ => d ⬝ᵥ (p - s.pts 0) / (d ⬝ᵥ d), fun _ _ => h1, by simpa using h2, by rw [sum_range_one, hvd]; simp⟩
    · rintro ⟨q, hq, h0⟩
      rw [mem_hull_edges] at hq
      obtain ⟨u, h1, h2, h3⟩ := hq
      rw [sum_range_one] at h2 h3
      rw [hvd, sub_eq_iff_eq_add'] at h3
      rw [h3, key] at h0
      rw [← h0]
      exact ⟨h1 0 (by omega), h2⟩
  · have hnull : N - (s.n - 1) = 0 := by omega
    have hb : s.n - 1 = N := by omega
    rw [Simp.isFacing, if_neg (by omega), if_neg (by omega), if_neg (by omega)]
    simp only [hb, Nat.sub_self, nullspaceAny, if_pos le_rfl, Option.bind_some, Nat.not_lt_zero, if_false, Nat.sub_zero]
    rw [hn] at hi
    have hsum : ∀ (w : ℕ → K) (x : Fin N → K), (∀ r < N, ∑ i ∈ range N, w i * raw (s.pts (i + 1) - s.pts 0) r = raw x r) ↔
        ∑ i ∈ range N, w i • (s.pts (i + 1) - s.pts 0) = x := by
      intro w x
      have hr : ∀ r : Fin N, ∑ i ∈ range N, w i * raw (s.pts (i + 1) - s.pts 0) r =
          (∑ i ∈ range N, w i • (s.pts (i + 1) - s.pts 0)) r := by
        intro r
        rw [Finset.sum_apply]
        exact sum_congr rfl fun i _ => by rw [raw_lt]; rfl
      constructor
      · intro h
        ext r
        rw [← hr, h r r.2, raw_lt]
      · rintro rfl r hr'
        rw [hr ⟨r, hr'⟩]
        exact (raw_lt _ ⟨r, hr'⟩).symm
    have hdet : (view (fun r c => raw (s.pts (c + 1) - s.pts 0) r) N N).det ≠ 0 := by
      refine det_of_indep (bases := fun i r => raw (s.pts (i + 1) - s.pts 0) r) fun w hw i h => ?_
      have h0 := (hsum w 0).1 fun r hr => by rw [hw r hr]; simp [raw]
      have := hi (fun i => if i = 0 then -∑ i ∈ range N, w i else w (i - 1)) (by rw [sum_range_succ']; simp) (by
        rw [sum_range_succ']
        simp only [Nat.add_eq_zero_iff, one_ne_zero, and_false, if_false, if_true, Nat.add_sub_cancel]
        simp only [smul_sub] at h0
        rw [sum_sub_distrib, ← sum_smul] at h0
        rw [neg_smul, ← sub_eq_add_neg, h0]) (i + 1) (by omega)
      simpa using this
    obtain ⟨hd, -⟩ := vecSolve_spec (n := N) (m := 1) (by omega) (fun i r => raw (s.pts (i + 1) - s.pts 0) r)
      (fun _ r => raw (p - s.pts 0) r) (skip := 0) (by omega)
    obtain ⟨Z, e, hZ⟩ := hd hdet
    obtain ⟨w, hw⟩ := exists_coeffs hdet (raw (p - s.pts 0))
    have hw' := (hsum w _).1 hw
    have hZw : ∀ i < N, Z 0 i = w i := fun i h => hZ 0 (by omega) w hw i (Or.inl (by omega)) h
    have e' : vecSolve N 1 (fun i => raw (s.pts (i + 1) - s.pts 0)) (fun _ => raw (p - s.pts 0)) 0 = some (true, Z) := e
    rw [e']
    refine ⟨_, rfl, ?_⟩
    simp only [Bool.true_eq_false, if_false]
    rw [weightsOk_iff _ _ _ _ zero_le_one, Simp.set, hn, mem_hull_edges]
    simp only [zero_add]
    rw [sum_congr rfl fun i h => hZw i (mem_range.1 h)]
    constructor
    · rintro ⟨h1, h2⟩
      exact ⟨w, fun i h => by rw [← hZw i h]; exact h1 i h, h2, hw'.symm⟩
    · rintro ⟨u, h1, h2, h3⟩
      have hu : ∀ i < N, Z 0 i = u i := fun i h =>
        hZ 0 (by omega) u ((hsum u _).2 h3.symm) i (Or.inl (by omega)) h
      refine ⟨fun i h => by rw [hu i h]; exact h1 i h, ?_⟩
      rw [sum_congr rfl fun i h => (hZw i (mem_range.1 h)).symm.trans (hu i (mem_range.1 h))]
      exact h2

/-- **C56** refuted for the facing of a triangle in space: a point far beyond one of its corners "faces" it. -/
theorem C56_facing_refuted :
    let s : Simp ℚ 3 := Simp.ofList [![0, 0, 0], ![1, 0, 0], ![0, 1, 0]]
    s.isFacing ![0, 5, 0] = some true ∧ ∀ q ∈ s.set, q 1 ≤ 1 ∧ q 2 = 0 := by
  refine ⟨by decide +kernel, ?_⟩
  rintro q ⟨w, h1, h2, rfl⟩
  have a0 := h1 0 (by simp [Simp.ofList])
  have a1 := h1 1 (by simp [Simp.ofList])
  simp [sum_range_succ, Simp.ofList] at h2 ⊢
  linarith

/-! ### Volume -/

/-- **C56**: the volume in one, two and three dimensions is the determinant of the edges over the factorial; simplexes with
fewer vertices have none. -/
theorem C56_volume (s : Simp K N) (t1 : Simp K 1) (t2 : Simp K 2) (t3 : Simp K 3) :
    (s.n < N + 1 → s.volume = 0) ∧
    (t1.n = 2 → t1.volume = t1.pts 1 0 - t1.pts 0 0) ∧
    (t2.n = 3 → 2 * t2.volume = (Matrix.of fun i j : Fin 2 => t2.pts (i + 1) j - t2.pts 0 j).det) ∧
    (t3.n = 4 → 6 * t3.volume = (Matrix.of fun i j : Fin 3 => t3.pts (i + 1) j - t3.pts 0 j).det) := by
  refine ⟨fun h => if_pos h, fun h => ?_, fun h => ?_, fun h => ?_⟩
  · rw [Simp.volume, if_neg (by omega)]
    simp [detDestructive, raw]
  · rw [Simp.volume, if_neg (by omega)]
    simp only [if_true]
    rw [(C34_det2 true _).1, mul_div_cancel₀ _ two_ne_zero]
    congr 1
    ext i j
    fin_cases i <;> fin_cases j <;> simp [flat, raw]
  · rw [Simp.volume, if_neg (by omega)]
    simp only [if_true]
    rw [if_neg (by decide), (C34_det3 true _).1, mul_div_cancel₀ _ (by norm_num)]
    congr 1
    ext i j
    fin_cases i <;> fin_cases j <;> simp [flat, raw]

/-- **C56** refuted for volumes: from four dimensions on the standard simplex has none, and the "positive" measure of a triangle
can be negative. -/
theorem C56_volume_refuted (hN : 4 ≤ N) :
    (Simp.standard : Simp K N).volume = 0 ∧
    (∀ sqrt, (Simp.ofList [![0, 0], ![0, 1], ![1, 0]] : Simp ℚ 2).measure sqrt = -1/2) := by
  constructor
  · rw [Simp.volume, if_neg (by simp [Simp.standard])]
    simp only
    rw [if_neg (by omega), if_neg (by omega)]
    rw [(LU.detNxN_eye (by omega) _ fun r hr c hc => ?_).2, zero_div]
    rw [show raw ((Simp.standard : Simp K N).pts (r + 1) - (Simp.standard : Simp K N).pts 0) c =
      ((Simp.standard : Simp K N).pts (r + 1) - (Simp.standard : Simp K N).pts 0) ⟨c, hc⟩ from raw_lt _ ⟨c, hc⟩]
    simp [Simp.standard, hr, Pi.single_apply, eq_comm]
  · intro sqrt
    rw [Simp.measure, if_neg (by decide +kernel), if_neg (by decide +kernel), if_pos (by decide +kernel)]
    decide +kernel

theorem sqrt_nn {sqrt : K → K} (h : IsSqrt sqrt) {x : K} (hx : 0 ≤ x) : 0 ≤ sqrt x := by
  rcases hx.lt_or_eq with hx | rfl
  · exact (h.pos x hx).le
  · rw [h.zero]

/-- **C56**: the measure of a segment is its length, in any dimension; that of a triangle in space half the root of the Gram
determinant of two sides; and that of a full simplex its signed volume. -/
theorem C56_measure {sqrt : K → K} (hs : IsSqrt sqrt) (s : Simp K N) (t : Simp K 3) :
    (s.n = 2 → 0 ≤ s.measure sqrt ∧ s.measure sqrt * s.measure sqrt = ∑ i, (s.pts 1 i - s.pts 0 i) ^ 2) ∧
    (t.n = 3 → 0 ≤ t.measure sqrt ∧ 4 * (t.measure sqrt * t.measure sqrt) =
      (∑ i, (t.pts 1 i - t.pts 0 i) ^ 2) * (∑ i, (t.pts 2 i - t.pts 0 i) ^ 2) -
        (∑ i, (t.pts 1 i - t.pts 0 i) * (t.pts 2 i - t.pts 0 i)) ^ 2) ∧
    (s.n = N + 1 → s.n ≠ 2 → s.measure sqrt = s.volume) := by
  refine ⟨fun h => ?_, fun h => ?_, fun h h2 => ?_⟩
  · rw [Simp.measure, if_pos h, hs.sq _ (mag2_nonneg _)]
    refine ⟨sqrt_nn hs (mag2_nonneg _), ?_⟩
    rw [mag2_sum]
    exact Finset.sum_congr rfl fun i _ => by rw [Pi.sub_apply, sq]
  · rw [Simp.measure, if_neg (by omega), if_pos ⟨rfl, h⟩]
    refine ⟨div_nonneg (sqrt_nn hs (mag2_nonneg _)) (by norm_num), ?_⟩
    rw [div_mul_div_comm, hs.sq _ (mag2_nonneg _), mag2_sum]
    simp only [Fin.sum_univ_three, cross, raw, Duals.diffOfProducts_eq]
    simp
    ring
  · rw [Simp.measure, if_neg h2, if_neg (by rintro ⟨rfl, h⟩; omega), if_pos h]

/-- **C56** refuted for the measure of flat simplexes: unless it is a segment, or a triangle in space, one with perpendicular
edges is said to measure zero. -/
theorem C56_measure_refuted {sqrt : K → K} (hs : IsSqrt sqrt) (s : Simp K N) (h3 : 3 ≤ s.n) (hN : s.n ≤ N) (ht : N ≠ 3)
    (ho : ∀ i j, 0 < i → i < j → j < s.n → dot (s.pts i - s.pts 0) (s.pts j - s.pts 0) = 0) :
    s.measure sqrt = 0 := by
  rw [Simp.measure, if_neg (by omega), if_neg (by tauto), if_neg (by omega),
    (LU.detNxN_diag (by omega) s.gram fun r hr c hc hrc => ?_).2, abs_zero, hs.zero, zero_div]
  simp only [Simp.gram]
  by_cases g1 : r + 1 < s.n
  · by_cases g2 : c + 1 < s.n
    · rw [if_pos g1, if_pos g2]
      rcases Nat.lt_or_gt_of_ne hrc with g | g
      · exact ho _ _ (by omega) (by omega) g2
      · rw [Vec.dot_eq, dotProduct_comm, ← Vec.dot_eq]
        exact ho _ _ (by omega) (by omega) g1
    · rw [if_neg g2, Vec.dot_eq, dotProduct_zero]
  · rw [if_neg g1, Vec.dot_eq, zero_dotProduct]

/-! ### Concrete instances -/

/-- A triangle that is not axis-aligned. -/
def tri : Simp ℚ 2 := Simp.ofList [![1, 1], ![5, 2], ![2, 4]]

example : tri.n = 3 ∧ tri.verts = [![1, 1], ![5, 2], ![2, 4]] := by decide +kernel
example : tri.contains ![2, 2] = some true ∧ tri.contains ![4, 4] = some false ∧ tri.contains ![1, 1] = some true := by
  decide +kernel
example : tri.support ![1, 0] = ![5, 2] ∧ tri.support ![-1, 3] = ![2, 4] := by decide +kernel
example : (tri.excluded 0).map (·.verts) = some [![5, 2], ![2, 4]] := by decide +kernel
example : tri.ray ![0, 2] ![1, 0] = some (((4/3 : ℚ) : Ext ℚ), ((5 : ℚ) : Ext ℚ)) := by decide +kernel
example : tri.volume = 11/2 := by decide +kernel
/-- The area is one half, but the measure zero; and if the sides are not perpendicular, the measure is not the area either: the
root of 12 in place of that of 3. -/
example : (∀ sqrt : ℚ → ℚ, IsSqrt sqrt → (Simp.ofList [0, ![1, 0, 0, 0], ![0, 1, 0, 0]] : Simp ℚ 4).measure sqrt = 0) ∧
    detDestructive (Simp.ofList [0, ![2, 0, 0, 0], ![1, 0, 3, 0]] : Simp ℚ 4).gram 3 = 72 ∧
    (Simp.ofList [0, ![2, 0, 0, 0], ![1, 0, 3, 0]] : Simp ℚ 4).gram 2 2 = 0 := by
  refine ⟨fun sqrt hs => C56_measure_refuted hs _ (by decide) (by decide) (by decide) fun i j h1 h2 h3 => ?_, ?_, ?_⟩
  · have : j < 3 := h3
    interval_cases j <;> interval_cases i
    decide +kernel
  all_goals decide +kernel
example : (tri.excluded 0).bind (·.isFacing ![4, 4]) = some true ∧ (tri.excluded 0).bind (·.isFacing ![9, 0]) = some false := by decide +kernel
example : AffInd tri.pts tri.n := by
  intro w h1 h2 i hi
  have e0 := congrFun h2 0
  have e1 := congrFun h2 1
  simp [tri, Simp.ofList, sum_range_succ] at h1 e0 e1 hi
  interval_cases i <;> linarith

end Geomc.Shape
