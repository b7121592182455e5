import Verif.Raster.CubicModel
import Verif.Raster.Props

/-! # Property C94: cubic raster sampling -/

namespace Geomc.Rast

open Grid (InRegion cells ordinal)

variable {M ch : ℕ} {K O : Type}

/-- Tap `d` of the `4^M` block around the cell at `g`: one before the cell to two after along each axis. -/
def tap (g : Fin M → ℤ) (d : Fin M → Fin 4) : Fin M → ℤ := fun i => g i - 1 + (d i : ℕ)

theorem cells_four (g : Fin M → ℤ) : cells (fun i => g i - 1) (fun i => g i + 2) = 4 ^ M := by
  unfold cells
  rw [Finset.prod_congr rfl (g := fun _ => 4) (fun i _ => by ring)]
  simp

theorem ordinal_tap (g : Fin M → ℤ) (d : Fin M → Fin 4) :
    ordinal true (fun i => g i - 1) (fun i => g i + 2) (tap g d) = ((finFunctionFinEquiv d : ℕ) : ℤ) := by
  rw [finFunctionFinEquiv_apply]
  unfold ordinal tap
  push_cast
  apply Finset.sum_congr rfl
  intro i _
  have h1 : ∀ j : Fin M, g j + 2 - (g j - 1) + 1 = 4 := by intro j; ring
  have hp : (Finset.univ.filter fun j : Fin M => j < i).card = i := by
    rw [Finset.filter_gt_eq_Iio, Fin.card_Iio]
  simp [h1, hp]

theorem tap_region (g : Fin M → ℤ) (q : Fin M → ℤ)
    (hq : InRegion (fun i => g i - 1) (fun i => g i + 2) q) : ∃ d, q = tap g d := by
  refine ⟨fun i => ⟨(q i - (g i - 1)).toNat, ?_⟩, ?_⟩
  · have := hq i
    simp only at this
    omega
  · funext i
    have := hq i
    simp only at this
    simp only [tap]
    omega

theorem tap_in (g : Fin M → ℤ) (d : Fin M → Fin 4) :
    InRegion (fun i => g i - 1) (fun i => g i + 2) (tap g d) := by
  intro i
  have := (d i).2
  simp only [tap]
  constructor <;> omega

section
variable [Field K] [LinearOrder K] [IsStrictOrderedRing K] [FloorRing K]

/-- **C94.** Cubic sampling at grid position `pt` is the tensor-product Catmull-Rom blend of the `4^M`
discrete samples around `pt`, with the fractional offsets as parameters, for every dimension, channel and
edge behaviour.  `v q` is the discrete sample at `q`. -/
theorem C94_cubic [NeZero M] (r : Raster K K M ch) (e : Edge) (pt : Fin M → K)
    (v : (Fin M → ℤ) → Fin ch → K)
    (hv : ∀ d, r.sampleDiscrete e (tap (fun i => trunc (pt i)) d) =
      some (v (tap (fun i => trunc (pt i)) d)))
    (fuel : ℕ) (hf : 4 ^ M < fuel) (k : Fin ch) :
    r.sampleCubic e fuel pt k = some (∑ d : Fin M → Fin 4,
      v (tap (fun i => trunc (pt i)) d) k * ∏ i, Util.catmullRom (pt i - trunc (pt i)) (d i)) := by
  set g : Fin M → ℤ := fun i => trunc (pt i) with hg
  obtain ⟨l, h1, h2, h3⟩ := C69_copy r e (fun i => g i - 1) (fun i => g i + 2) (fun i => by omega) v
    (by intro q hq; obtain ⟨d, rfl⟩ := tap_region g q hq; exact hv d) fuel
    (by rw [cells_four]; exact_mod_cast hf)
  unfold Raster.sampleCubic
  simp only [Option.bind_eq_bind]
  rw [show r.copy e (fun i => trunc (pt i) - 1) (fun i => trunc (pt i) + 2) fuel = some l from h1,
    Option.bind_some]
  obtain ⟨n, rfl⟩ : ∃ n, M = n + 1 := ⟨M - 1, by have := Nat.pos_of_neZero M; omega⟩
  rw [Util.C05_tensor]
  congr 1
  rw [← Fin.sum_univ_eq_sum_range
    (fun c => ((l[c]?).map (· k)).getD 0 * ∏ i ∈ Finset.range (n + 1), Util.catmullRom
      (if h : i < n + 1 then pt ⟨i, h⟩ - (trunc (pt ⟨i, h⟩) : K) else 0) (c / 4 ^ i % 4)),
    ← Equiv.sum_comp finFunctionFinEquiv]
  apply Finset.sum_congr rfl
  intro d _
  have hl := h3 _ (tap_in g d)
  rw [ordinal_tap g d] at hl
  simp only [Int.toNat_natCast] at hl
  rw [hl]
  simp only [Option.map_some, Option.getD_some]
  congr 1
  rw [← Fin.prod_univ_eq_prod_range
    (fun i => Util.catmullRom (if h : i < n + 1 then pt ⟨i, h⟩ - (trunc (pt ⟨i, h⟩) : K) else 0)
      ((finFunctionFinEquiv d : ℕ) / 4 ^ i % 4))]
  apply Finset.prod_congr rfl
  intro i _
  have hd : (finFunctionFinEquiv d : ℕ) / 4 ^ (i : ℕ) % 4 = (d i : ℕ) := by
    have := congrArg (fun f => ((f i : Fin 4) : ℕ)) (finFunctionFinEquiv.symm_apply_apply d)
    simpa [finFunctionFinEquiv] using this
  rw [hd]
  simp [i.2]

/-- **C94.** If the discrete samples around the position are those of a function that is a polynomial of
degree at most two in each coordinate (any sum of products of one-variable quadratics), cubic sampling
returns that function's value at the position itself, not only at the grid points. -/
theorem C94_quadratic_exact [NeZero M] (r : Raster K K M ch) (e : Edge) (pt : Fin M → K) (k : Fin ch)
    {ι : Type} (S : Finset ι) (a b c : ι → Fin M → K)
    (v : (Fin M → ℤ) → Fin ch → K)
    (hv : ∀ d, r.sampleDiscrete e (tap (fun i => trunc (pt i)) d) =
      some (v (tap (fun i => trunc (pt i)) d)))
    (hq : ∀ q, v q k = ∑ t ∈ S, ∏ i, (a t i * (q i : K) ^ 2 + b t i * (q i : K) + c t i))
    (fuel : ℕ) (hf : 4 ^ M < fuel) :
    r.sampleCubic e fuel pt k =
      some (∑ t ∈ S, ∏ i, (a t i * pt i ^ 2 + b t i * pt i + c t i)) := by
  rw [C94_cubic r e pt v hv fuel hf k]
  congr 1
  simp only [hq, Finset.sum_mul]
  rw [Finset.sum_comm]
  apply Finset.sum_congr rfl
  intro t _
  simp only [← Finset.prod_mul_distrib]
  have hps := Finset.prod_univ_sum (fun _ => Finset.univ) (fun (i : Fin M) (j : Fin 4) =>
      (a t i * ((tap (fun i => trunc (pt i)) (fun _ => j) i : ℤ) : K) ^ 2
        + b t i * ((tap (fun i => trunc (pt i)) (fun _ => j) i : ℤ) : K) + c t i)
        * Util.catmullRom (pt i - trunc (pt i)) j)
  rw [Fintype.piFinset_univ] at hps
  refine Eq.trans hps.symm ?_
  apply Finset.prod_congr rfl
  intro i _
  rw [Fin.sum_univ_four]
  simp only [tap, Util.catmullRom, Fin.val_zero, Fin.val_one, Fin.val_two,
    show ((3 : Fin 4) : ℕ) = 3 from rfl]
  push_cast
  generalize (trunc (pt i) : K) = g
  ring

/-- **C94.** At a grid point (integer position) cubic sampling returns the discrete sample
there, whatever the neighbouring samples. -/
theorem C94_grid [NeZero M] (r : Raster K K M ch) (e : Edge) (q : Fin M → ℤ)
    (v : (Fin M → ℤ) → Fin ch → K)
    (hv : ∀ d, r.sampleDiscrete e (tap q d) = some (v (tap q d)))
    (fuel : ℕ) (hf : 4 ^ M < fuel) (k : Fin ch) :
    r.sampleCubic e fuel (fun i => (q i : K)) k = some (v q k) := by
  have ht : (fun i => trunc ((q i : ℤ) : K)) = q := by
    funext i; unfold trunc; split_ifs <;> simp
  rw [C94_cubic r e _ v (by rw [ht]; exact hv) fuel hf k, ht]
  congr 1
  rw [Finset.sum_eq_single (fun _ => (1 : Fin 4))]
  · have h1 : tap q (fun _ => (1 : Fin 4)) = q := by funext i; simp [tap]
    rw [h1, Finset.prod_eq_one, mul_one]
    intro i _
    rw [congrFun ht i]
    simp [Util.catmullRom]
  · intro d _ hd
    obtain ⟨i, hi⟩ := Function.ne_iff.1 hd
    rw [Finset.prod_eq_zero (Finset.mem_univ i), mul_zero]
    rw [congrFun ht i, sub_self]
    generalize d i = x at hi
    fin_cases x
    · simp [Util.catmullRom]
    · exact absurd rfl hi
    · simp [Util.catmullRom]
    · simp [Util.catmullRom]
  · intro h; exact absurd (Finset.mem_univ _) h

/-- **C94.** In the coordinates of the domain: a raster built over the domain from `lo` to `hi` returns the
sample `q` unchanged at the `q`-th of the `ext` equal divisions of the domain. -/
theorem C94_domain [NeZero M] (ext : Fin M → ℤ) (data : ℤ → K) (abyss : Fin ch → K) (lo hi : Fin M → K)
    (hd : ∀ i, lo i ≠ hi i) (he : ∀ i, 0 < ext i) (e : Edge) (q : Fin M → ℤ)
    (v : (Fin M → ℤ) → Fin ch → K)
    (hv : ∀ d, (Raster.new ext data abyss lo hi).sampleDiscrete e (tap q d) = some (v (tap q d)))
    (fuel : ℕ) (hf : 4 ^ M < fuel) (k : Fin ch) :
    (Raster.new ext data abyss lo hi).cubic e fuel
      (fun i => lo i + (q i : K) / (ext i : K) * (hi i - lo i)) k = some (v q k) := by
  have hp : (Raster.new ext data abyss lo hi).toGridSpace
      (fun i => lo i + (q i : K) / (ext i : K) * (hi i - lo i)) = fun i => (q i : K) := by
    funext i
    have h1 : hi i - lo i ≠ 0 := sub_ne_zero.2 (hd i).symm
    have h2 : (ext i : K) ≠ 0 := by exact_mod_cast (he i).ne'
    simp only [Raster.toGridSpace, Raster.new, add_sub_cancel_left]
    field_simp
  unfold Raster.cubic
  rw [hp]
  exact C94_grid _ e q v hv fuel hf k

/-- **C94.** Neighbouring cells agree on their common face: the blend over the cell at `g` with offset 1
along axis `j` is the blend over the next cell with offset 0 along `j`, for all samples and all offsets
along the other axes. -/
theorem C94_join (v : (Fin M → ℤ) → K) (g : Fin M → ℤ) (s : Fin M → K) (j : Fin M) :
    ∑ d : Fin M → Fin 4, v (tap g d) *
      ∏ i, Util.catmullRom (Function.update s j 1 i) (d i) =
    ∑ d : Fin M → Fin 4, v (tap (Function.update g j (g j + 1)) d) *
      ∏ i, Util.catmullRom (Function.update s j 0 i) (d i) := by
  have w1 : ∀ x : Fin 4, Util.catmullRom (1 : K) x = if x = 2 then 1 else 0 := by
    intro x; fin_cases x <;> norm_num [Util.catmullRom, Fin.ext_iff]
  have w0 : ∀ x : Fin 4, Util.catmullRom (0 : K) x = if x = 1 then 1 else 0 := by
    intro x; fin_cases x <;> norm_num [Util.catmullRom, Fin.ext_iff]
  have hs : ∀ (u : K) (d : Fin M → Fin 4), ∏ i, Util.catmullRom (Function.update s j u i) (d i) =
      Util.catmullRom u (d j) * ∏ i ∈ Finset.univ.erase j, Util.catmullRom (s i) (d i) := by
    intro u d
    rw [← Finset.mul_prod_erase _ _ (Finset.mem_univ j), Function.update_self]
    congr 1
    apply Finset.prod_congr rfl
    intro i hi
    rw [Function.update_of_ne (Finset.ne_of_mem_erase hi)]
  simp only [hs]
  simp only [w1, w0, ite_mul, one_mul, zero_mul, mul_ite, mul_zero]
  rw [← Finset.sum_filter, ← Finset.sum_filter]
  refine Finset.sum_bij' (fun d _ => Function.update d j 1) (fun d _ => Function.update d j 2)
    ?_ ?_ ?_ ?_ ?_
  · intro d _; simp
  · intro d _; simp
  · intro d hd
    have := (Finset.mem_filter.1 hd).2
    rw [Function.update_idem, ← this, Function.update_eq_self]
  · intro d hd
    have := (Finset.mem_filter.1 hd).2
    rw [Function.update_idem, ← this, Function.update_eq_self]
  · intro d hd
    have hdj := (Finset.mem_filter.1 hd).2
    congr 1
    · congr 1
      funext i
      by_cases h : i = j
      · subst h
        simp only [tap, Function.update_self, hdj]
        norm_num
        omega
      · simp only [tap, Function.update_of_ne h]
    · apply Finset.prod_congr rfl
      intro i hi
      rw [Function.update_of_ne (Finset.ne_of_mem_erase hi)]

/-- **C94, refuted for the run-time dispatched `sample(pt, edge, INTERP_CUBIC)`** (geomc/function/Raster.h:
305-315): it passes the exclusive bound `gridPt + 3` to the inclusive `Rect`, so the copy writes `5^M`
samples into the `4^M` element buffer. -/
theorem C94_dynamic_overrun_refuted [NeZero M] (r : Raster K O M ch) (e : Edge) (g : Fin M → ℤ)
    (v : (Fin M → ℤ) → Fin ch → O)
    (hv : ∀ q, InRegion (fun i => g i - 1) (fun i => g i + 3) q → r.sampleDiscrete e q = some (v q)) :
    ∃ l, r.copy e (fun i => g i - 1) (fun i => g i + 3) (5 ^ M + 1) = some l ∧ l.length = 5 ^ M ∧
      4 ^ M < l.length := by
  have hc : cells (fun i => g i - 1) (fun i => g i + 3) = 5 ^ M := by
    unfold cells
    rw [Finset.prod_congr rfl (g := fun _ => 5) (fun i _ => by ring)]
    simp
  obtain ⟨l, h1, h2, _⟩ := C69_copy r e (fun i => g i - 1) (fun i => g i + 3) (fun i => by omega) v hv
    (5 ^ M + 1) (by rw [hc]; push_cast; omega)
  rw [hc] at h2
  have h2' : l.length = 5 ^ M := by exact_mod_cast h2
  refine ⟨l, h1, h2', ?_⟩
  rw [h2']
  exact Nat.pow_lt_pow_left (by norm_num) (NeZero.ne M)

/-- **C94, refuted as a bound by the data**: unlike linear sampling, the cubic blend leaves the range of
the surrounding samples: midway between two equal samples 0 with neighbours 1 it returns -1/8. -/
theorem C94_range_refuted (n : ℤ) (hn : 4 ≤ n) :
    let r : Raster K K 1 1 := Raster.new (fun _ => n) (fun a => if a = 1 ∨ a = 2 then 0 else 1)
      (fun _ => 0) (fun _ => 0) (fun _ => 1)
    (∀ q : ℤ, ∃ y : K, r.sampleDiscrete .clamp (fun _ => q) = some (fun _ => y) ∧ 0 ≤ y ∧ y ≤ 1) ∧
    r.sampleCubic .clamp 5 (fun _ => 3 / 2) 0 = some (-1 / 8) := by
  intro r
  have hemp : (Finset.univ.filter fun q : Fin 1 => q < 0) = ∅ := by decide
  have hs : ∀ q x : ℤ, 0 ≤ x → x < n → (∀ y, 0 ≤ y → y < n → |q - x| ≤ |q - y|) →
      r.sampleDiscrete .clamp (fun _ => q) = some (fun _ => if x = 1 ∨ x = 2 then 0 else 1) := by
    intro q x h0 h1 h2
    have := lookup_of_rule (fun _ : Fin 1 => n) (fun a => if a = 1 ∨ a = 2 then (0 : K) else 1)
      (fun _ : Fin 1 => (0 : K)) (fun _ => (0 : K)) (fun _ => (1 : K)) .clamp (by decide)
      (fun _ => by simp only [Valid]; omega) (c := fun _ => q) (x := fun _ => x)
      (fun _ => ⟨h0, h1⟩) (fun i y hy hy' => h2 y hy hy')
    refine this.trans ?_
    congr 1
    funext k
    have hk : k = 0 := Subsingleton.elim _ _
    subst hk
    simp [Raster.plain, Raster.new, hemp]
  have hin : ∀ q : ℤ, 0 ≤ q → q < n →
      r.sampleDiscrete .clamp (fun _ => q) = some (fun _ => if q = 1 ∨ q = 2 then 0 else 1) :=
    fun q h0 h1 => hs q q h0 h1 (fun y _ _ => by simp)
  have ht : trunc (3 / 2 : K) = 1 := by
    unfold trunc
    rw [if_pos (by norm_num), Int.floor_eq_iff]
    constructor <;> norm_num
  constructor
  · intro q
    obtain ⟨x, h0, h1, h2⟩ : ∃ x : ℤ, 0 ≤ x ∧ x < n ∧ ∀ y, 0 ≤ y → y < n → |q - x| ≤ |q - y| := by
      by_cases hq : q < 0
      · exact ⟨0, le_refl _, by omega, fun y hy hy' => by
          rw [abs_of_nonpos (by omega), abs_of_nonpos (by omega)]; omega⟩
      · by_cases hq' : q < n
        · exact ⟨q, by omega, hq', fun y _ _ => by simp⟩
        · exact ⟨n - 1, by omega, by omega, fun y hy hy' => by
            rw [abs_of_nonneg (by omega), abs_of_nonneg (by omega)]; omega⟩
    refine ⟨_, hs q x h0 h1 h2, ?_⟩
    split_ifs <;> norm_num
  · rw [C94_cubic r .clamp (fun _ => 3 / 2) (fun q _ => if q 0 = 1 ∨ q 0 = 2 then 0 else 1) (by
      intro d
      have hd := (d 0).2
      have e : tap (fun _ : Fin 1 => trunc (3 / 2 : K)) d = fun _ => ((d 0 : ℕ) : ℤ) := by
        funext i
        have hi : i = 0 := Subsingleton.elim _ _
        subst hi; simp [tap, ht]
      rw [e]
      exact hin _ (by omega) (by omega)) 5 (by norm_num) 0]
    congr 1
    rw [← Equiv.sum_comp (Equiv.funUnique (Fin 1) (Fin 4)).symm]
    rw [Fin.sum_univ_four]
    simp only [tap, ht, Util.catmullRom, Fin.prod_univ_one, Equiv.funUnique_symm_apply,
      uniqueElim_const, Fin.val_zero, Fin.val_one, Fin.val_two, show ((3 : Fin 4) : ℕ) = 3 from rfl]
    norm_num

end

/-- Eight samples of `x²` on a line: the cubic sample at 7/2 is exactly 49/4, the linear one 25/2. -/
example :
    let r : Raster ℚ ℚ 1 1 := Raster.new ![8] (fun a => (a : ℚ) ^ 2) ![0] ![0] ![8]
    r.cubic .clamp 6 ![7 / 2] 0 = some (49 / 4) ∧ r.linear .clamp 6 ![7 / 2] 0 = some (25 / 2) := by
  decide +kernel

/-- A domain from 2 to 4 holding eight samples: position 3 is sample 4. -/
example :
    (Raster.new (ch := 1) ![8] (fun a => (a : ℚ) ^ 2) ![0] ![2] ![4]).cubic .clamp 6 ![3] 0 =
      some 16 := by
  decide +kernel

end Geomc.Rast
