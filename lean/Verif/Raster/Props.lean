import Verif.Raster.Lemmas

/-! # Properties C22, C23 and C69: rasters -/

namespace Geomc.Rast

open Grid (InRegion cells ordinal)

variable {M ch : ℕ} {K O : Type}

/-- The sample stored for grid point `x`: `ch` items starting at `ch` times its position, with the
first axis consecutive. -/
def Raster.plain (r : Raster K O M ch) (x : Fin M → ℤ) : Fin ch → O :=
  fun k => r.data ((∑ i, x i * ∏ j ∈ Finset.univ.filter (· < i), r.ext j) * ch + k)

/-! ## C22 -/

theorem read_place (r : Raster K O M ch) (hsz : r.size = (∏ i, r.ext i) * ch) (x : Fin M → ℤ)
    (hx : ∀ i, 0 ≤ x i ∧ x i < r.ext i) :
    r.readAt (place r.ext x * ch) = some (r.plain x) := by
  obtain ⟨h0, h1⟩ := place_lt r.ext x hx
  unfold Raster.readAt
  rw [if_pos]
  · rfl
  · refine ⟨by positivity, ?_⟩
    rw [hsz]
    have : (0 : ℤ) ≤ ch := by positivity
    nlinarith

/-- **C22.** For every dimension, channel count, extents the edge rule accepts and integer coordinate,
lookup succeeds (reads inside the array) and returns the sample stored for the one in-range coordinate
chosen by the edge rule: the nearest one (clamp), the congruent one modulo the extent (periodic), the one
congruent up to sign modulo twice extent minus one (mirror). -/
theorem C22_lookup (ext : Fin M → ℤ) (data : ℤ → O) (abyss : Fin ch → O) (lo hi : Fin M → K) (e : Edge)
    (he : e ≠ .constant) (hv : ∀ i, Valid e (ext i)) (c : Fin M → ℤ) :
    let r := Raster.new ext data abyss lo hi
    ∃ x : Fin M → ℤ, (∀ i, 0 ≤ x i ∧ x i < ext i) ∧ (∀ i, Rule e (ext i) (c i) (x i)) ∧
      (∀ y : Fin M → ℤ, (∀ i, 0 ≤ y i ∧ y i < ext i) → (∀ i, Rule e (ext i) (c i) (y i)) → y = x) ∧
      r.sampleDiscrete e c = some (r.plain x) := by
  intro r
  choose x hx h0 h1 h2 using fun i => coord_spec e (ext i) (c i) he (hv i)
  refine ⟨x, fun i => ⟨h0 i, h1 i⟩, h2, ?_, ?_⟩
  · intro y hy hr
    funext i
    exact (hr i).unique (hv i) (h2 i) (hy i).1 (hy i).2 (h0 i) (h1 i)
  · unfold Raster.sampleDiscrete
    rw [if_neg he]
    unfold Raster.index
    rw [show gridIndex e r.ext c = _ from gridIndex_spec e ext c x hx]
    exact read_place r (by simp [r, Raster.new, arrayProduct_eq]) x fun i => ⟨h0 i, h1 i⟩

theorem lookup_of_rule (ext : Fin M → ℤ) (data : ℤ → O) (abyss : Fin ch → O) (lo hi : Fin M → K)
    (e : Edge) (he : e ≠ .constant) (hv : ∀ i, Valid e (ext i)) (c x : Fin M → ℤ)
    (hx : ∀ i, 0 ≤ x i ∧ x i < ext i) (hr : ∀ i, Rule e (ext i) (c i) (x i)) :
    (Raster.new ext data abyss lo hi).sampleDiscrete e c =
      some ((Raster.new ext data abyss lo hi).plain x) := by
  obtain ⟨y, _, _, h3, h4⟩ := C22_lookup ext data abyss lo hi e he hv c
  rw [h4, h3 x hx hr]

/-- **C22.** Inside the raster every edge behaviour returns the plain sample, and `EDGE_CONSTANT` returns
the background value exactly outside. -/
theorem C22_inside (ext : Fin M → ℤ) (data : ℤ → O) (abyss : Fin ch → O) (lo hi : Fin M → K) (e : Edge)
    (hv : ∀ i, Valid e (ext i)) (c : Fin M → ℤ) :
    let r := Raster.new ext data abyss lo hi
    ((∀ i, 0 ≤ c i ∧ c i < ext i) → r.sampleDiscrete e c = some (r.plain c)) ∧
    (¬ (∀ i, 0 ≤ c i ∧ c i < ext i) → r.sampleDiscrete .constant c = some abyss) := by
  intro r
  constructor
  · intro hc
    by_cases he : e = .constant
    · subst he
      unfold Raster.sampleDiscrete
      rw [if_pos rfl, if_pos ((contains_iff r c).2 hc)]
      unfold Raster.index
      rw [show gridIndex .constant r.ext c = _ from gridIndex_spec .constant ext c c (fun _ => rfl)]
      exact read_place r (by simp [r, Raster.new, arrayProduct_eq]) c hc
    · apply lookup_of_rule ext data abyss lo hi e he hv c c hc
      intro i
      cases e with
      | clamp => intro y _ _; rw [sub_self, abs_zero]; exact abs_nonneg _
      | periodic => simp [Rule]
      | mirror => simp [Rule]
      | constant => exact absurd rfl he
  · intro hc
    unfold Raster.sampleDiscrete
    rw [if_pos rfl, if_neg]
    · rfl
    · rw [contains_iff]; exact hc

/-- **C22.** Periodic lookup is periodic with period the extent along each axis; mirrored lookup is even
and has period twice extent minus one along each axis. -/
theorem C22_period (ext : Fin M → ℤ) (data : ℤ → O) (abyss : Fin ch → O) (lo hi : Fin M → K)
    (c t : Fin M → ℤ) :
    let r := Raster.new ext data abyss lo hi
    ((∀ i, 0 < ext i) →
      r.sampleDiscrete .periodic (fun i => c i + t i * ext i) = r.sampleDiscrete .periodic c) ∧
    ((∀ i, 1 < ext i) → ∀ s : Fin M → ℤ, (∀ i, s i = 1 ∨ s i = -1) →
      r.sampleDiscrete .mirror (fun i => s i * c i + t i * (2 * (ext i - 1))) =
        r.sampleDiscrete .mirror c) := by
  intro r
  constructor
  · intro h
    obtain ⟨x, h1, h2, _, h4⟩ := C22_lookup ext data abyss lo hi .periodic (by decide) h c
    rw [h4]
    apply lookup_of_rule ext data abyss lo hi .periodic (by decide) h _ x h1
    intro i
    have := h2 i
    simp only [Rule] at this ⊢
    rw [show c i + t i * ext i - x i = (c i - x i) + t i * ext i by ring]
    exact dvd_add this (dvd_mul_left _ _)
  · intro h s hs
    obtain ⟨x, h1, h2, _, h4⟩ := C22_lookup ext data abyss lo hi .mirror (by decide) h c
    rw [h4]
    apply lookup_of_rule ext data abyss lo hi .mirror (by decide) h _ x h1
    intro i
    have := h2 i
    simp only [Rule] at this ⊢
    have hd : 2 * (ext i - 1) ∣ t i * (2 * (ext i - 1)) := dvd_mul_left _ _
    rcases hs i with e | e <;> rw [e] <;> rcases this with q | q
    · left; have := dvd_add q hd; rwa [show c i - x i + t i * (2 * (ext i - 1)) =
        1 * c i + t i * (2 * (ext i - 1)) - x i by ring] at this
    · right; have := dvd_add q hd; rwa [show c i + x i + t i * (2 * (ext i - 1)) =
        1 * c i + t i * (2 * (ext i - 1)) + x i by ring] at this
    · right; have := dvd_sub hd q; rwa [show t i * (2 * (ext i - 1)) - (c i - x i) =
        -1 * c i + t i * (2 * (ext i - 1)) + x i by ring] at this
    · left; have := dvd_sub hd q; rwa [show t i * (2 * (ext i - 1)) - (c i + x i) =
        -1 * c i + t i * (2 * (ext i - 1)) - x i by ring] at this

/-- **C22.** Distinct in-range coordinates own disjoint parts of the array: after `set(c, v)` the sample
at `c` is `v` and the sample at every other in-range coordinate is unchanged; a `set` outside the raster
changes nothing. -/
theorem C22_set (ext : Fin M → ℤ) (data : ℤ → O) (abyss : Fin ch → O) (lo hi : Fin M → K)
    (c : Fin M → ℤ) (v : Fin ch → O) :
    let r := Raster.new ext data abyss lo hi
    ((∀ i, 0 ≤ c i ∧ c i < ext i) → ∃ r', r.set c v = some r' ∧ r'.plain c = v ∧
      (∀ d : Fin M → ℤ, (∀ i, 0 ≤ d i ∧ d i < ext i) → d ≠ c → r'.plain d = r.plain d) ∧
      r'.ext = r.ext ∧ r'.size = r.size ∧ r'.abyss = r.abyss ∧ r'.lo = r.lo ∧ r'.hi = r.hi) ∧
    (¬ (∀ i, 0 ≤ c i ∧ c i < ext i) → r.set c v = some r) := by
  intro r
  constructor
  · intro hc
    have hp := place_lt ext c hc
    have hsz : r.size = (∏ i, ext i) * ch := by simp [r, Raster.new, arrayProduct_eq]
    have hch : (0 : ℤ) ≤ ch := by positivity
    refine ⟨{ r with data := writeAt r.data (place ext c * ch) v }, ?_, ?_, ?_, rfl, rfl, rfl, rfl, rfl⟩
    · unfold Raster.set
      rw [if_pos ((contains_iff r c).2 hc)]
      unfold Raster.index
      rw [show gridIndex .constant r.ext c = _ from gridIndex_spec .constant ext c c (fun _ => rfl)]
      simp only [Option.bind_eq_bind, Option.bind_some]
      rw [if_pos ⟨by have := hp.1; positivity, by rw [hsz]; nlinarith [hp.2]⟩]
    · funext k
      have hk := k.2
      show writeAt r.data (place ext c * ch) v (place ext c * ch + k) = v k
      unfold writeAt
      rw [dif_pos ⟨by omega, by omega⟩]
      congr 1
      apply Fin.ext
      simp
    · intro d hd hne
      funext k
      have hk := k.2
      show writeAt r.data (place ext c * ch) v (place ext d * ch + k) = r.data (place ext d * ch + k)
      unfold writeAt
      rw [dif_neg]
      intro hcon
      have hpne : place ext d ≠ place ext c := fun h => hne (place_inj ext d c hd hc h)
      rcases lt_or_gt_of_ne hpne with h | h
      · have : (place ext d + 1) * ch ≤ place ext c * ch := mul_le_mul_of_nonneg_right (by omega) hch
        nlinarith [hcon.1]
      · have : (place ext c + 1) * ch ≤ place ext d * ch := mul_le_mul_of_nonneg_right (by omega) hch
        nlinarith [hcon.2]
  · intro hc
    unfold Raster.set
    rw [if_neg]
    rw [contains_iff]; exact hc

/-- **C22, refuted for mirrored lookup when some axis has a single sample**: the code divides by
`extent - 1 = 0`, whatever the coordinate. -/
theorem C22_mirror_extent_one_refuted (ext : Fin M → ℤ) (data : ℤ → O) (abyss : Fin ch → O)
    (lo hi : Fin M → K) (c : Fin M → ℤ) (h : ∃ i, ext i = 1) :
    (Raster.new ext data abyss lo hi).sampleDiscrete .mirror c = none := by
  have key : ∀ (is : List (Fin M)) (st : ℤ × ℤ), (∃ i ∈ is, ext i = 1) →
      is.foldlM (fun (st : ℤ × ℤ) (i : Fin M) => do
        let x ← coord .mirror (c i) (ext i)
        some (st.1 + x * st.2, st.2 * ext i)) st = none := by
    intro is
    induction is with
    | nil => intro st h; simp at h
    | cons i is ih =>
      intro st hex
      rw [List.foldlM_cons]
      by_cases h1 : ext i = 1
      · simp [coord, h1]
      · obtain ⟨j, hj, hj1⟩ := hex
        rcases List.mem_cons.1 hj with e | e
        · subst e; exact absurd hj1 h1
        · cases hco : coord .mirror (c i) (ext i) with
          | none => simp
          | some x =>
            have := ih (st.1 + x * st.2, st.2 * ext i) ⟨j, e, hj1⟩
            simpa using this
  obtain ⟨i, hi1⟩ := h
  unfold Raster.sampleDiscrete Raster.index gridIndex
  rw [if_neg (by decide)]
  have := key (List.finRange M) (0, 1) ⟨i, List.mem_finRange i, hi1⟩
  simp only [Raster.new]
  rw [this]
  rfl

/-- A 3×2 raster with two channels. -/
def demo : Raster ℚ ℤ 2 2 := Raster.new ![3, 2] (fun a => 10 * a) ![-1, -2] ![0, 0] ![2, 1]

example : (demo.sampleDiscrete .clamp ![7, -4]).map (fun f => (f 0, f 1)) = some (40, 50) := by decide
example : (demo.sampleDiscrete .periodic ![-1, 5]).map (fun f => (f 0, f 1)) = some (100, 110) := by
  decide
example : (demo.sampleDiscrete .mirror ![-1, 3]).map (fun f => (f 0, f 1)) = some (80, 90) := by decide
example : (demo.sampleDiscrete .mirror ![3, 0]).map (fun f => (f 0, f 1)) = some (20, 30) := by decide
example : (demo.sampleDiscrete .constant ![3, 0]).map (fun f => (f 0, f 1)) = some (-1, -2) := by decide
example : ((demo.set ![1, 1] ![7, 8]).bind fun r => (r.sampleDiscrete .clamp ![1, 9])).map
    (fun f => (f 0, f 1)) = some (7, 8) := by decide

/-! ## C23 -/

section
variable [Field K] [LinearOrder K] [IsStrictOrderedRing K] [FloorRing K]

theorem trunc_int (n : ℤ) : trunc (n : K) = n := by
  unfold trunc; split_ifs <;> simp

theorem trunc_half (n : ℤ) (h : 0 ≤ n) : trunc ((n : K) + 1 / 2) = n := by
  have h' : (0 : K) ≤ n := by exact_mod_cast h
  unfold trunc
  rw [if_pos (by positivity), Int.floor_eq_iff]
  constructor <;> linarith

/-- **C23, refuted.** For every raster and non-degenerate domain the low corner is mapped to grid
coordinate 0, but the high corner to `extent`, one past the last sample.  As a result nearest sampling at
the high corner returns the *first* sample with periodic edges and the background with constant edges. -/
theorem C23_high_corner_refuted (ext : Fin M → ℤ) (data : ℤ → O) (abyss : Fin ch → O) (lo hi : Fin M → K)
    (hd : ∀ i, lo i ≠ hi i) (he : ∀ i, 0 < ext i) :
    let r := Raster.new ext data abyss lo hi
    (∀ i, r.toGridSpace lo i = 0) ∧ (∀ i, r.toGridSpace hi i = ext i) ∧
    r.nearest .periodic hi = some (r.plain fun _ => 0) ∧
    (0 < M → r.nearest .constant hi = some abyss) := by
  intro r
  have hlo : ∀ i, r.toGridSpace lo i = 0 := by intro i; simp [Raster.toGridSpace, r, Raster.new]
  have hhi : ∀ i, r.toGridSpace hi i = ext i := by
    intro i
    have : hi i - lo i ≠ 0 := sub_ne_zero.2 (hd i).symm
    simp [Raster.toGridSpace, r, Raster.new, div_self this]
  have hn : (fun i => trunc (r.toGridSpace hi i + 1 / 2)) = ext := by
    funext i; rw [hhi]; exact trunc_half _ (he i).le
  refine ⟨hlo, hhi, ?_, ?_⟩
  · unfold Raster.nearest Raster.sampleNearest
    rw [hn]
    apply lookup_of_rule ext data abyss lo hi .periodic (by decide) he
    · intro i; exact ⟨le_refl _, he i⟩
    · intro i; simp [Rule]
  · intro hM
    unfold Raster.nearest Raster.sampleNearest
    rw [hn]
    refine (C22_inside ext data abyss lo hi .constant he ext).2 ?_
    intro h
    exact absurd (h ⟨0, hM⟩).2 (lt_irrefl _)

/-- **C23, refuted.** With the default domain `[0, extent - 1]`, documented as making sample coordinates
equal grid coordinates, the grid coordinate of `x` is `x + x / (extent - 1)`. -/
theorem C23_default_domain_refuted (ext : Fin M → ℤ) (data : ℤ → O) (abyss : Fin ch → O)
    (he : ∀ i, 1 < ext i) (x : Fin M → K) (i : Fin M) :
    (Raster.new ext data abyss (fun _ => 0) (fun i => (ext i : K) - 1)).toGridSpace x i =
      x i + x i / ((ext i : K) - 1) := by
  have h : (1 : K) < ext i := by exact_mod_cast he i
  have h' : (ext i : K) - 1 ≠ 0 := by linarith
  simp only [Raster.toGridSpace, Raster.new, sub_zero]
  field_simp
  ring

/-- **C23, partial.** Nearest sampling at the low corner gives the first sample for every edge
behaviour, and at the high corner the last sample with clamped edges (the default).
Missing: the high corner with the other edge behaviours, refuted above. -/
theorem C23_partial (ext : Fin M → ℤ) (data : ℤ → O) (abyss : Fin ch → O) (lo hi : Fin M → K)
    (hd : ∀ i, lo i ≠ hi i) (e : Edge) (he : ∀ i, Valid e (ext i)) :
    let r := Raster.new ext data abyss lo hi
    r.nearest e lo = some (r.plain fun _ => 0) ∧
    r.nearest .clamp hi = some (r.plain fun i => ext i - 1) := by
  intro r
  have hpos : ∀ i, 0 < ext i := fun i => (he i).pos
  obtain ⟨hlo, hhi, _, _⟩ := C23_high_corner_refuted ext data abyss lo hi hd hpos
  constructor
  · unfold Raster.nearest Raster.sampleNearest
    have hn : (fun i => trunc (r.toGridSpace lo i + 1 / 2)) = fun _ => (0 : ℤ) := by
      funext i
      rw [show r.toGridSpace lo i = 0 from hlo i]
      have := trunc_half (K := K) 0 (le_refl _)
      simpa using this
    rw [hn]
    exact (C22_inside ext data abyss lo hi e he _).1 fun i => ⟨le_refl _, hpos i⟩
  · unfold Raster.nearest Raster.sampleNearest
    have hn : (fun i => trunc (r.toGridSpace hi i + 1 / 2)) = ext := by
      funext i
      rw [show r.toGridSpace hi i = _ from hhi i]
      exact trunc_half _ (hpos i).le
    rw [hn]
    apply lookup_of_rule ext data abyss lo hi .clamp (by decide) hpos
    · intro i; have := hpos i; constructor <;> omega
    · intro i y _ hy
      rw [abs_of_nonneg (by omega), abs_of_nonneg (by omega)]; omega

example : (demo.toGridSpace ![2, 1] 0, demo.toGridSpace ![2, 1] 1) = (3, 2) := by
  norm_num [demo, Raster.toGridSpace, Raster.new]

/-! ## C69 -/

/-- `copy<Edge>` over a non-empty region terminates and writes, for every cell of the region, the
discrete sample of that cell at the position given by the cell's place in first-axis-consecutive order,
and nothing else. -/
theorem C69_copy [NeZero M] (r : Raster K O M ch) (e : Edge) (lo hi : Fin M → ℤ)
    (hne : ∀ i, lo i ≤ hi i) (v : (Fin M → ℤ) → Fin ch → O)
    (hv : ∀ q, InRegion lo hi q → r.sampleDiscrete e q = some (v q)) (fuel : ℕ)
    (hf : cells lo hi < fuel) :
    ∃ l, r.copy e lo hi fuel = some l ∧ (l.length : ℤ) = cells lo hi ∧
      ∀ q, InRegion lo hi q → l[(ordinal true lo hi q).toNat]? = some (v q) := by
  obtain ⟨h1, h2, h3, _⟩ := Grid.C19_enumerates true lo hi hne
  set it := fun n : ℕ => (Grid.increment true lo hi)^[n] (Grid.begin' lo) with hit
  have hc0 : 0 ≤ cells lo hi := by
    obtain ⟨a, b, _⟩ := h3 lo (fun i => ⟨le_refl _, hne i⟩)
    omega
  have loop : ∀ (d n f : ℕ), (n : ℤ) + d = cells lo hi → d < f →
      r.copyLoop e lo hi f (it n) = some ((List.range' n d).map fun j => v (it j)) := by
    intro d
    induction d with
    | zero =>
      intro n f hn hf
      obtain ⟨f, rfl⟩ : ∃ g, f = g + 1 := ⟨f - 1, by omega⟩
      have : it n = Grid.end' true lo hi := by
        rw [← h2]; show it n = it _
        congr 1; omega
      rw [Raster.copyLoop, if_pos this]; rfl
    | succ d ih =>
      intro n f hn hf
      obtain ⟨f, rfl⟩ : ∃ g, f = g + 1 := ⟨f - 1, by omega⟩
      obtain ⟨a, b⟩ := h1 n (by push_cast at hn; omega)
      rw [Raster.copyLoop, if_neg b, hv _ a]
      have hs : Grid.increment true lo hi (it n) = it (n + 1) := by
        simp only [hit, Function.iterate_succ_apply']
      simp only [Option.bind_eq_bind, Option.bind_some]
      rw [hs, ih (n + 1) f (by push_cast at hn ⊢; omega) (by omega)]
      rfl
  refine ⟨_, loop (cells lo hi).toNat 0 fuel (by simp; omega) (by omega), by simp; omega, ?_⟩
  intro q hq
  obtain ⟨a, b, c⟩ := h3 q hq
  rw [List.getElem?_map, List.getElem?_range' (by omega)]
  simp only [Nat.one_mul, Nat.zero_add, Option.map_some]
  have : it (ordinal true lo hi q).toNat = q := (c _).2 (by omega)
  rw [this]

/-- Corner number `c` of the grid cell at `g`: bit `i` of `c` selects the upper side along axis `i`. -/
def corner (g : Fin M → ℤ) (c : ℕ) : Fin M → ℤ := fun i => g i + if c.testBit i then 1 else 0

theorem sum_bits (n c : ℕ) (h : c < 2 ^ n) :
    ∑ i : Fin n, (if c.testBit i then (1 : ℤ) else 0) * 2 ^ (i : ℕ) = c := by
  rw [Fin.sum_univ_eq_sum_range (fun i => (if c.testBit i then (1 : ℤ) else 0) * 2 ^ i)]
  have : ∀ n, ∑ i ∈ Finset.range n, (if c.testBit i then (1 : ℤ) else 0) * 2 ^ i = (c % 2 ^ n : ℕ) := by
    intro n
    induction n with
    | zero => simp [Nat.mod_one]
    | succ n ih =>
      rw [Finset.sum_range_succ, ih, Nat.mod_pow_succ, ← Nat.toNat_testBit]
      cases c.testBit n <;> simp
  rw [this, Nat.mod_eq_of_lt h]

theorem ordinal_corner (g : Fin M → ℤ) (c : ℕ) (hc : c < 2 ^ M) :
    ordinal true g (fun i => g i + 1) (corner g c) = c := by
  rw [← sum_bits M c hc]
  unfold ordinal corner
  apply Finset.sum_congr rfl
  intro i _
  have h1 : ∀ j : Fin M, g j + 1 - g j + 1 = 2 := by intro j; ring
  have hp : (Finset.univ.filter fun j : Fin M => j < i).card = i := by
    rw [Finset.filter_gt_eq_Iio, Fin.card_Iio]
  simp [h1, hp]

theorem cells_two (g : Fin M → ℤ) : cells g (fun i => g i + 1) = 2 ^ M := by
  unfold cells
  rw [Finset.prod_congr rfl (g := fun _ => 2) (fun i _ => by ring)]
  simp

/-- **C69.** Linear sampling at grid position `pt` returns the multilinear blend, with the fractional
offsets as weights, of the `2^M` discrete samples around `pt`, for every dimension, channel and edge
behaviour. `v q` is the discrete sample at `q`. -/
theorem C69_linear [NeZero M] (r : Raster K K M ch) (e : Edge) (pt : Fin M → K)
    (v : (Fin M → ℤ) → Fin ch → K)
    (hv : ∀ c < 2 ^ M, r.sampleDiscrete e (corner (fun i => trunc (pt i)) c) =
      some (v (corner (fun i => trunc (pt i)) c)))
    (fuel : ℕ) (hf : 2 ^ M < fuel) (k : Fin ch) :
    r.sampleLinear e fuel pt k = some (∑ c ∈ Finset.range (2 ^ M),
      v (corner (fun i => trunc (pt i)) c) k *
        ∏ i : Fin M, if c.testBit i then pt i - trunc (pt i) else 1 - (pt i - trunc (pt i))) := by
  set g : Fin M → ℤ := fun i => trunc (pt i) with hg
  have hcor : ∀ q, InRegion g (fun i => g i + 1) q → ∃ c < 2 ^ M, q = corner g c := by
    intro q hq
    obtain ⟨_, _, h3, _⟩ := Grid.C19_enumerates true g (fun i => g i + 1) (fun i => by omega)
    obtain ⟨a, b, c⟩ := h3 q hq
    have hlt : (ordinal true g (fun i => g i + 1) q).toNat < 2 ^ M := by
      rw [cells_two] at b
      have : ((ordinal true g (fun i => g i + 1) q).toNat : ℤ) < ((2 ^ M : ℕ) : ℤ) := by
        push_cast; omega
      exact_mod_cast this
    refine ⟨_, hlt, ?_⟩
    have hin : InRegion g (fun i => g i + 1) (corner g (ordinal true g (fun i => g i + 1) q).toNat) := by
      intro i; simp only [corner]; split_ifs <;> constructor <;> omega
    obtain ⟨_, _, c'⟩ := h3 _ hin
    have e1 := (c _).2 (show (((ordinal true g (fun i => g i + 1) q).toNat : ℕ) : ℤ) = _ by omega)
    have e2 := (c' _).2 (ordinal_corner g _ hlt).symm
    exact e1.symm.trans e2
  obtain ⟨l, h1, h2, h3⟩ := C69_copy r e g (fun i => g i + 1) (fun i => by omega) v
    (by intro q hq; obtain ⟨c, hc, rfl⟩ := hcor q hq; exact hv c hc) fuel
    (by rw [cells_two]; exact_mod_cast hf)
  unfold Raster.sampleLinear
  simp only [Option.bind_eq_bind]
  rw [show r.copy e (fun i => trunc (pt i)) (fun i => trunc (pt i) + 1) fuel = some l from h1,
    Option.bind_some]
  obtain ⟨n, rfl⟩ : ∃ n, M = n + 1 := ⟨M - 1, by have := Nat.pos_of_neZero M; omega⟩
  rw [Util.C04_multilinear]
  congr 1
  apply Finset.sum_congr rfl
  intro c hc
  have hc' := Finset.mem_range.1 hc
  have hin : InRegion g (fun i => g i + 1) (corner g c) := by
    intro i; simp only [corner]; split_ifs <;> constructor <;> omega
  have hl := h3 _ hin
  rw [ordinal_corner g c hc'] at hl
  simp only [Int.toNat_natCast] at hl
  rw [hl]
  simp only [Option.map_some, Option.getD_some]
  congr 1
  rw [← Fin.prod_univ_eq_prod_range
    (fun i => if c.testBit i then (if h : i < n + 1 then pt ⟨i, h⟩ - (trunc (pt ⟨i, h⟩) : K) else 0)
      else 1 - (if h : i < n + 1 then pt ⟨i, h⟩ - (trunc (pt ⟨i, h⟩) : K) else 0))]
  apply Finset.prod_congr rfl
  intro i _
  simp [i.2]

/-- **C69.** At nonnegative grid positions nearest sampling picks a grid point within one half along every
axis, and the linear blend weights are nonnegative and add up to one, so that the result lies between the
smallest and the largest of the surrounding samples. -/
theorem C69_range [NeZero M] (r : Raster K K M ch) (e : Edge) (pt : Fin M → K) (hpt : ∀ i, 0 ≤ pt i)
    (v : (Fin M → ℤ) → Fin ch → K)
    (hv : ∀ c < 2 ^ M, r.sampleDiscrete e (corner (fun i => ⌊pt i⌋) c) =
      some (v (corner (fun i => ⌊pt i⌋) c)))
    (fuel : ℕ) (hf : 2 ^ M < fuel) (k : Fin ch) (a b : K)
    (hab : ∀ c < 2 ^ M, a ≤ v (corner (fun i => ⌊pt i⌋) c) k ∧ v (corner (fun i => ⌊pt i⌋) c) k ≤ b) :
    (∃ y, r.sampleLinear e fuel pt k = some y ∧ a ≤ y ∧ y ≤ b) ∧
    (∃ q : Fin M → ℤ, r.sampleNearest e pt = r.sampleDiscrete e q ∧ ∀ i, |pt i - q i| ≤ 1 / 2) := by
  have ht : ∀ i, trunc (pt i) = ⌊pt i⌋ := fun i => if_pos (hpt i)
  constructor
  · refine ⟨_, C69_linear r e pt v (by simpa only [ht] using hv) fuel hf k, ?_⟩
    simp only [ht]
    obtain ⟨n, rfl⟩ : ∃ n, M = n + 1 := ⟨M - 1, by have := Nat.pos_of_neZero M; omega⟩
    have key := Util.C04_range n (fun c => v (corner (fun i => ⌊pt i⌋) c) k)
      (fun i => if h : i < n + 1 then pt ⟨i, h⟩ - (⌊pt ⟨i, h⟩⌋ : K) else 0) a b
      (by
        intro i hi
        simp only [hi, dif_pos]
        exact ⟨by linarith [Int.floor_le (pt ⟨i, hi⟩)], by linarith [Int.lt_floor_add_one (pt ⟨i, hi⟩)]⟩)
      hab
    rw [Util.C04_multilinear] at key
    have e : ∀ c ∈ Finset.range (2 ^ (n + 1)),
        v (corner (fun i => ⌊pt i⌋) c) k *
          ∏ i ∈ Finset.range (n + 1), (if c.testBit i = true then
            (if h : i < n + 1 then pt ⟨i, h⟩ - (⌊pt ⟨i, h⟩⌋ : K) else 0)
            else 1 - (if h : i < n + 1 then pt ⟨i, h⟩ - (⌊pt ⟨i, h⟩⌋ : K) else 0)) =
        v (corner (fun i => ⌊pt i⌋) c) k *
          ∏ i : Fin (n + 1), (if c.testBit i then pt i - ⌊pt i⌋ else 1 - (pt i - ⌊pt i⌋)) := by
      intro c _
      congr 1
      rw [← Fin.prod_univ_eq_prod_range
        (fun i => if c.testBit i = true then
            (if h : i < n + 1 then pt ⟨i, h⟩ - (⌊pt ⟨i, h⟩⌋ : K) else 0)
            else 1 - (if h : i < n + 1 then pt ⟨i, h⟩ - (⌊pt ⟨i, h⟩⌋ : K) else 0))]
      apply Finset.prod_congr rfl
      intro i _
      simp [i.2]
    rw [Finset.sum_congr rfl e] at key
    exact key
  · refine ⟨_, rfl, ?_⟩
    intro i
    have h0 : (0 : K) ≤ pt i + 1 / 2 := by have := hpt i; positivity
    rw [show trunc (pt i + 1 / 2) = ⌊pt i + 1 / 2⌋ from if_pos h0, abs_le]
    have h1 := Int.floor_le (pt i + 1 / 2)
    have h2 := Int.lt_floor_add_one (pt i + 1 / 2)
    constructor <;> linarith

/-- **C69.** In the coordinates of the domain: at the `x`-th of the `ext` equal divisions of the domain from
`lo` to `hi`, linear sampling blends the corners of the grid cell of `x`, and nearest sampling returns the
sample at `x` rounded. -/
theorem C69_domain [NeZero M] (ext : Fin M → ℤ) (data : ℤ → K) (abyss : Fin ch → K) (lo hi : Fin M → K)
    (hd : ∀ i, lo i ≠ hi i) (he : ∀ i, 0 < ext i) (e : Edge) (x : Fin M → K) (hx : ∀ i, 0 ≤ x i)
    (v : (Fin M → ℤ) → Fin ch → K)
    (hv : ∀ c < 2 ^ M, (Raster.new ext data abyss lo hi).sampleDiscrete e (corner (fun i => ⌊x i⌋) c) =
      some (v (corner (fun i => ⌊x i⌋) c)))
    (fuel : ℕ) (hf : 2 ^ M < fuel) (k : Fin ch) :
    (Raster.new ext data abyss lo hi).linear e fuel
        (fun i => lo i + x i / (ext i : K) * (hi i - lo i)) k =
      some (∑ c ∈ Finset.range (2 ^ M), v (corner (fun i => ⌊x i⌋) c) k *
        ∏ i : Fin M, if c.testBit i then x i - ⌊x i⌋ else 1 - (x i - ⌊x i⌋)) ∧
    (Raster.new ext data abyss lo hi).nearest e (fun i => lo i + x i / (ext i : K) * (hi i - lo i)) =
      (Raster.new ext data abyss lo hi).sampleDiscrete e fun i => ⌊x i + 1 / 2⌋ := by
  have hp : (Raster.new ext data abyss lo hi).toGridSpace
      (fun i => lo i + x i / (ext i : K) * (hi i - lo i)) = x := by
    funext i
    have h1 : hi i - lo i ≠ 0 := sub_ne_zero.2 (hd i).symm
    have h2 : (ext i : K) ≠ 0 := by exact_mod_cast (he i).ne'
    simp only [Raster.toGridSpace, Raster.new, add_sub_cancel_left]
    field_simp
  have ht : ∀ i, trunc (x i) = ⌊x i⌋ := fun i => if_pos (hx i)
  constructor
  · unfold Raster.linear
    rw [hp, C69_linear _ e x v (by simpa only [ht] using hv) fuel hf k]
    simp only [ht]
  · unfold Raster.nearest Raster.sampleNearest
    rw [hp]
    congr 1
    funext i
    exact if_pos (add_nonneg (hx i) (by norm_num))

/-- **C69, refuted for negative grid positions**: the cast truncates towards zero, so between grid
coordinates -1 and 0 of a one dimensional raster linear sampling extrapolates from samples 0 and 1
instead of interpolating samples -1 and 0. With clamped edges the result leaves the range of the data
whenever the first two samples differ. -/
theorem C69_negative_refuted (n : ℤ) (hn : 1 < n) (data : ℤ → K) (x : K) (h1 : -1 < x) (h2 : x < 0) :
    let r : Raster K K 1 1 := Raster.new (fun _ => n) data (fun _ => 0) (fun _ => 0) (fun _ => 1)
    r.sampleLinear .clamp 3 (fun _ => x) 0 = some (data 0 - (data 1 - data 0) * (-x)) := by
  intro r
  have ht : trunc x = 0 := by
    unfold trunc
    rw [if_neg (not_le.2 h2), Int.ceil_eq_iff]
    constructor <;> push_cast <;> linarith
  have hs : ∀ j : ℤ, j = 0 ∨ j = 1 → r.sampleDiscrete .clamp (fun _ => j) = some (fun _ => data j) := by
    intro j hj
    have := (C22_inside (fun _ : Fin 1 => n) data (fun _ : Fin 1 => (0 : K)) (fun _ => (0 : K))
      (fun _ => (1 : K)) .clamp (fun _ => by simp only [Valid]; omega) (fun _ => j)).1
      (fun _ => by omega)
    refine this.trans ?_
    congr 1
    funext k
    have hk : k = 0 := Subsingleton.elim _ _
    subst hk
    have hemp : (Finset.univ.filter fun q : Fin 1 => q < 0) = ∅ := by decide
    simp [Raster.plain, Raster.new, hemp]
  have hc0 : corner (fun _ : Fin 1 => trunc x) 0 = fun _ => 0 := by
    funext i; simp [corner, ht]
  have hc1 : corner (fun _ : Fin 1 => trunc x) 1 = fun _ => 1 := by
    funext i
    have hi : i = 0 := Subsingleton.elim _ _
    subst hi; simp [corner, ht]
  rw [C69_linear r .clamp (fun _ => x) (fun q _ => data (q 0)) (by
    intro c hc
    have : c = 0 ∨ c = 1 := by omega
    rcases this with rfl | rfl
    · rw [hc0]; exact hs 0 (Or.inl rfl)
    · rw [hc1]; exact hs 1 (Or.inr rfl)) 3 (by norm_num) 0]
  rw [show (2 : ℕ) ^ 1 = 2 from rfl, Finset.sum_range_succ, Finset.sum_range_one, hc0, hc1]
  simp only [Fin.prod_univ_one, ht]
  congr 1
  simp
  ring

/-- **C69, refuted for the run-time dispatched `sample(pt, edge, interp)`** (geomc/function/Raster.h:
289-317): it passes the exclusive bound `gridPt + 2` to the inclusive `Rect`, so the copy writes `3^M`
samples into the `2^M` element buffer. -/
theorem C69_dynamic_overrun_refuted [NeZero M] (r : Raster K O M ch) (e : Edge) (g : Fin M → ℤ)
    (v : (Fin M → ℤ) → Fin ch → O)
    (hv : ∀ q, InRegion g (fun i => g i + 2) q → r.sampleDiscrete e q = some (v q)) :
    ∃ l, r.copy e g (fun i => g i + 2) (3 ^ M + 1) = some l ∧ l.length = 3 ^ M ∧ 2 ^ M < l.length := by
  have hc : cells g (fun i => g i + 2) = 3 ^ M := by
    unfold cells
    rw [Finset.prod_congr rfl (g := fun _ => 3) (fun i _ => by ring)]
    simp
  obtain ⟨l, h1, h2, _⟩ := C69_copy r e g (fun i => g i + 2) (fun i => by omega) v hv (3 ^ M + 1)
    (by rw [hc]; push_cast; omega)
  rw [hc] at h2
  have h2' : l.length = 3 ^ M := by exact_mod_cast h2
  refine ⟨l, h1, h2', ?_⟩
  rw [h2']
  exact Nat.pow_lt_pow_left (by norm_num) (NeZero.ne M)

end

example : ((demo.copy .clamp ![2, 0] ![3, 1] 9).map (List.map fun f => f 0)) =
    some [40, 40, 100, 100] := by decide

end Geomc.Rast
