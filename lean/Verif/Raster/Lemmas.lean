import Verif.Raster.Model
import Verif.Grid.Props
import Verif.Util.Props

/-! Auxiliary facts for the raster properties. -/

namespace Geomc.Rast

open Grid (ord dim)

/-- What each edge rule asks of the grid coordinate `x` it maps `c` to. -/
def Rule : Edge → ℤ → ℤ → ℤ → Prop
  | .clamp, ext, c, x => ∀ y, 0 ≤ y → y < ext → |c - x| ≤ |c - y|
  | .periodic, ext, c, x => ext ∣ c - x
  | .mirror, ext, c, x => 2 * (ext - 1) ∣ c - x ∨ 2 * (ext - 1) ∣ c + x
  | .constant, _, c, x => x = c

/-- The extents each edge rule can handle. -/
def Valid : Edge → ℤ → Prop
  | .mirror, ext => 1 < ext
  | _, ext => 0 < ext

theorem Valid.pos {e : Edge} {ext : ℤ} (h : Valid e ext) : 0 < ext := by
  cases e <;> simp only [Valid] at h <;> omega

theorem coord_spec (e : Edge) (ext c : ℤ) (he : e ≠ .constant) (h : Valid e ext) :
    ∃ x, coord e c ext = some x ∧ 0 ≤ x ∧ x < ext ∧ Rule e ext c x := by
  cases e with
  | clamp =>
    simp only [Valid] at h
    refine ⟨_, rfl, by omega, by omega, ?_⟩
    intro y h1 h2
    rcases le_total c 0 with hc | hc
    · rw [min_eq_left (by omega), max_eq_right hc, abs_of_nonpos (by omega), abs_of_nonpos (by omega)]
      omega
    · rcases le_total c (ext - 1) with hd | hd
      · rw [min_eq_left hd, max_eq_left hc, sub_self, abs_zero]; exact abs_nonneg _
      · rw [min_eq_right hd, max_eq_left (by omega), abs_of_nonneg (by omega),
          abs_of_nonneg (by omega)]; omega
  | periodic =>
    simp only [Valid] at h
    have hm1 : -ext < c.tmod ext := by
      have := Int.tmod_lt_of_pos (-c) h
      rw [Int.neg_tmod] at this; omega
    refine ⟨_, by simp only [coord]; rw [if_neg (by omega)], Int.tmod_nonneg _ (by omega),
      Int.tmod_lt_of_pos _ h, ?_⟩
    simp only [Rule]
    have e1 := Int.mul_tdiv_add_tmod c ext
    have e2 := Int.mul_tdiv_add_tmod (c.tmod ext + ext) ext
    refine ⟨c.tdiv ext + (c.tmod ext + ext).tdiv ext - 1, ?_⟩
    linear_combination (-1 : ℤ) * e1 - e2
  | mirror =>
    simp only [Valid] at h
    have hm : 0 < ext - 1 := by omega
    have h0 := abs_nonneg c
    have e1 := Int.mul_tdiv_add_tmod |c| (ext - 1)
    have hi0 := Int.tmod_nonneg (ext - 1) h0
    have hi1 := Int.tmod_lt_of_pos |c| hm
    have hab : |c| = c ∨ |c| = -c := abs_choice c
    refine ⟨_, by simp only [coord]; rw [if_neg (by omega)], ?_, ?_, ?_⟩
    · split_ifs <;> omega
    · split_ifs <;> omega
    · simp only [Rule]
      generalize hq : |c|.tdiv (ext - 1) = q at *
      generalize ht : |c|.tmod (ext - 1) = t at *
      split_ifs with hp
      · obtain ⟨u, hu⟩ : ∃ u, q = 2 * u := ⟨q / 2, by omega⟩
        rcases hab with ha | ha
        · left; exact ⟨u, by rw [ha, hu] at e1; linear_combination -e1⟩
        · right; exact ⟨-u, by rw [ha, hu] at e1; linear_combination e1⟩
      · obtain ⟨u, hu⟩ : ∃ u, q = 2 * u + 1 := ⟨q / 2, by omega⟩
        rcases hab with ha | ha
        · right; exact ⟨u + 1, by rw [ha, hu] at e1; linear_combination -e1⟩
        · left; exact ⟨-u - 1, by rw [ha, hu] at e1; linear_combination e1⟩
  | constant => exact absurd rfl he

/-- The rule and the range determine the coordinate. -/
theorem Rule.unique {e : Edge} {ext c x y : ℤ} (h : Valid e ext) (hx : Rule e ext c x)
    (hy : Rule e ext c y) (x0 : 0 ≤ x) (x1 : x < ext) (y0 : 0 ≤ y) (y1 : y < ext) : x = y := by
  have small : ∀ m d : ℤ, m ∣ d → -m < d → d < m → d = 0 := by
    intro m d hd h1 h2
    obtain ⟨u, rfl⟩ := hd
    have hm : 0 < m := by omega
    have : u < 1 := by by_contra hc; push Not at hc; nlinarith
    have : -1 < u := by by_contra hc; push Not at hc; nlinarith
    have : u = 0 := by omega
    simp [this]
  cases e with
  | clamp =>
    simp only [Rule, Valid] at *
    by_contra hne
    have a1 := hx y y0 y1
    have a2 := hy x x0 x1
    rcases le_or_gt c 0 with hc | hc
    · have b := hx 0 (le_refl _) h
      have b' := hy 0 (le_refl _) h
      rw [abs_of_nonpos (by omega), abs_of_nonpos (by omega)] at b b'
      omega
    · rcases lt_or_ge c ext with hd | hd
      · have b := hx c hc.le hd
        have b' := hy c hc.le hd
        rw [sub_self, abs_zero] at b b'
        have := abs_nonpos_iff.1 b
        have := abs_nonpos_iff.1 b'
        omega
      · have b := hx (ext - 1) (by omega) (by omega)
        have b' := hy (ext - 1) (by omega) (by omega)
        rw [abs_of_nonneg (by omega), abs_of_nonneg (by omega)] at b b'
        omega
  | periodic =>
    simp only [Rule] at *
    have := small ext (x - y) (by have := dvd_sub hy hx; rwa [show c - y - (c - x) = x - y by ring] at this)
      (by omega) (by omega)
    omega
  | mirror =>
    simp only [Rule, Valid] at *
    rcases hx with hx | hx <;> rcases hy with hy | hy
    · have := small (2 * (ext - 1)) (x - y) (by have := dvd_sub hy hx; rwa [show c - y - (c - x) = x - y by ring] at this)
        (by omega) (by omega)
      omega
    · have hd := dvd_sub hy hx
      rw [show c + y - (c - x) = x + y by ring] at hd
      rcases lt_or_ge (x + y) (2 * (ext - 1)) with hl | hl
      · have := small _ _ hd (by omega) hl; omega
      · omega
    · have hd := dvd_sub hx hy
      rw [show c + x - (c - y) = x + y by ring] at hd
      rcases lt_or_ge (x + y) (2 * (ext - 1)) with hl | hl
      · have := small _ _ hd (by omega) hl; omega
      · omega
    · have := small (2 * (ext - 1)) (x - y) (by have := dvd_sub hx hy; rwa [show c + x - (c + y) = x - y by ring] at this)
        (by omega) (by omega)
      omega
  | constant => simp only [Rule] at *; omega

variable {M ch : ℕ} {K O : Type}

theorem fold_spec (e : Edge) (ext c x : Fin M → ℤ) (hx : ∀ i, coord e (c i) (ext i) = some (x i)) :
    ∀ (is : List (Fin M)) (a d : ℤ),
    is.foldlM (fun (st : ℤ × ℤ) (i : Fin M) => do
      let x ← coord e (c i) (ext i)
      some (st.1 + x * st.2, st.2 * ext i)) (a, d) =
    some (a + d * ord (fun _ => 0) (fun i => ext i - 1) is x, d * (is.map ext).prod) := by
  intro is
  induction is with
  | nil => intro a d; simp [ord]
  | cons i is ih =>
    intro a d
    rw [List.foldlM_cons, hx]
    simp only [Option.bind_eq_bind, Option.bind_some]
    have := ih (a + x i * d) (d * ext i)
    simp only [Option.bind_eq_bind] at this
    rw [this]
    rw [Grid.ord_cons, dim]
    simp only [List.map_cons, List.prod_cons]
    congr 2 <;> ring

theorem arrayProduct_eq (ext : Fin M → ℤ) : arrayProduct ext = ∏ i, ext i := by
  have h : ∀ (is : List (Fin M)) (v : ℤ), is.foldl (fun p i => p * ext i) v = v * (is.map ext).prod := by
    intro is
    induction is with
    | nil => intro v; simp
    | cons i is ih => intro v; simp [ih, mul_assoc]
  unfold arrayProduct
  rw [h, one_mul]
  exact Grid.axes_prod true ext

/-- Position of a grid point in the data array, first axis consecutive. -/
def place (ext x : Fin M → ℤ) : ℤ := ∑ i, x i * ∏ j ∈ Finset.univ.filter (· < i), ext j

theorem ord_place (ext x : Fin M → ℤ) :
    ord (fun _ => 0) (fun i => ext i - 1) (List.finRange M) x = place ext x := by
  have hp : (Grid.axes true M).Pairwise (· < ·) := by
    simp only [Grid.axes, if_true]; exact List.pairwise_lt_finRange M
  have := Grid.ord_sum (fun _ => 0) (fun i => ext i - 1) (· < ·) (fun a => lt_irrefl a)
    (fun a b h => not_lt.2 h.le) _ hp x
  rw [Grid.axes_toFinset] at this
  simp only [Grid.axes, if_true] at this
  rw [this]
  simp [place, dim]

theorem gridIndex_spec (e : Edge) (ext c x : Fin M → ℤ)
    (hx : ∀ i, coord e (c i) (ext i) = some (x i)) : gridIndex e ext c = some (place ext x) := by
  unfold gridIndex
  rw [fold_spec e ext c x hx]
  simp [ord_place]

theorem place_lt (ext x : Fin M → ℤ) (hx : ∀ i, 0 ≤ x i ∧ x i < ext i) :
    0 ≤ place ext x ∧ place ext x < ∏ i, ext i := by
  obtain ⟨h1, h2⟩ := Grid.Ok_region (fun _ => 0) (fun i => ext i - 1) (List.finRange M) x
    (fun i _ => ⟨(hx i).1, by have := (hx i).2; show x i ≤ ext i - 1; omega⟩)
  have h0 := Grid.Ok_nonneg _ _ _ _ h1
  rw [ord_place] at h0 h2
  refine ⟨h0, lt_of_lt_of_eq h2 ?_⟩
  rw [Grid.vprod]
  have := Grid.axes_prod true (dim (fun _ => 0) fun i => ext i - 1)
  simp only [Grid.axes, if_true] at this
  rw [this]
  exact Finset.prod_congr rfl fun i _ => by simp [dim]

theorem place_inj (ext x y : Fin M → ℤ) (hx : ∀ i, 0 ≤ x i ∧ x i < ext i)
    (hy : ∀ i, 0 ≤ y i ∧ y i < ext i) (h : place ext x = place ext y) : x = y := by
  rw [← ord_place, ← ord_place] at h
  funext i
  exact Grid.ord_inj _ _ (List.finRange M) x y
    (Grid.Ok_region _ _ _ x (fun i _ => ⟨(hx i).1, by have := (hx i).2; show x i ≤ ext i - 1; omega⟩)).1
    (Grid.Ok_region _ _ _ y (fun i _ => ⟨(hy i).1, by have := (hy i).2; show y i ≤ ext i - 1; omega⟩)).1
    h i (List.mem_finRange i)

theorem contains_iff (r : Raster K O M ch) (c : Fin M → ℤ) :
    r.containsGridpt c = true ↔ ∀ i, 0 ≤ c i ∧ c i < r.ext i := by
  simp [Raster.containsGridpt]

end Geomc.Rast
