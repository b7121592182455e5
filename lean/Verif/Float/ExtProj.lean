import Verif.Float.ExtProjModel
import Verif.Float.Vec
import Verif.Float.Dist
import Verif.Shape.Extruded

/-! # Property C150: the projection to extruded shapes in floating point -/

namespace Geomc.Flt

open Geomc.Shape (Height)

variable {K : Type} [Field K] [LinearOrder K] [IsStrictOrderedRing K] [FloorRing K] {n p : ℕ} {rnd : K → K}

/-- Of two numbers the one with the smaller computed size is the smaller, up to rounding. -/
theorem nearer_end (hp : 1 ≤ p) (h : IsRound p rnd) {x y : K} (hxy : |rnd x| ≤ |rnd y|) : (1 - eps K p) ^ 2 * x ^ 2 ≤ (1 + eps K p) ^ 2 * y ^ 2 := by
  have e0 := eps_pos (K := K) p
  have e1 := eps_le (K := K) hp
  have h1 := h.rel hp x
  have h2 := h.rel hp y
  have a1 := abs_sub_abs_le_abs_sub x (rnd x)
  rw [abs_sub_comm] at a1
  have a2 := abs_sub_abs_le_abs_sub (rnd y) y
  have key : (1 - eps K p) * |x| ≤ (1 + eps K p) * |y| := by linarith
  have := pow_le_pow_left₀ (mul_nonneg (by linarith) (abs_nonneg _)) key 2
  rwa [mul_pow, mul_pow, sq_abs, sq_abs] at this

omit [LinearOrder K] [IsStrictOrderedRing K] [FloorRing K] in
theorem dist_snoc (x : Fin (n + 1) → K) (b : Fin n → K) (z : K) :
    ∑ i, (x i - (Fin.snoc b z : Fin (n + 1) → K) i) ^ 2 = ∑ i : Fin n, (x i.castSucc - b i) ^ 2 + (x (Fin.last n) - z) ^ 2 := by
  rw [Fin.sum_univ_castSucc]
  simp only [Fin.snoc_castSucc, Fin.snoc_last]

/-- **C150.** The projection of a point to an extruded shape is one of three: the nearest point of the wall, or the point below or above it on a cap; and it is
the nearest of the three up to rounding. -/
theorem C150_project (hp : 1 ≤ p) (h : IsRound p rnd) (contains : (Fin n → K) → Bool) (project : (Fin n → K) → Fin n → K) (g : Height K)
    (x : Fin (n + 1) → K) :
    let base := if contains (Fin.init x) then Fin.init x else project (Fin.init x)
    let wall : Fin (n + 1) → K := Fin.snoc (project (Fin.init x)) (min g.hi (max g.lo (x (Fin.last n))))
    let lo : Fin (n + 1) → K := Fin.snoc base g.lo
    let hi : Fin (n + 1) → K := Fin.snoc base g.hi
    let q := extrudedProject rnd contains project g x
    (q = wall ∨ q = lo ∨ q = hi) ∧
    ∀ c, (c = wall ∨ c = lo ∨ c = hi) → (1 - eps K p) ^ (n + 5) * ∑ i, (x i - q i) ^ 2 ≤ (1 + eps K p) ^ (n + 5) * ∑ i, (x i - c i) ^ 2 := by
  intro base wall lo hi q
  have e0 := eps_pos (K := K) p
  have e1 := eps_le (K := K) hp
  have ab : 1 - eps K p ≤ 1 + eps K p := by linarith
  have a0 : 0 ≤ 1 - eps K p := by linarith
  have dist : ∀ c : Fin (n + 1) → K, (1 - eps K p) ^ (n + 3) * ∑ i, (x i - c i) ^ 2 ≤ dist2 rnd x c ∧
      dist2 rnd x c ≤ (1 + eps K p) ^ (n + 3) * ∑ i, (x i - c i) ^ 2 := fun c => ⟨(C104_dist2 hp h x c).1, (C104_dist2 hp h x c).2.1⟩
  obtain ⟨cap, hcap, hq, hend⟩ : ∃ cap, (cap = lo ∨ cap = hi) ∧ q = (if dist2 rnd x wall < dist2 rnd x cap then wall else cap) ∧
      ∀ c, (c = lo ∨ c = hi) → (1 - eps K p) ^ 2 * ∑ i, (x i - cap i) ^ 2 ≤ (1 + eps K p) ^ 2 * ∑ i, (x i - c i) ^ 2 := by
    refine ⟨Fin.snoc base (if |rnd (x (Fin.last n) - g.lo)| < |rnd (x (Fin.last n) - g.hi)| then g.lo else g.hi), ?_, ?_, ?_⟩
    · split_ifs
      · exact .inl rfl
      · exact .inr rfl
    · simp only [q, extrudedProject, wall, base, Height.clip, Vec.stdMin_eq, Vec.stdMax_eq]
      by_cases hc : contains (Fin.init x) = true
      · simp only [hc, if_true]
      · simp only [hc]
        rfl
    · have same : ∀ t : K, 0 ≤ t → (1 - eps K p) ^ 2 * t ≤ (1 + eps K p) ^ 2 * t := fun t ht => mul_le_mul_of_nonneg_right (pow_le_pow_left₀ a0 ab 2) ht
      have b0 : 0 ≤ ∑ i : Fin n, (x i.castSucc - base i) ^ 2 := Finset.sum_nonneg fun i _ => sq_nonneg _
      have hb := same _ b0
      intro c hc
      rcases hc with rfl | rfl <;> simp only [lo, hi, dist_snoc, mul_add]
      · refine add_le_add hb ?_
        split_ifs with hl
        · exact same _ (sq_nonneg _)
        · exact nearer_end hp h (not_lt.1 hl)
      · refine add_le_add hb ?_
        split_ifs with hl
        · exact nearer_end hp h hl.le
        · exact same _ (sq_nonneg _)
  have n0 : ∀ c : Fin (n + 1) → K, 0 ≤ ∑ i, (x i - c i) ^ 2 := fun c => Finset.sum_nonneg fun i _ => sq_nonneg _
  obtain ⟨a, ea⟩ : ∃ a, a = 1 - eps K p := ⟨_, rfl⟩
  obtain ⟨b, eb⟩ : ∃ b, b = 1 + eps K p := ⟨_, rfl⟩
  rw [← ea, ← eb] at dist hend ab
  rw [← ea] at a0
  rw [← ea, ← eb]
  have b0 : 0 ≤ b := a0.trans ab
  have p2 : a ^ 2 ≤ b ^ 2 := pow_le_pow_left₀ a0 ab 2
  have p3 : a ^ (n + 3) ≤ b ^ (n + 3) := pow_le_pow_left₀ a0 ab _
  have split : ∀ t : K, t ^ (n + 5) = t ^ 2 * t ^ (n + 3) := fun t => by rw [← pow_add]; congr 1; omega
  rw [split a, split b]
  have A2 : 0 ≤ a ^ 2 := pow_nonneg a0 _
  have A3 : 0 ≤ a ^ (n + 3) := pow_nonneg a0 _
  have B2 : 0 ≤ b ^ 2 := pow_nonneg b0 _
  have B3 : 0 ≤ b ^ (n + 3) := pow_nonneg b0 _
  generalize a ^ 2 = α at *
  generalize b ^ 2 = β at *
  generalize a ^ (n + 3) = γ at *
  generalize b ^ (n + 3) = δ at *
  have same : ∀ t : K, 0 ≤ t → α * γ * t ≤ β * δ * t := fun t ht => mul_le_mul_of_nonneg_right (mul_le_mul p2 p3 A3 B2) ht
  rw [hq]
  split_ifs with hw
  · refine ⟨.inl rfl, fun c hc => ?_⟩
    rcases hc with rfl | hc
    · exact same _ (n0 _)
    · have k1 : γ * ∑ i, (x i - wall i) ^ 2 ≤ δ * ∑ i, (x i - cap i) ^ 2 := ((dist wall).1.trans hw.le).trans (dist cap).2
      have k2 := mul_le_mul_of_nonneg_left k1 A2
      have k3 := mul_le_mul_of_nonneg_left (hend c hc) B3
      linarith
  · refine ⟨.inr hcap, fun c hc => ?_⟩
    rcases hc with rfl | hc
    · have k1 : γ * ∑ i, (x i - cap i) ^ 2 ≤ δ * ∑ i, (x i - wall i) ^ 2 := ((dist cap).1.trans (not_lt.1 hw)).trans (dist wall).2
      have k2 := mul_le_mul_of_nonneg_left k1 A2
      have k3 := mul_le_mul_of_nonneg_right p2 (mul_nonneg B3 (n0 wall))
      linarith
    · have k1 := mul_le_mul_of_nonneg_left (hend c hc) A3
      have k2 := mul_le_mul_of_nonneg_right p3 (mul_nonneg B2 (n0 c))
      linarith

omit [FloorRing K] [IsStrictOrderedRing K] in
/-- **C150.** Without rounding the model is that of C53. -/
theorem C150_exact (contains : (Fin n → K) → Bool) (project : (Fin n → K) → Fin n → K) (g : Height K) (x : Fin (n + 1) → K) :
    extrudedProject (fun x => x) contains project g x = Shape.extProject contains project g x := rfl

omit [FloorRing K] [IsStrictOrderedRing K] in
/-- Whatever the rounding, one of the three candidates is returned. -/
theorem ext_candidates (rnd : K → K) (contains : (Fin n → K) → Bool) (project : (Fin n → K) → Fin n → K) (g : Height K) (x : Fin (n + 1) → K) :
    let base := if contains (Fin.init x) then Fin.init x else project (Fin.init x)
    let q := extrudedProject rnd contains project g x
    q = (Fin.snoc (project (Fin.init x)) (min g.hi (max g.lo (x (Fin.last n)))) : Fin (n + 1) → K) ∨ q = (Fin.snoc base g.lo : Fin (n + 1) → K) ∨
    q = (Fin.snoc base g.hi : Fin (n + 1) → K) := by
  intro base q
  simp only [q, base, extrudedProject, Height.clip, Vec.stdMin_eq, Vec.stdMax_eq]
  by_cases hc : contains (Fin.init x) = true
  · simp only [hc, if_true]
    split_ifs
    · exact .inl rfl
    · exact .inr (.inl rfl)
    · exact .inl rfl
    · exact .inr (.inr rfl)
  · simp only [hc]
    split_ifs <;> first | contradiction | exact .inl rfl | exact .inr (.inl rfl) | exact .inr (.inr rfl)

/-- **C150.** Over a base whose test and projection are right at the point, the projection is on the surface, and no point of the surface is nearer, up to
rounding. -/
theorem C150_surface {sqrt : K → K} (hs : Vec.IsSqrt sqrt) (hp : 1 ≤ p) (h : IsRound p rnd) (S : Set (Fin n → K)) (contains : (Fin n → K) → Bool)
    (project : (Fin n → K) → Fin n → K) (g : Height K) (hg : g.lo ≤ g.hi) (x : Fin (n + 1) → K)
    (hc : contains (Fin.init x) = true ↔ (Fin.init x : Fin n → K) ∈ S) (hb : Shape.IsNearest sqrt S (Fin.init x) (project (Fin.init x)))
    (hout : (Fin.init x : Fin n → K) ∉ S → ∀ y ∈ S, Shape.len sqrt (Fin.init x - project (Fin.init x)) ≤ Shape.len sqrt (Fin.init x - y)) :
    extrudedProject rnd contains project g x ∈ Shape.surface sqrt (Shape.extPts S g.lo g.hi) ∧
    ∀ y ∈ Shape.surface sqrt (Shape.extPts S g.lo g.hi), (1 - eps K p) ^ (n + 5) * ∑ i, (x i - extrudedProject rnd contains project g x i) ^ 2 ≤
      (1 + eps K p) ^ (n + 5) * ∑ i, (x i - y i) ^ 2 := by
  constructor
  · have hbase : (if contains (Fin.init x) then Fin.init x else project (Fin.init x)) ∈ S := by
      split_ifs with h1
      · exact hc.1 h1
      · exact hb.1.1
    rcases ext_candidates rnd contains project g x with e | e | e <;> rw [e, Shape.ext_surface hs, Shape.mem_ext, Fin.init_snoc, Fin.snoc_last]
    · exact ⟨⟨hb.1.1, le_min hg (le_max_left _ _), min_le_left _ _⟩, .inl hb.1⟩
    · exact ⟨⟨hbase, le_refl _, hg⟩, .inr (.inl rfl)⟩
    · exact ⟨⟨hbase, hg, le_refl _⟩, .inr (.inr rfl)⟩
  · intro y hy
    have near := (Shape.C53_ext_project hs S contains project g hg x hc hb hout).2 y hy
    have sq := pow_le_pow_left₀ (Shape.len_nonneg hs _) near 2
    rw [len_sq hs, len_sq hs] at sq
    have e1 := eps_pos (K := K) p
    refine ((C150_project hp h contains project g x).2 _ (ext_candidates (fun x => x) contains project g x)).trans ?_
    exact mul_le_mul_of_nonneg_left sq (pow_nonneg (by linarith) _)

/-- In `double`: an interval drawn out to a rectangle; a point nearer to the wall, nearer to a cap, and beyond a corner. -/
example :
    let contains : (Fin 1 → ℚ) → Bool := fun q => decide (0 ≤ q 0) && decide (q 0 ≤ 4)
    let project : (Fin 1 → ℚ) → Fin 1 → ℚ := fun q => if q 0 < 2 then ![0] else ![4]
    extrudedProject (nearest 53) contains project ⟨0, 4⟩ ![1, 2] = ![0, 2] ∧ extrudedProject (nearest 53) contains project ⟨0, 4⟩ ![2, 3] = ![2, 4] ∧
    extrudedProject (nearest 53) contains project ⟨0, 4⟩ ![2, 1] = ![2, 0] ∧ extrudedProject (nearest 53) contains project ⟨0, 4⟩ ![7, 6] = ![4, 4] := by
  decide +kernel

end Geomc.Flt
