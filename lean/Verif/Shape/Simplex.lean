import Verif.Affine.Props
import Verif.LU.Small
import Verif.Shape.Cylinder
import Verif.Shape.Defaults
import Verif.Shape.SimplexModel

/-!
# C56: simplexes
-/

namespace Geomc.Shape

open Geomc.Vec Geomc.Rect Geomc.Affine Geomc.LU Finset

variable {K : Type} {N : ℕ} [Field K]

/-! ### Vertices -/

/-- The vertices of a simplex in order. -/
def Simp.verts (s : Simp K N) : List (Fin N → K) := (List.range s.n).map s.pts

theorem verts_length (s : Simp K N) : s.verts.length = s.n := by simp [Simp.verts]

theorem verts_get (s : Simp K N) {i : ℕ} (h : i < s.n) : s.verts[i]? = some (s.pts i) := by
  simp [Simp.verts, h]

theorem verts_ext {s : Simp K N} {l : List (Fin N → K)} (hn : s.n = l.length) (h : ∀ i < s.n, l[i]? = some (s.pts i)) :
    s.verts = l := by
  refine List.ext_getElem? fun i => ?_
  by_cases hi : i < s.n
  · rw [verts_get s hi, h i hi]
  · rw [List.getElem?_eq_none (by rw [verts_length]; omega), List.getElem?_eq_none (by omega)]

/-- **C56**: the vertices after construction. -/
theorem C56_construct (verts : ℕ → Fin N → K) (n : ℕ) (l : List (Fin N → K)) :
    (Simp.empty : Simp K N).verts = [] ∧
    (n ≤ N + 1 → ∃ s, Simp.ofArray verts n = some s ∧ s.verts = (List.range n).map verts) ∧
    (Simp.ofList l).verts = l.take (N + 1) ∧
    (Simp.standard : Simp K N).verts = 0 :: List.ofFn fun i : Fin N => Pi.single i 1 := by
  refine ⟨rfl, fun h => ⟨_, if_pos h, ?_⟩, verts_ext ?_ ?_, verts_ext ?_ ?_⟩
  · refine verts_ext (by simp) fun i hi => ?_
    change i < n at hi
    simp [hi]
  · simp [Simp.ofList, min_comm]
  · intro i hi
    have hi' : i < l.length ∧ i < N + 1 := by simpa [Simp.ofList] using hi
    have : i < min l.length (N + 1) := lt_min hi'.1 hi'.2
    simp only [Simp.ofList, if_pos this]
    simp [hi'.1, Nat.lt_succ_iff.1 hi'.2]
  · simp [Simp.standard]
  · intro i hi
    cases i with
    | zero => simp [Simp.standard]
    | succ i =>
      have hi' : i < N := by simpa [Simp.standard] using hi
      simp [Simp.standard, hi', List.getElem?_ofFn]

theorem verts_push (s : Simp K N) (p : Fin N → K) :
    (⟨Function.update s.pts s.n p, s.n + 1⟩ : Simp K N).verts = s.verts ++ [p] := by
  refine verts_ext (by simp [verts_length]) fun i hi => ?_
  change i < s.n + 1 at hi
  change _ = some (Function.update s.pts s.n p i)
  rcases Nat.lt_succ_iff_lt_or_eq.1 hi with h | rfl
  · rw [List.getElem?_append_left (by rw [verts_length]; exact h), verts_get s h, Function.update_of_ne (by omega)]
  · rw [List.getElem?_append_right (by rw [verts_length]), verts_length]
    simp

/-- **C56**: inserting appends a vertex, unless the simplex is full. -/
theorem C56_insert (s : Simp K N) (p : Fin N → K) :
    (s.n < N + 1 → (s.insert p).verts = s.verts ++ [p]) ∧ (¬ s.n < N + 1 → s.insert p = s) := by
  refine ⟨fun h => ?_, fun h => if_neg h⟩
  rw [Simp.insert, if_pos h, verts_push]

theorem range_without {n i : ℕ} (h : i < n) : (List.range n).filter (fun j => i ≠ j) = (List.range n).eraseIdx i := by
  have h1 : (List.range n).erase i = (List.range n).filter (· != i) := List.nodup_range.erase_eq_filter i
  have h2 : (List.range n).erase i = (List.range n).eraseIdx i := by
    rw [List.erase_eq_eraseIdx_of_idxOf]
    conv_lhs => rw [← List.getElem_range (n := n) (j := i) (by simpa using h)]
    exact List.nodup_range.idxOf_getElem i (by simpa using h)
  rw [← h2, h1]
  refine List.filter_congr fun j _ => ?_
  by_cases hj : i = j
  · simp [hj]
  · have : j ≠ i := fun h => hj h.symm
    simp [hj, this]

/-- **C56**: leaving out a vertex keeps the others in order. -/
theorem C56_exclude (s : Simp K N) {i : ℕ} (h : i < s.n) :
    (∃ t, s.exclude i = some t ∧ t.verts = s.verts.eraseIdx i) ∧ ∃ t, s.excluded i = some t ∧ t.verts = s.verts.eraseIdx i := by
  have hlen : (s.verts.eraseIdx i).length = s.n - 1 := by
    rw [List.length_eraseIdx_of_lt (by rw [verts_length]; exact h), verts_length]
  constructor
  · refine ⟨_, if_pos h, verts_ext hlen.symm fun j hj => ?_⟩
    change j < s.n - 1 at hj
    change _ = some (if i ≤ j ∧ j + 1 < s.n then s.pts (j + 1) else s.pts j)
    rw [List.getElem?_eraseIdx]
    split_ifs with h1 h2 h2
    · omega
    · rw [verts_get s (by omega)]
    · rw [verts_get s (by omega)]
    · omega
  · rw [Simp.excluded, if_neg (by omega)]
    simp only
    have key : ∀ l : List ℕ, ∀ t : Simp K N, (l.foldl (fun (t : Simp K N) j =>
        if i ≠ j then (⟨Function.update t.pts t.n (s.pts j), t.n + 1⟩ : Simp K N) else t) t).verts =
        t.verts ++ (l.filter fun j => i ≠ j).map s.pts := by
      intro l
      induction l with
      | nil => simp
      | cons j l ih =>
        intro t
        rw [List.foldl_cons, ih]
        by_cases hj : i = j
        · simp [hj]
        · rw [if_pos hj, verts_push, List.filter_cons_of_pos (by simpa using hj)]
          simp
    have hk := key (List.range s.n) Simp.empty
    rw [range_without h, ← List.eraseIdx_map] at hk
    refine ⟨_, rfl, ?_⟩
    generalize List.foldl _ _ _ = t at hk ⊢
    have hk : t.verts = s.verts.eraseIdx i := hk
    have hn : t.n = s.n - 1 := by rw [← verts_length, hk, hlen]
    rw [← hn]
    exact hk

/-- **C56**: transforming moves every vertex, and transforming back restores the simplex. -/
theorem C56_transform (s : Simp K N) (x : XF K N) :
    (s.mulXf x).verts = s.verts.map x.apply ∧ (s.divXf x).verts = s.verts.map x.applyInverse ∧
    (Wf x → ((s.mulXf x).divXf x).verts = s.verts ∧ ((s.divXf x).mulXf x).verts = s.verts) := by
  have h1 : ∀ s : Simp K N, (s.mulXf x).verts = s.verts.map x.apply := fun s => by
    refine verts_ext (by simp [Simp.mulXf, verts_length]) fun i hi => ?_
    have hi : i < s.n := hi
    simp [verts_get s hi, Simp.mulXf, hi]
  have h2 : ∀ s : Simp K N, (s.divXf x).verts = s.verts.map x.applyInverse := fun s => by
    refine verts_ext (by simp [Simp.divXf, verts_length]) fun i hi => ?_
    have hi : i < s.n := hi
    simp [verts_get s hi, Simp.divXf, hi]
  refine ⟨h1 s, h2 s, fun hx => ⟨?_, ?_⟩⟩
  · rw [h2, h1, List.map_map]
    exact (List.map_congr_left (g := id) fun p _ => (wf_undo hx p).1.1).trans (List.map_id _)
  · rw [h1, h2, List.map_map]
    exact (List.map_congr_left (g := id) fun p _ => (wf_undo hx p).1.2).trans (List.map_id _)

/-- **C56**: equality compares vertices in order, and nothing else. -/
theorem C56_eq [DecidableEq K] (s t : Simp K N) : s.beq t = true ↔ s.verts = t.verts := by
  rw [Simp.beq]
  by_cases h : t.n = s.n
  · rw [if_neg (by simpa using h), List.all_eq_true]
    constructor
    · intro ha
      refine verts_ext (by rw [verts_length, h]) fun i hi => ?_
      have := ha i (List.mem_range.2 hi)
      rw [verts_get t (by omega), of_decide_eq_true this]
    · intro he i hi
      rw [List.mem_range] at hi
      have := congrArg (·[i]?) he
      simp only [verts_get s hi, verts_get t (h.symm ▸ hi), Option.some.injEq] at this
      simp [this]
  · rw [if_pos h]
    refine ⟨fun h' => Bool.noConfusion h', fun he => absurd ?_ h⟩
    rw [← verts_length s, ← verts_length t, he]

/-! ### Points -/

variable [LinearOrder K]

/-- The points of the simplex with the first `n` of the given vertices: averages with non-negative weights. -/
def hull (pts : ℕ → Fin N → K) (n : ℕ) : Set (Fin N → K) :=
  {p | ∃ w : ℕ → K, (∀ i < n, 0 ≤ w i) ∧ ∑ i ∈ range n, w i = 1 ∧ p = ∑ i ∈ range n, w i • pts i}

def Simp.set (s : Simp K N) : Set (Fin N → K) := hull s.pts s.n

/-- No vertex is an affine combination of the others. -/
def AffInd (pts : ℕ → Fin N → K) (n : ℕ) : Prop :=
  ∀ w : ℕ → K, ∑ i ∈ range n, w i = 0 → ∑ i ∈ range n, w i • pts i = 0 → ∀ i < n, w i = 0

variable [IsStrictOrderedRing K]

theorem vertex_mem (pts : ℕ → Fin N → K) {n i : ℕ} (h : i < n) : pts i ∈ hull pts n := by
  refine ⟨fun j => if j = i then 1 else 0, fun j _ => by beta_reduce; split_ifs <;> simp, ?_, ?_⟩
  · rw [sum_ite_eq' (range n) i, if_pos (mem_range.2 h)]
  · simp [h]

/-- **C56**: the support point is a vertex farthest along the direction, and farthest of all points of the simplex. -/
theorem C56_support (s : Simp K N) (hn : 0 < s.n) (d : Fin N → K) :
    (∃ i < s.n, s.support d = s.pts i ∧ ∀ j < s.n, dot (s.pts j) d ≤ dot (s.pts i) d) ∧ IsSupport s.set d (s.support d) := by
  have key : ∀ m, ∃ i ≤ m, (List.range m).foldl (fun (o : (Fin N → K) × K) i =>
      let t := dot (s.pts (i + 1)) d
      if t > o.2 then (s.pts (i + 1), t) else o) (s.pts 0, dot (s.pts 0) d) = (s.pts i, dot (s.pts i) d) ∧
      ∀ j ≤ m, dot (s.pts j) d ≤ dot (s.pts i) d := by
    intro m
    induction m with
    | zero => exact ⟨0, le_rfl, rfl, fun j hj => by rw [Nat.le_zero.1 hj]⟩
    | succ m ih =>
      obtain ⟨i, hi, he, hj⟩ := ih
      rw [List.range_succ, List.foldl_append, List.foldl_cons, List.foldl_nil, he]
      simp only
      split_ifs with h
      · refine ⟨m + 1, le_rfl, rfl, fun j h' => ?_⟩
        rcases Nat.le_succ_iff.1 h' with h' | rfl
        · exact (hj j h').trans h.le
        · exact le_rfl
      · refine ⟨i, by omega, rfl, fun j h' => ?_⟩
        rcases Nat.le_succ_iff.1 h' with h' | rfl
        · exact hj j h'
        · exact not_lt.1 h
  obtain ⟨i, hi, he, hj⟩ := key (s.n - 1)
  have he : s.support d = s.pts i := by rw [Simp.support, he]
  have hmax : ∀ j < s.n, dot (s.pts j) d ≤ dot (s.pts i) d := fun j h => hj j (by omega)
  refine ⟨⟨i, by omega, he, hmax⟩, ?_, ?_⟩
  · rw [he]
    exact vertex_mem _ (by omega)
  · rintro _ ⟨w, hw, h1, rfl⟩
    rw [he, dot_eq, dot_eq, sum_dotProduct]
    calc ∑ j ∈ range s.n, (w j • s.pts j) ⬝ᵥ d ≤ ∑ j ∈ range s.n, w j * (s.pts i ⬝ᵥ d) := by
          refine sum_le_sum fun j h => ?_
          rw [mem_range] at h
          rw [smul_dotProduct, smul_eq_mul]
          have := hmax j h
          rw [dot_eq, dot_eq] at this
          exact mul_le_mul_of_nonneg_left this (hw j h)
      _ = s.pts i ⬝ᵥ d := by rw [← sum_mul, h1, one_mul]

/-- **C56**: the bounds are the smallest box around the simplex. -/
theorem C56_bounds (s : Simp K N) (hn : 0 < s.n) : IsHull s.set (defaultBounds s.support) :=
  C77_bounds _ _ fun d _ => (C56_support s hn d).2

/-! ### Weights -/

omit [LinearOrder K] [IsStrictOrderedRing K] in
theorem raw_lt (p : Fin N → K) (i : Fin N) : raw p i = p i := by
  rw [raw, dif_pos i.2]

/-- The vertices with a one in front, as columns. -/
def aug (pts : ℕ → Fin N → K) : Matrix (Fin (N + 1)) (Fin (N + 1)) K := view (fun r c => oneThen (pts c) r) (N + 1) (N + 1)

omit [LinearOrder K] [IsStrictOrderedRing K] in
theorem aug_mul (pts : ℕ → Fin N → K) (w : ℕ → K) (p : Fin N → K) (t : K) :
    (∀ r : Fin (N + 1), ∑ c : Fin (N + 1), aug pts r c * w c = if r = 0 then t else raw p (r - 1)) ↔
    ∑ i ∈ range (N + 1), w i = t ∧ ∑ i ∈ range (N + 1), w i • pts i = p := by
  have h0 : ∑ c : Fin (N + 1), aug pts 0 c * w c = ∑ i ∈ range (N + 1), w i := by
    rw [← Fin.sum_univ_eq_sum_range]
    exact sum_congr rfl fun c _ => by simp [aug, view, oneThen]
  have h1 : ∀ r : Fin N, ∑ c : Fin (N + 1), aug pts r.succ c * w c = (∑ i ∈ range (N + 1), w i • pts i) r := by
    intro r
    rw [← Fin.sum_univ_eq_sum_range (fun i => w i • pts i), Finset.sum_apply]
    refine sum_congr rfl fun c _ => ?_
    simp [aug, view, oneThen, raw_lt, mul_comm]
  constructor
  · intro h
    refine ⟨by rw [← h0, h 0, if_pos rfl], ?_⟩
    ext r
    rw [← h1, h r.succ, if_neg (Fin.succ_ne_zero r)]
    simp [raw_lt]
  · rintro ⟨h2, rfl⟩ r
    refine Fin.cases ?_ (fun r => ?_) r
    · rw [h0, h2, if_pos rfl]
    · rw [h1, if_neg (Fin.succ_ne_zero r)]
      simp [raw_lt]

omit [LinearOrder K] [IsStrictOrderedRing K] in
theorem fin_fun (v : Fin (N + 1) → K) : ∃ w : ℕ → K, ∀ i : Fin (N + 1), w i = v i :=
  ⟨fun i => if h : i < N + 1 then v ⟨i, h⟩ else 0, fun i => dif_pos i.2⟩

omit [LinearOrder K] [IsStrictOrderedRing K] in
/-- The vertices are independent exactly if the matrix is regular. -/
theorem aug_det (pts : ℕ → Fin N → K) : (aug pts).det ≠ 0 ↔ AffInd pts (N + 1) := by
  rw [ne_eq, ← Matrix.exists_mulVec_eq_zero_iff]
  push Not
  constructor
  · intro h w h1 h2 i hi
    by_contra hw
    have hr : ∀ r : Fin (N + 1), ∑ c : Fin (N + 1), aug pts r c * w c = if r = 0 then 0 else raw (0 : Fin N → K) (r - 1) :=
      (aug_mul pts w 0 0).2 ⟨h1, h2⟩
    refine h (fun c => w c) (fun h0 => hw ?_) ?_
    · exact congrFun h0 ⟨i, hi⟩
    · ext r
      rw [Matrix.mulVec, dotProduct, hr r]
      simp [raw]
  · intro h v hv h0
    obtain ⟨w, hw⟩ := fin_fun v
    have := (aug_mul pts w 0 0).1 fun r => by
      have := congrFun h0 r
      rw [Matrix.mulVec, dotProduct] at this
      simp only [hw, this]
      simp [raw]
    apply hv
    ext i
    rw [← hw]
    exact h w this.1 this.2 i i.2

omit [LinearOrder K] [IsStrictOrderedRing K] in
/-- Barycentric coordinates exist and are unique for independent vertices. -/
theorem bary {pts : ℕ → Fin N → K} (h : AffInd pts (N + 1)) (p : Fin N → K) :
    ∃ w : ℕ → K, ∑ i ∈ range (N + 1), w i = 1 ∧ ∑ i ∈ range (N + 1), w i • pts i = p := by
  have hd := (aug_det pts).2 h
  obtain ⟨w, hw⟩ := fin_fun ((aug pts)⁻¹.mulVec fun r => oneThen p r)
  refine ⟨w, (aug_mul pts w p 1).1 fun r => ?_⟩
  have e : (aug pts).mulVec ((aug pts)⁻¹.mulVec fun r => oneThen p r) r = oneThen p r := by
    rw [Matrix.mulVec_mulVec, Matrix.mul_nonsing_inv _ (isUnit_iff_ne_zero.2 hd), Matrix.one_mulVec]
  rw [Matrix.mulVec, dotProduct] at e
  simp only [hw]
  rw [e, oneThen]
  simp

omit [LinearOrder K] [IsStrictOrderedRing K] in
theorem bary_unique {pts : ℕ → Fin N → K} {n : ℕ} (h : AffInd pts n) {w w' : ℕ → K} (h1 : ∑ i ∈ range n, w i = ∑ i ∈ range n, w' i)
    (h2 : ∑ i ∈ range n, w i • pts i = ∑ i ∈ range n, w' i • pts i) {i : ℕ} (hi : i < n) : w i = w' i := by
  have := h (fun i => w i - w' i) (by rw [sum_sub_distrib, h1, sub_self])
    (by simp only [sub_smul]; rw [sum_sub_distrib, h2, sub_self]) i hi
  exact sub_eq_zero.1 this

/-- A point is in the simplex exactly if its coordinates are not negative. -/
theorem mem_hull {pts : ℕ → Fin N → K} {n : ℕ} (h : AffInd pts n) {w : ℕ → K} (h1 : ∑ i ∈ range n, w i = 1) :
    ∑ i ∈ range n, w i • pts i ∈ hull pts n ↔ ∀ i < n, 0 ≤ w i := by
  constructor
  · rintro ⟨w', h3, h4, h5⟩ i hi
    rw [bary_unique h (h1.trans h4.symm) h5 hi]
    exact h3 i hi
  · exact fun h => ⟨w, h, h1, rfl⟩

theorem weightsOk_iff (x : ℕ → K) (k i : ℕ) (a : K) (ha : a ≤ 1) :
    weightsOk x k i a = true ↔ (∀ j < k, 0 ≤ x (i + j)) ∧ a + ∑ j ∈ range k, x (i + j) ≤ 1 := by
  induction k generalizing i a with
  | zero => simp [weightsOk, ha]
  | succ k ih =>
    rw [weightsOk]
    have hs : a + ∑ j ∈ range (k + 1), x (i + j) = (a + x i) + ∑ j ∈ range k, x (i + 1 + j) := by
      rw [sum_range_succ', add_zero, add_comm (∑ j ∈ range k, _), ← add_assoc]
      congr 1
      exact sum_congr rfl fun j _ => by rw [add_assoc, add_comm 1 j]
    have hall : (∀ j < k + 1, 0 ≤ x (i + j)) ↔ 0 ≤ x i ∧ ∀ j < k, 0 ≤ x (i + 1 + j) := by
      constructor
      · exact fun h => ⟨h 0 (by omega), fun j hj => by have := h (j + 1) (by omega); rwa [show i + (j + 1) = i + 1 + j by omega] at this⟩
      · rintro ⟨h0, h⟩ j hj
        cases j with
        | zero => exact h0
        | succ j => have := h j (by omega); rwa [show i + 1 + j = i + (j + 1) by omega] at this
    rw [hs, hall]
    split_ifs with h
    · refine ⟨fun h' => h'.elim, ?_⟩
      rintro ⟨⟨h1, h2⟩, h3⟩
      rcases h with h | h
      · exact absurd h1 (not_le.2 h)
      · have : 0 ≤ ∑ j ∈ range k, x (i + 1 + j) := sum_nonneg fun j hj => h2 j (mem_range.1 hj)
        linarith
    · push Not at h
      rw [ih (i + 1) (a + x i) h.2]
      tauto

/-- **C56**: a point is reported inside a simplex with independent vertices exactly if it is an average of them with
non-negative weights; a simplex with too few vertices contains nothing. -/
theorem C56_contains (s : Simp K N) (p : Fin N → K) :
    (s.n < N + 1 → s.contains p = some false) ∧
    (s.n = N + 1 → AffInd s.pts s.n → ∃ b, s.contains p = some b ∧ (b = true ↔ p ∈ s.set)) := by
  refine ⟨fun h => if_pos h, fun hn hi => ?_⟩
  rw [hn] at hi
  have hd := (aug_det s.pts).2 hi
  obtain ⟨Z, e, hZ⟩ := C32_complete (fun r c => oneThen (s.pts c) r) (fun r _ => oneThen p r) (n := N + 1) (m := 1) (skip := 1)
    (by omega) hd
  rw [Simp.contains, if_neg (by omega), e]
  refine ⟨_, rfl, ?_⟩
  obtain ⟨w, h1, h2⟩ := bary hi p
  have hw : ∀ r : Fin (N + 1), 1 ≤ (r : ℕ) → Z r 0 = w r := by
    intro r hr
    rw [show (0 : ℕ) = ((0 : Fin 1) : ℕ) from rfl, hZ r 0 hr]
    have hX : view (fun r _ => oneThen p r) (N + 1) 1 = aug s.pts * Matrix.of fun (c : Fin (N + 1)) (_ : Fin 1) => w c := by
      ext r j
      rw [Matrix.mul_apply]
      have := (aug_mul s.pts w p 1).2 ⟨h1, h2⟩ r
      simp only [Matrix.of_apply]
      rw [this]
      simp [view, oneThen]
    rw [hX, ← Matrix.mul_assoc]
    change ((aug s.pts)⁻¹ * aug s.pts * (Matrix.of fun (c : Fin (N + 1)) (_ : Fin 1) => w c)) r 0 = _
    rw [Matrix.nonsing_inv_mul _ (isUnit_iff_ne_zero.2 hd), Matrix.one_mul]
    rfl
  simp only [Bool.true_eq_false, if_false]
  rw [weightsOk_iff _ _ _ _ zero_le_one, zero_add, Simp.set, hn, ← h2, mem_hull hi h1]
  have e1 : ∀ j < N, Z (1 + j) 0 = w (j + 1) := fun j hj => by
    rw [add_comm]
    exact hw ⟨j + 1, by omega⟩ (by simp)
  rw [sum_range_succ'] at h1
  rw [sum_congr rfl fun j hj => e1 j (mem_range.1 hj)]
  constructor
  · rintro ⟨h3, h4⟩ i hi
    cases i with
    | zero => linarith
    | succ i => rw [← e1 i (by omega)]; exact h3 i (by omega)
  · intro h
    exact ⟨fun j hj => by rw [e1 j hj]; exact h _ (by omega), by linarith [h 0 (by omega)]⟩

end Geomc.Shape
