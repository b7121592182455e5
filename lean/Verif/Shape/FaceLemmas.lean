import Verif.Orthog.Props
import Verif.Shape.Average
import Verif.Shape.ProjectModel

/-!
# Faces of simplexes
-/

namespace Geomc.Shape

open Geomc.Vec Geomc.LU Finset

variable {K : Type} {N : ℕ} [Field K] [LinearOrder K]

/-- The vertices of a face. -/
def Face.verts (f : Face K N) : Finset ℕ := (range (f.n + 1)).image f.inc

/-- A face as the algorithm keeps it: distinct vertices of the simplex, the edges from the last of them, and from two dimensions
on a basis of the vectors at right angles to it, which is orthogonal if the simplex is full. -/
structure Good (s : Simp K N) (f : Face K N) : Prop where
  size : s.n ≤ N + 1
  dim : f.n ≤ N
  lt : ∀ i ≤ f.n, f.inc i < s.n
  inj : ∀ i ≤ f.n, ∀ j ≤ f.n, f.inc i = f.inc j → i = j
  basis : ∀ i < f.n, f.bases i = s.pts (f.inc i) - s.pts (f.inc f.n)
  nullNe : 2 ≤ f.n → ∀ j, f.n ≤ j → j < N → f.bases j ≠ 0
  nullOrth : 2 ≤ f.n → ∀ j, f.n ≤ j → j < N → ∀ i < f.n, f.bases j ⬝ᵥ f.bases i = 0
  nullSpan : 2 ≤ f.n → ∀ x : Fin N → K, (∀ i < f.n, x ⬝ᵥ f.bases i = 0) → x ∈ Submodule.span K (f.bases '' Set.Ico f.n N)
  nullFull : 2 ≤ f.n → s.n = N + 1 → ∀ j k, f.n ≤ j → j < N → f.n ≤ k → k < N → j ≠ k → f.bases j ⬝ᵥ f.bases k = 0

/-- General position, which matters from four dimensions on: no altitude of a face of two or more dimensions is parallel to the
hyperplane where the last coordinate vanishes, and the first coordinates tell the points of a flat simplex apart. -/
def GenPos (s : Simp K N) : Prop :=
  4 ≤ N → (∀ V : Finset ℕ, V ⊆ range s.n → 3 ≤ V.card → ∀ v ∈ V, ∀ u : Fin N → K,
      u ∈ Submodule.span K {d | ∃ a ∈ V, ∃ b ∈ V, d = s.pts a - s.pts b} →
      (∀ a ∈ V.erase v, ∀ b ∈ V.erase v, u ⬝ᵥ (s.pts a - s.pts b) = 0) → u ≠ 0 → ∀ i : Fin N, (i : ℕ) = N - 1 → u i ≠ 0) ∧
    (2 < s.n → s.n ≤ N → ∀ u : Fin N → K, u ∈ Submodule.span K {d | ∃ a < s.n, ∃ b < s.n, d = s.pts a - s.pts b} →
      (∀ i : Fin N, (i : ℕ) < s.n - 1 → u i = 0) → u = 0)

theorem GenPos.small {s : Simp K N} (h : N ≤ 3) : GenPos s := fun h' => by omega

variable {s : Simp K N} {f : Face K N} {p : Fin N → K}

theorem Face.mem_verts {i : ℕ} (hi : i ≤ f.n) : f.inc i ∈ f.verts :=
  mem_image.2 ⟨i, mem_range.2 (by omega), rfl⟩

theorem Good.verts_lt (h : Good s f) {v : ℕ} (hv : v ∈ f.verts) : v < s.n := by
  obtain ⟨i, hi, rfl⟩ := mem_image.1 hv
  exact h.lt i (by have := mem_range.1 hi; omega)

theorem Good.sum_verts {M : Type} [AddCommMonoid M] (h : Good s f) (F : ℕ → M) :
    ∑ v ∈ f.verts, F v = ∑ i ∈ range (f.n + 1), F (f.inc i) :=
  sum_image fun a ha b hb e => h.inj a (by have := mem_range.1 (mem_coe.1 ha); omega) b
    (by have := mem_range.1 (mem_coe.1 hb); omega) e

theorem Good.affInd (h : Good s f) (hi : AffInd s.pts s.n) : AffInd (fun k => s.pts (f.inc k)) (f.n + 1) :=
  hi.comp (fun k hk => h.lt k (by omega)) fun k hk l hl e => h.inj k (by omega) l (by omega) e

/-- Before the normal: what `exclude` is given. -/
structure PreSub (s : Simp K N) (f : Face K N) (i : ℕ) (out : Face K N) (e : Fin N → K) : Prop where
  dim : out.n = f.n - 1
  lt : ∀ k ≤ out.n, out.inc k < s.n
  inj : ∀ k ≤ out.n, ∀ l ≤ out.n, out.inc k = out.inc l → k = l
  basis : ∀ k < out.n, out.bases k = s.pts (out.inc k) - s.pts (out.inc out.n)
  verts : out.verts = f.verts.erase (f.inc i)
  ejected : e = s.pts (f.inc i) - s.pts (out.inc out.n)
  root : out.inc out.n = if i < f.n then f.inc f.n else f.inc (f.n - 1)
  kept : ∃ φ : ℕ → ℕ, (∀ k, out.n ≤ k → k < N - 1 → f.n ≤ φ k ∧ φ k < N ∧ out.bases k = f.bases (φ k)) ∧
    (∀ k l, out.n ≤ k → k < N - 1 → out.n ≤ l → l < N - 1 → φ k = φ l → k = l) ∧
    ∀ j, f.n ≤ j → j < N → ∃ k, out.n ≤ k ∧ k < N - 1 ∧ φ k = j

theorem exclude_pre (h : Good s f) {i : ℕ} (hn : 1 ≤ f.n) (hi : i ≤ f.n) :
    ∃ out e, f.exclude i = Face.withNormal out e ∧ PreSub s f i out e := by
  rw [Face.exclude]
  by_cases hin : i < f.n
  · rw [if_pos hin]
    refine ⟨_, _, rfl, ?_⟩
    have hinc : ∀ k, Function.update (Function.update f.inc i (f.inc (f.n - 1))) (f.n - 1) (f.inc f.n) k =
        if k = f.n - 1 then f.inc f.n else if k = i then f.inc (f.n - 1) else f.inc k := by
      intro k
      rw [Function.update_apply, Function.update_apply]
    have hidx : ∀ k ≤ f.n - 1, ∃ k' ≤ f.n, k' ≠ i ∧
        Function.update (Function.update f.inc i (f.inc (f.n - 1))) (f.n - 1) (f.inc f.n) k = f.inc k' ∧
        k' = (if k = f.n - 1 then f.n else if k = i then f.n - 1 else k) := by
      intro k hk
      refine ⟨_, ?_, ?_, ?_, rfl⟩
      · split_ifs <;> omega
      · split_ifs <;> omega
      · rw [hinc]
        split_ifs <;> rfl
    refine ⟨rfl, ?_, ?_, ?_, ?_, ?_, ?_, ?_⟩
    · intro k hk
      obtain ⟨k', h1, -, h2, -⟩ := hidx k hk
      show Function.update (Function.update f.inc i (f.inc (f.n - 1))) (f.n - 1) (f.inc f.n) k < s.n
      rw [h2]
      exact h.lt k' h1
    · intro k hk l hl e
      obtain ⟨k', h1, -, h2, h3⟩ := hidx k hk
      obtain ⟨l', g1, -, g2, g3⟩ := hidx l hl
      simp only at e
      rw [h2, g2] at e
      have := h.inj _ h1 _ g1 e
      rw [h3, g3] at this
      simp only at hk hl
      split_ifs at this <;> omega
    · intro k hk
      simp only at hk ⊢
      have hk' : k ≠ f.n - 1 := by omega
      rw [Function.update_apply, if_neg hk', Function.update_apply, hinc, hinc, if_neg hk', if_pos rfl]
      split_ifs
      · rw [h.basis _ (by omega)]
      · rw [h.basis _ (by omega)]
    · ext v
      rw [mem_erase]
      constructor
      · intro hv
        obtain ⟨k, hk, rfl⟩ := mem_image.1 hv
        obtain ⟨k', h1, h2, h3, -⟩ := hidx k (by have := mem_range.1 hk; simp only at this; omega)
        simp only
        rw [h3]
        exact ⟨fun e => h2 (h.inj _ h1 _ hi e), Face.mem_verts h1⟩
      · rintro ⟨hne, hv⟩
        obtain ⟨k, hk, rfl⟩ := mem_image.1 hv
        have hk' := mem_range.1 hk
        have hki : k ≠ i := fun e => hne (e ▸ rfl)
        refine mem_image.2 ⟨if k = f.n then f.n - 1 else if k = f.n - 1 then i else k, mem_range.2 ?_, ?_⟩
        · simp only
          split_ifs <;> omega
        · simp only
          rw [hinc]
          by_cases h1 : k = f.n
          · simp [h1]
          · rw [if_neg h1]
            by_cases h2 : k = f.n - 1
            · rw [if_pos h2, if_neg (by omega), if_pos rfl, h2]
            · rw [if_neg h2, if_neg h2, if_neg hki]
    · simp only
      rw [hinc, if_pos rfl, h.basis i hin]
    · simp only
      rw [hinc, if_pos rfl, if_pos hin]
    · refine ⟨fun k => if k = f.n - 1 then N - 1 else k, fun k hk hkN => ?_, fun k l hk hkN hl hlN e => ?_, fun j hj hjN => ?_⟩
      · simp only at hk ⊢
        by_cases hkn : k = f.n - 1
        · rw [if_pos hkn, hkn, Function.update_self]
          exact ⟨by omega, by omega, rfl⟩
        · rw [if_neg hkn, Function.update_of_ne hkn, Function.update_of_ne (by omega)]
          exact ⟨by omega, by omega, rfl⟩
      · simp only at hk hl e
        split_ifs at e <;> omega
      · by_cases hjl : j = N - 1
        · exact ⟨f.n - 1, le_rfl, by omega, by simp [hjl]⟩
        · exact ⟨j, by simp only; omega, by omega, by simp only; rw [if_neg (by omega)]⟩
  · rw [if_neg hin]
    obtain rfl : i = f.n := by omega
    refine ⟨_, _, rfl, ?_⟩
    refine ⟨rfl, ?_, ?_, ?_, ?_, ?_, ?_, ?_⟩
    · intro k hk
      exact h.lt k (by simp only at hk; omega)
    · intro k hk l hl e
      simp only at hk hl
      exact h.inj k (by omega) l (by omega) e
    · intro k hk
      simp only at hk ⊢
      rw [if_pos hk, h.basis k (by omega), h.basis (f.n - 1) (by omega)]
      abel
    · ext v
      rw [mem_erase]
      constructor
      · intro hv
        obtain ⟨k, hk, rfl⟩ := mem_image.1 hv
        have hk' := mem_range.1 hk
        simp only at hk' ⊢
        exact ⟨fun e => by have := h.inj k (by omega) f.n le_rfl e; omega, Face.mem_verts (by omega)⟩
      · rintro ⟨hne, hv⟩
        obtain ⟨k, hk, rfl⟩ := mem_image.1 hv
        have hk' := mem_range.1 hk
        have hki : k ≠ f.n := fun e => hne (e ▸ rfl)
        exact mem_image.2 ⟨k, mem_range.2 (by simp only; omega), rfl⟩
    · simp only
      rw [h.basis (f.n - 1) (by omega)]
      abel
    · simp only
      rw [if_neg hin]
    · refine ⟨fun k => k + 1, fun k hk hkN => ?_, fun k l hk hkN hl hlN e => ?_, fun j hj hjN => ?_⟩
      · simp only at hk ⊢
        rw [if_neg (by omega), if_pos (by omega)]
        exact ⟨by omega, by omega, rfl⟩
      · simp only at e
        omega
      · exact ⟨j - 1, by simp only; omega, by omega, by simp only; omega⟩

variable [IsStrictOrderedRing K]

/-! ### The foot of the perpendicular -/

theorem Good.exists_weights (h : Good s f) (w : ℕ → K) : ∃ α : ℕ → K, ∀ k ≤ f.n, α (f.inc k) = w k := by
  classical
  refine ⟨fun v => if hv : ∃ k ≤ f.n, f.inc k = v then w hv.choose else 0, fun k hk => ?_⟩
  have hv : ∃ l ≤ f.n, f.inc l = f.inc k := ⟨k, hk, rfl⟩
  beta_reduce
  rw [dif_pos hv, h.inj _ hv.choose_spec.1 _ hk hv.choose_spec.2]

theorem Good.exists_comb (h : Good s f) (w : ℕ → K) : ∃ α : ℕ → K, (∀ k ≤ f.n, α (f.inc k) = w k) ∧
    ∑ v ∈ f.verts, α v = ∑ k ∈ range (f.n + 1), w k ∧
    comb s.pts f.verts α = ∑ k ∈ range (f.n + 1), w k • s.pts (f.inc k) := by
  obtain ⟨α, hα⟩ := h.exists_weights w
  refine ⟨α, hα, ?_, ?_⟩
  · rw [h.sum_verts]
    exact sum_congr rfl fun k hk => hα k (by have := mem_range.1 hk; omega)
  · rw [comb, h.sum_verts fun v => α v • s.pts v]
    exact sum_congr rfl fun k hk => by rw [hα k (by have := mem_range.1 hk; omega)]

/-- Every point is an average of the vertices of a full simplex. -/
theorem Good.full (h : Good s f) (hi : AffInd s.pts s.n) (hn : f.n = N) (p : Fin N → K) :
    ∃ α : ℕ → K, ∑ v ∈ f.verts, α v = 1 ∧ comb s.pts f.verts α = p := by
  have ha := h.affInd hi
  rw [hn] at ha
  obtain ⟨w, h1, h2⟩ := bary ha p
  obtain ⟨α, -, h3, h4⟩ := h.exists_comb w
  rw [hn] at h3 h4
  exact ⟨α, h3.trans h1, h4.trans h2⟩

theorem Good.full_proj (h : Good s f) (hi : AffInd s.pts s.n) (hn : f.n = N) {β : ℕ → K} (hβ : IsProj s.pts f.verts p β) :
    comb s.pts f.verts β = p := by
  obtain ⟨α, h1, h2⟩ := h.full hi hn p
  have := hβ.pyth h1
  rw [h2, sub_self, dotProduct_zero] at this
  have h3 := self_dot_nonneg (p - comb s.pts f.verts β)
  have h4 := self_dot_nonneg (comb s.pts f.verts β - p)
  exact (sub_eq_zero.1 ((self_dot_eq_zero _).1 (by linarith))).symm

omit [IsStrictOrderedRing K] in
theorem isProj_of_root {pts : ℕ → Fin N → K} {V : Finset ℕ} {p : Fin N → K} {β : ℕ → K} (r : ℕ) (h1 : ∑ v ∈ V, β v = 1)
    (h2 : ∀ u ∈ V, (p - comb pts V β) ⬝ᵥ (pts u - pts r) = 0) : IsProj pts V p β := by
  refine ⟨h1, fun u hu v hv => ?_⟩
  have e1 := h2 u hu
  have e2 := h2 v hv
  rw [dotProduct_sub] at e1 e2 ⊢
  linear_combination e1 - e2

omit [IsStrictOrderedRing K] in
theorem Good.forall_root (h : Good s f) (x : Fin N → K) (hx : ∀ i < f.n, x ⬝ᵥ f.bases i = 0) :
    ∀ u ∈ f.verts, x ⬝ᵥ (s.pts u - s.pts (f.inc f.n)) = 0 := by
  intro u hu
  obtain ⟨k, hk, rfl⟩ := mem_image.1 hu
  have hk' := mem_range.1 hk
  rcases Nat.lt_or_ge k f.n with hlt | hge
  · rw [← h.basis k hlt]
    exact hx k hlt
  · rw [show k = f.n by omega]
    simp

/-! ### Perpendicular vectors -/

omit [LinearOrder K] [IsStrictOrderedRing K] in
theorem dot_span {S : Set (Fin N → K)} {x : Fin N → K} (h : ∀ y ∈ S, x ⬝ᵥ y = 0) {y : Fin N → K} (hy : y ∈ Submodule.span K S) :
    x ⬝ᵥ y = 0 := by
  induction hy using Submodule.span_induction with
  | mem y hy => exact h y hy
  | zero => exact dotProduct_zero _
  | add y z _ _ h1 h2 => rw [dotProduct_add, h1, h2, add_zero]
  | smul c y _ h1 => rw [dotProduct_smul, h1, smul_zero]

omit [LinearOrder K] [IsStrictOrderedRing K] in
theorem dot_spanTo {b : ℕ → Fin N → K} {n : ℕ} {x : Fin N → K} (h : ∀ i < n, x ⬝ᵥ b i = 0) {y : Fin N → K} (hy : y ∈ spanTo b n) :
    x ⬝ᵥ y = 0 := by
  refine dot_span ?_ hy
  rintro _ ⟨i, hi, rfl⟩
  exact h i hi

omit [LinearOrder K] [IsStrictOrderedRing K] in
theorem exists_coeff {b : ℕ → Fin N → K} {n : ℕ} {y : Fin N → K} (hy : y ∈ spanTo b n) :
    ∃ c : ℕ → K, y = ∑ i ∈ range n, c i • b i := by
  induction n generalizing y with
  | zero =>
    have : y = 0 := by simpa [spanTo] using hy
    exact ⟨0, by simp [this]⟩
  | succ n ih =>
    rw [spanTo_succ, Submodule.mem_sup] at hy
    obtain ⟨u, hu, v, hv, rfl⟩ := hy
    obtain ⟨t, rfl⟩ := Submodule.mem_span_singleton.1 hu
    obtain ⟨c, rfl⟩ := ih hv
    refine ⟨fun i => if i < n then c i else t, ?_⟩
    rw [sum_range_succ]
    beta_reduce
    rw [if_neg (lt_irrefl n), add_comm]
    congr 1
    exact sum_congr rfl fun i hi => by rw [if_pos (mem_range.1 hi)]

/-- Every vector has a foot on a span. -/
theorem spanFoot (b : ℕ → Fin N → K) (n : ℕ) (x : Fin N → K) :
    projectToOrthogonal (orthogonalize b n) x n ∈ spanTo b n ∧
      ∀ i < n, (x - projectToOrthogonal (orthogonalize b n) x n) ⬝ᵥ b i = 0 := by
  obtain ⟨h1, h2, -, -⟩ := C36_orthogonalize b n
  obtain ⟨h3, h4⟩ := C36_project_orthogonal (orthogonalize b n) x n h1
  rw [h2 n le_rfl] at h3 h4
  exact ⟨h3, fun i hi => h4 _ (mem_spanTo b hi)⟩

omit [IsStrictOrderedRing K] in
theorem mem_null (b : ℕ → Fin N → K) {n j : ℕ} (h1 : n ≤ j) (h2 : j < N) : b j ∈ Submodule.span K (b '' Set.Ico n N) :=
  Submodule.subset_span ⟨j, ⟨h1, h2⟩, rfl⟩

/-- What is at right angles to everything at right angles to a face is along the face. -/
theorem Good.perp_perp (h : Good s f) (hn : 2 ≤ f.n) {u : Fin N → K} (hu : ∀ j, f.n ≤ j → j < N → u ⬝ᵥ f.bases j = 0) :
    u ∈ spanTo f.bases f.n := by
  obtain ⟨h1, h2⟩ := spanFoot f.bases f.n u
  generalize projectToOrthogonal (orthogonalize f.bases f.n) u f.n = y at h1 h2
  have h3 := h.nullSpan hn _ h2
  have h4 : (u - y) ⬝ᵥ (u - y) = 0 := by
    refine dot_span ?_ h3
    rintro _ ⟨j, ⟨hj1, hj2⟩, rfl⟩
    rw [sub_dotProduct, hu j hj1 hj2, dotProduct_comm, dot_spanTo (fun i hi => h.nullOrth hn j hj1 hj2 i hi) h1, sub_zero]
  rwa [sub_eq_zero.1 ((self_dot_eq_zero _).1 h4)]

omit [IsStrictOrderedRing K] in
/-- A vector at right angles to the edges of a face is at right angles to all the lines through its vertices. -/
theorem Good.perp_verts (h : Good s f) {x : Fin N → K} (hx : ∀ i < f.n, x ⬝ᵥ f.bases i = 0) {u v : ℕ} (hu : u ∈ f.verts)
    (hv : v ∈ f.verts) : x ⬝ᵥ (s.pts u - s.pts v) = 0 := by
  have e1 := h.forall_root x hx u hu
  have e2 := h.forall_root x hx v hv
  rw [dotProduct_sub] at e1 e2 ⊢
  linear_combination e1 - e2

omit [LinearOrder K] [IsStrictOrderedRing K] in
theorem AffInd.edges {pts : ℕ → Fin N → K} {n : ℕ} (h : AffInd pts (n + 1)) {c : ℕ → K}
    (hc : ∑ i ∈ range n, c i • (pts i - pts n) = 0) : ∀ i < n, c i = 0 := by
  intro i hi
  have := h (fun k => if k < n then c k else -∑ j ∈ range n, c j) (by
    rw [sum_range_succ, if_neg (lt_irrefl n), sum_congr rfl fun k hk => if_pos (mem_range.1 hk), add_neg_cancel]) (by
    rw [sum_range_succ, if_neg (lt_irrefl n), sum_congr rfl fun k hk => by rw [if_pos (mem_range.1 hk)], neg_smul, sum_smul,
      ← sub_eq_add_neg, ← sum_sub_distrib, ← hc]
    exact sum_congr rfl fun k _ => (smul_sub _ _ _).symm) i (by omega)
  rwa [if_pos hi] at this

theorem Good.edges (h : Good s f) (hi : AffInd s.pts s.n) {c : ℕ → K} (hc : ∑ i ∈ range f.n, c i • f.bases i = 0) :
    ∀ i < f.n, c i = 0 := by
  refine (h.affInd hi).edges ?_
  rw [← hc]
  exact sum_congr rfl fun i hi => by rw [h.basis i (mem_range.1 hi)]

/-! ### The foot of the perpendicular to a face -/

theorem foldl_loop {σ : Type} (g : ℕ → σ → σ) (m : ℕ) (x : σ) : (List.range m).foldl (fun x i => g i x) x = loop m g x := by
  induction m with
  | zero => rfl
  | succ m ih =>
    rw [List.range_succ, List.foldl_append, ih]
    rfl

/-- Where a point is projected to: along the face, and the rest is at right angles to it. -/
theorem Good.project (h : Good s f) (hlt : f.n < N) (p : Fin N → K) :
    ∃ y ∈ spanTo f.bases f.n, projectToFace s f p (p - s.pts (f.inc f.n)) = y + s.pts (f.inc f.n) ∧
      ∀ i < f.n, (p - s.pts (f.inc f.n) - y) ⬝ᵥ f.bases i = 0 := by
  generalize ht : p - s.pts (f.inc f.n) = x
  rw [projectToFace]
  by_cases h0 : f.n = 0
  · rw [if_pos h0]
    exact ⟨0, Submodule.zero_mem _, by rw [h0, zero_add], fun i hi => by omega⟩
  rw [if_neg h0]
  by_cases h1 : f.n = 1
  · rw [if_pos h1]
    refine ⟨projectOn x (f.bases 0), ?_, by rw [h1], fun i hi => ?_⟩
    · rw [projectOn_eq]
      exact Submodule.smul_mem _ _ (mem_spanTo _ (by omega))
    · obtain rfl : i = 0 := by omega
      exact (C37_project_on x (f.bases 0)).2
  rw [if_neg h1]
  have h2 : 2 ≤ f.n := by omega
  -- the projection to what is at right angles
  have hnull : ∀ z ∈ Submodule.span K (f.bases '' Set.Ico f.n N), (∀ j, f.n ≤ j → j < N → (x - z) ⬝ᵥ f.bases j = 0) →
      x - z ∈ spanTo f.bases f.n ∧ ∀ i < f.n, (x - (x - z)) ⬝ᵥ f.bases i = 0 := by
    intro z hz hxz
    refine ⟨h.perp_perp h2 hxz, fun i hi => ?_⟩
    rw [sub_sub_cancel, dotProduct_comm]
    refine dot_span ?_ hz
    rintro _ ⟨j, ⟨hj1, hj2⟩, rfl⟩
    rw [dotProduct_comm]
    exact h.nullOrth h2 j hj1 hj2 i hi
  by_cases h3 : N > 2 ∧ f.n = N - 1
  · rw [if_pos h3]
    obtain ⟨hy, hy'⟩ := hnull (projectOn x f.normal) (by
      rw [projectOn_eq]
      exact Submodule.smul_mem _ _ (mem_null _ (by omega) (by omega))) (fun j hj1 hj2 => by
        rw [show j = N - 1 by omega]
        exact (C37_project_on x f.normal).2)
    exact ⟨_, hy, by rw [← ht]; abel, hy'⟩
  rw [if_neg h3, if_neg (by omega), if_pos (by omega)]
  simp only
  have hshift : spanTo (fun i => f.bases (f.n + i)) (N - f.n) = Submodule.span K (f.bases '' Set.Ico f.n N) := by
    rw [spanTo]
    congr 1
    ext z
    constructor
    · rintro ⟨i, hi, rfl⟩
      have := Set.mem_Iio.1 hi
      exact ⟨f.n + i, ⟨by omega, by omega⟩, rfl⟩
    · rintro ⟨j, ⟨hj1, hj2⟩, rfl⟩
      exact ⟨j - f.n, Set.mem_Iio.2 (by omega), by beta_reduce; rw [show f.n + (j - f.n) = j by omega]⟩
  by_cases hpn : N - f.n < f.n
  · simp only [decide_eq_true hpn, if_true, Bool.true_eq_false, or_false]
    -- the vectors projected to are orthogonal and reach what is at right angles
    obtain ⟨b, hb, hb1, hb2⟩ : ∃ b : ℕ → Fin N → K,
        (if s.n < N + 1 then orthogonalize (fun i => f.bases (f.n + i)) (N - f.n) else fun i => f.bases (f.n + i)) = b ∧
        (∀ i j, i < N - f.n → j < N - f.n → i ≠ j → b i ⬝ᵥ b j = 0) ∧
        spanTo b (N - f.n) = Submodule.span K (f.bases '' Set.Ico f.n N) := by
      refine ⟨_, rfl, ?_⟩
      by_cases hc : s.n < N + 1
      · rw [if_pos hc]
        obtain ⟨g1, g2, -, -⟩ := C36_orthogonalize (fun i => f.bases (f.n + i)) (N - f.n)
        exact ⟨g1, (g2 _ le_rfl).trans hshift⟩
      · rw [if_neg hc]
        have hs : s.n = N + 1 := le_antisymm h.size (by omega)
        exact ⟨fun i j hi hj hij => h.nullFull h2 hs _ _ (by omega) (by omega) (by omega) (by omega) (by omega), hshift⟩
    rw [hb, foldl_loop (fun i out => out + projectOn x (b i))]
    obtain ⟨g1, g2⟩ := C36_project_orthogonal b x (N - f.n) hb1
    rw [hb2] at g1 g2
    obtain ⟨hy, hy'⟩ := hnull _ g1 (fun j hj1 hj2 => g2 _ (mem_null _ hj1 hj2))
    exact ⟨_, hy, rfl, hy'⟩
  · simp only [decide_eq_false hpn, Bool.false_eq_true, if_false, or_true, if_true]
    rw [foldl_loop (fun i out => out + projectOn x (orthogonalize f.bases f.n i))]
    obtain ⟨g1, g2⟩ := spanFoot f.bases f.n x
    exact ⟨_, g1, rfl, g2⟩

theorem proj_spec (h : Good s f) (hi : AffInd s.pts s.n) (p : Fin N → K) :
    ∃ β : ℕ → K, IsProj s.pts f.verts p β ∧
      (f.n < N → projectToFace s f p (p - s.pts (f.inc f.n)) = comb s.pts f.verts β) ∧
      (f.n = N → comb s.pts f.verts β = p) := by
  rcases Nat.lt_or_ge f.n N with hlt | hge
  swap
  · have hn : f.n = N := le_antisymm h.dim hge
    obtain ⟨α, h1, h2⟩ := h.full hi hn p
    refine ⟨α, ⟨h1, fun u _ v _ => ?_⟩, fun h' => by omega, fun _ => h2⟩
    rw [h2, sub_self, zero_dotProduct]
  obtain ⟨y, hy, hq, hperp⟩ := h.project hlt p
  obtain ⟨c, rfl⟩ := exists_coeff hy
  obtain ⟨β, -, h1, h2⟩ := h.exists_comb fun k => if k < f.n then c k else 1 - ∑ i ∈ range f.n, c i
  rw [sum_range_succ, if_neg (lt_irrefl _), sum_congr rfl fun k hk => if_pos (mem_range.1 hk)] at h1
  rw [sum_range_succ, if_neg (lt_irrefl _), sum_congr rfl fun k hk => by rw [if_pos (mem_range.1 hk)]] at h2
  have hcomb : comb s.pts f.verts β = ∑ i ∈ range f.n, c i • f.bases i + s.pts (f.inc f.n) := by
    rw [h2, sub_smul, one_smul, sum_smul, add_sub, add_sub_right_comm, ← sum_sub_distrib]
    congr 1
    exact sum_congr rfl fun i hi => by rw [h.basis i (mem_range.1 hi), smul_sub]
  refine ⟨β, isProj_of_root (f.inc f.n) (by rw [h1]; ring) (h.forall_root _ fun i hi => ?_), fun _ => by rw [hq, hcomb],
    fun h' => by omega⟩
  rw [hcomb, ← sub_sub, sub_right_comm]
  exact hperp i hi

/-! ### The normal of a subface -/

theorem sum_raw {M : ℕ} (x : Fin M → K) (o : ℕ → K) : ∑ c ∈ range M, raw x c * o c = x ⬝ᵥ fun i : Fin M => o i := by
  rw [dotProduct, ← Fin.sum_univ_eq_sum_range (fun c => raw x c * o c)]
  exact sum_congr rfl fun i _ => by rw [raw_lt]

/-- The result of `orthogonal` is at right angles to what it is given. -/
theorem orthAny_sound {b : ℕ → Fin N → K} {o : Fin N → K} (hN : 2 ≤ N) (h : orthogonalAny N b = some o) :
    ∀ i < N - 1, o ⬝ᵥ b i = 0 := by
  intro i hi
  rw [dotProduct_comm]
  match N, b, o, h, hN, hi with
  | 2, b, o, h, _, hi =>
    obtain rfl := Option.some.inj h
    obtain rfl : i = 0 := by omega
    exact (C36_orthogonal2 (b 0)).1
  | 3, b, o, h, _, hi =>
    obtain rfl := Option.some.inj h
    obtain ⟨h1, h2, -⟩ := C36_orthogonal3 (b 0) (b 1)
    have : i = 0 ∨ i = 1 := by omega
    rcases this with rfl | rfl
    · exact h1
    · exact h2
  | M + 4, b, o, h, _, hi =>
    rw [orthogonalAny] at h
    · rcases e : orthogonal (fun i => raw (b i)) (M + 4) with _ | o'
      · rw [e] at h
        cases h
      · rw [e] at h
        obtain rfl := Option.some.inj h
        have := C36_orthogonal_sound (fun i => raw (b i)) (by omega) o' e i hi
        rwa [sum_raw] at this
    all_goals omega

/-- From four dimensions on, `orthogonal` fails only if there is a vector at right angles to all that is given and with the last
coordinate zero. -/
theorem orthAny_some {M : ℕ} (b : ℕ → Fin (M + 4) → K)
    (h : ∀ u : Fin (M + 4) → K, (∀ i < M + 3, u ⬝ᵥ b i = 0) → (∀ i : Fin (M + 4), (i : ℕ) = M + 3 → u i = 0) → u = 0) :
    ∃ o, orthogonalAny (M + 4) b = some o ∧ o ≠ 0 := by
  have hd : (view (fun i => raw (b i)) (M + 3) (M + 3)).det ≠ 0 := by
    intro hd
    obtain ⟨w, hw, hw0⟩ := Matrix.exists_mulVec_eq_zero_iff.2 hd
    apply hw
    have := h (fun i => if hi : (i : ℕ) < M + 3 then w ⟨i, hi⟩ else 0) (fun i hi => ?_) (fun i hi => by
      beta_reduce
      rw [dif_neg (by omega)])
    · ext i
      have := congrFun this ⟨i, by omega⟩
      simpa using this
    · have e := congrFun hw0 ⟨i, hi⟩
      rw [Matrix.mulVec, dotProduct] at e
      rw [dotProduct, Fin.sum_univ_castSucc]
      simp only [Fin.val_castSucc, Fin.is_lt, dif_pos, Fin.val_last, lt_irrefl, dif_neg, not_false_eq_true, zero_mul, add_zero]
      rw [Pi.zero_apply] at e
      rw [← e]
      refine sum_congr rfl fun k _ => ?_
      rw [mul_comm]
      congr 1
      exact (raw_lt (b i) (Fin.castSucc k)).symm
  obtain ⟨o, e, h1, -⟩ := (orthogonal_cases (fun i => raw (b i)) (N := M + 4) (by omega)).1 hd
  refine ⟨fun i => o i, ?_, fun h0 => ?_⟩
  · rw [orthogonalAny]
    · rw [e]
      rfl
    all_goals omega
  · have := congrFun h0 ⟨M + 3, by omega⟩
    simp only [Pi.zero_apply] at this
    rw [show M + 4 - 1 = M + 3 by omega] at h1
    rw [h1] at this
    exact one_ne_zero this

/-- The vertices of a face, and those left after one is taken away. -/
theorem PreSub.mem {out : Face K N} {e : Fin N → K} {i : ℕ} (hp : PreSub s f i out e) {k : ℕ} (hk : k ≤ out.n) :
    out.inc k ∈ f.verts.erase (f.inc i) := by
  rw [← hp.verts]
  exact Face.mem_verts hk

/-- A vector along the face, at right angles to a subface, and the vertex that is missing from it. -/
theorem PreSub.perp {out : Face K N} {e : Fin N → K} {i : ℕ} (h : Good s f) (hp : PreSub s f i out e) {x : Fin N → K}
    (hx : ∀ k < out.n, x ⬝ᵥ out.bases k = 0) (hxe : x ⬝ᵥ e = 0) : ∀ k < f.n, x ⬝ᵥ f.bases k = 0 := by
  have hr : ∀ u ∈ f.verts, x ⬝ᵥ (s.pts u - s.pts (out.inc out.n)) = 0 := by
    intro u hu
    by_cases hui : u = f.inc i
    · rw [hui, ← hp.ejected]
      exact hxe
    · have : u ∈ out.verts := by
        rw [hp.verts]
        exact mem_erase.2 ⟨hui, hu⟩
      obtain ⟨k, hk, rfl⟩ := mem_image.1 this
      have hk' := mem_range.1 hk
      rcases Nat.lt_or_ge k out.n with hlt | hge
      · rw [← hp.basis k hlt]
        exact hx k hlt
      · rw [show k = out.n by omega]
        simp
  intro k hk
  rw [h.basis k hk]
  have e1 := hr _ (Face.mem_verts hk.le)
  have e2 := hr _ (Face.mem_verts le_rfl)
  rw [dotProduct_sub] at e1 e2 ⊢
  linear_combination e1 - e2

theorem Face.card_verts (h : Good s f) : f.verts.card = f.n + 1 := by
  rw [Face.verts, card_image_of_injOn, card_range]
  intro a ha b hb e
  exact h.inj a (by have := mem_range.1 (mem_coe.1 ha); omega) b (by have := mem_range.1 (mem_coe.1 hb); omega) e

/-- The normal of a subface is found. -/
theorem pre_orth (h : Good s f) (hi : AffInd s.pts s.n) (hN : GenPos s) {i : ℕ} (hin : i ≤ f.n) (hn : 2 ≤ f.n) {out : Face K N}
    {e : Fin N → K} (hp : PreSub s f i out e) : ∃ o, orthogonalAny N out.bases = some o ∧ o ≠ 0 := by
  have hd := h.dim
  have hod := hp.dim
  obtain ⟨φ, hφ1, -, hφ3⟩ := hp.kept
  have hind : ∀ c : ℕ → K, ∑ k ∈ range out.n, c k • out.bases k = 0 → ∀ k < out.n, c k = 0 := by
    intro c hc
    have ha : AffInd (fun k => s.pts (out.inc k)) (out.n + 1) :=
      hi.comp (fun k hk => hp.lt k (by omega)) fun k hk l hl e => hp.inj k (by omega) l (by omega) e
    refine ha.edges ?_
    rw [← hc]
    exact sum_congr rfl fun k hk => by rw [hp.basis k (mem_range.1 hk)]
  have hcase : N = 2 ∨ N = 3 ∨ ∃ M, N = M + 4 := by
    rcases Nat.lt_or_ge N 4 with h4 | h4
    · omega
    · exact Or.inr (Or.inr ⟨N - 4, by omega⟩)
  rcases hcase with rfl | rfl | ⟨M, rfl⟩
  · refine ⟨_, rfl, fun h0 => ?_⟩
    have hb := (C36_orthogonal2 (out.bases 0)).2.1 h0
    have := hind (fun _ => 1) (by rw [show out.n = 1 by omega, sum_range_one, hb, smul_zero]) 0 (by omega)
    exact one_ne_zero this
  · refine ⟨_, rfl, fun h0 => ?_⟩
    obtain ⟨x, y, hxy, he⟩ := (C36_orthogonal3 (out.bases 0) (out.bases 1)).2.2.1 h0
    have hf : f.n = 2 ∨ f.n = 3 := by omega
    rcases hf with hf | hf
    · obtain ⟨h1, h2, h3⟩ := hφ1 1 (by omega) (by omega)
      have hne := h.nullNe hn _ h1 h2
      have h4 : f.bases (φ 1) ⬝ᵥ out.bases 0 = 0 := by
        rw [hp.basis 0 (by omega)]
        exact h.perp_verts (h.nullOrth hn _ h1 h2) (mem_of_mem_erase (hp.mem (by omega))) (mem_of_mem_erase (hp.mem le_rfl))
      rw [h3] at he
      have hy : y = 0 := by
        have := congrArg (f.bases (φ 1) ⬝ᵥ ·) he
        simp only [dotProduct_add, dotProduct_smul, h4, mul_zero, zero_add, dotProduct_zero, smul_eq_mul] at this
        exact (mul_eq_zero.1 this).resolve_right (self_dot_pos hne).ne'
      rw [hy, zero_smul, add_zero] at he
      have hx := hind (fun _ => x) (by rw [show out.n = 1 by omega, sum_range_one, he]) 0 (by omega)
      rcases hxy with h' | h'
      · exact h' hx
      · exact h' hy
    · have := hind (fun k => if k = 0 then x else y) (by
        rw [show out.n = 2 by omega, sum_range_succ, sum_range_one]
        simpa using he)
      rcases hxy with h' | h'
      · exact h' (by simpa using this 0 (by omega))
      · exact h' (by simpa using this 1 (by omega))
  · refine orthAny_some out.bases fun u hu hl => ?_
    by_contra hne
    have hspan : u ∈ spanTo f.bases f.n := by
      refine h.perp_perp hn fun j hj1 hj2 => ?_
      obtain ⟨k, hk1, hk2, rfl⟩ := hφ3 j hj1 hj2
      rw [← (hφ1 k hk1 hk2).2.2]
      exact hu k (by omega)
    refine (hN (by omega)).1 f.verts (fun v hv => mem_range.2 (h.verts_lt hv)) (by rw [Face.card_verts h]; omega) (f.inc i)
      (Face.mem_verts hin) u ?_ ?_ hne ⟨M + 3, by omega⟩ (by simp) (hl _ rfl)
    · refine (Submodule.span_mono ?_ : spanTo f.bases f.n ≤ _) hspan
      rintro _ ⟨k, hk, rfl⟩
      exact ⟨_, Face.mem_verts (Set.mem_Iio.1 hk).le, _, Face.mem_verts le_rfl, h.basis k (Set.mem_Iio.1 hk)⟩
    · intro a ha b hb
      rw [← hp.verts] at ha hb
      have hroot : ∀ w ∈ out.verts, u ⬝ᵥ (s.pts w - s.pts (out.inc out.n)) = 0 := by
        intro w hw
        obtain ⟨k, hk, rfl⟩ := mem_image.1 hw
        have hk' := mem_range.1 hk
        rcases Nat.lt_or_ge k out.n with hlt | hge
        · rw [← hp.basis k hlt]
          exact hu k (by omega)
        · rw [show k = out.n by omega]
          simp
      have e1 := hroot a ha
      have e2 := hroot b hb
      rw [dotProduct_sub] at e1 e2 ⊢
      linear_combination e1 - e2

/-- Subfaces: the vertices without one, and a normal that tells the sign of the weight of the missing vertex. -/
theorem exclude_spec (h : Good s f) (hi : AffInd s.pts s.n) (hN : GenPos s) (hn : 1 ≤ f.n) {i : ℕ} (hin : i ≤ f.n) :
    ∃ g, f.exclude i = some g ∧ g.n = f.n - 1 ∧ Good s g ∧ g.verts = f.verts.erase (f.inc i) ∧
      g.inc g.n = (if i < f.n then f.inc f.n else f.inc (f.n - 1)) ∧ g.normal ≠ 0 ∧
      (∀ k < g.n, g.normal ⬝ᵥ g.bases k = 0) ∧ g.normal ⬝ᵥ (s.pts (f.inc i) - s.pts (g.inc g.n)) < 0 ∧
      ∃ κ : K, 0 < κ ∧ ∀ p : Fin N → K, ∀ β : ℕ → K, IsProj s.pts f.verts p β →
        g.normal ⬝ᵥ (p - s.pts (g.inc g.n)) = -κ * β (f.inc i) := by
  obtain ⟨out, e, hex, hp⟩ := exclude_pre h hn hin
  have hd := h.dim
  have hod := hp.dim
  have hroot : out.inc out.n ∈ f.verts := by
    have : out.inc out.n ∈ out.verts := Face.mem_verts le_rfl
    rw [hp.verts] at this
    exact mem_of_mem_erase this
  -- it is enough to have a normal
  suffices hm : ∃ m : Fin N → K, Face.withNormal out e = some { out with bases := Function.update out.bases (N - 1) m } ∧
      (∀ k < out.n, m ⬝ᵥ out.bases k = 0) ∧ m ⬝ᵥ e < 0 ∧
      (∀ p : Fin N → K, ∀ β : ℕ → K, IsProj s.pts f.verts p β → m ⬝ᵥ (p - comb s.pts f.verts β) = 0) ∧
      (2 ≤ f.n → ∀ k < N - 1, m ⬝ᵥ out.bases k = 0) by
    obtain ⟨m, hm, h1, h2, h3, h5⟩ := hm
    obtain ⟨φ, hφ1, hφ2, hφ3⟩ := hp.kept
    have hbk : ∀ k < out.n, Function.update out.bases (N - 1) m k = out.bases k := fun k hk =>
      Function.update_of_ne (by omega) _ _
    have hnorm : (⟨out.n, Function.update out.bases (N - 1) m, out.inc⟩ : Face K N).normal = m := Function.update_self _ _ _
    have hm0 : m ≠ 0 := by
      rintro rfl
      rw [zero_dotProduct] at h2
      exact lt_irrefl _ h2
    have hgood : Good s ⟨out.n, Function.update out.bases (N - 1) m, out.inc⟩ := by
      have hbj : ∀ k, k < N - 1 → Function.update out.bases (N - 1) m k = out.bases k := fun k hk =>
        Function.update_of_ne (by omega) _ _
      have hout : ∀ x : Fin N → K, (∀ k < f.n, x ⬝ᵥ f.bases k = 0) → ∀ k < out.n, x ⬝ᵥ out.bases k = 0 := by
        intro x hx k hk
        rw [hp.basis k hk]
        exact h.perp_verts hx (mem_of_mem_erase (hp.mem hk.le)) (mem_of_mem_erase (hp.mem le_rfl))
      refine ⟨h.size, by simp only; omega, hp.lt, hp.inj, fun k hk => ?_, fun h2' j hj1 hj2 => ?_, fun h2' j hj1 hj2 i' hi' => ?_,
        fun h2' x hx => ?_, fun h2' hs j k hj1 hj2 hk1 hk2 hjk => ?_⟩
      · simp only at hk ⊢
        rw [hbk k hk]
        exact hp.basis k hk
      · simp only at h2' hj1 ⊢
        rcases Nat.lt_or_ge j (N - 1) with hlt | hge
        · obtain ⟨g1, g2, g3⟩ := hφ1 j hj1 hlt
          rw [hbj j hlt, g3]
          exact h.nullNe (by omega) _ g1 g2
        · rw [show j = N - 1 by omega, Function.update_self]
          exact hm0
      · simp only at h2' hj1 hi' ⊢
        rw [hbk i' hi']
        rcases Nat.lt_or_ge j (N - 1) with hlt | hge
        · obtain ⟨g1, g2, g3⟩ := hφ1 j hj1 hlt
          rw [hbj j hlt, g3]
          exact hout _ (h.nullOrth (by omega) _ g1 g2) i' hi'
        · rw [show j = N - 1 by omega, Function.update_self]
          exact h1 i' hi'
      · simp only at h2' hx ⊢
        have hx' : ∀ k < out.n, x ⬝ᵥ out.bases k = 0 := fun k hk => by
          have := hx k hk
          rwa [hbk k hk] at this
        have hmm : m ∈ Submodule.span K (Function.update out.bases (N - 1) m '' Set.Ico out.n N) := by
          have := mem_null (Function.update out.bases (N - 1) m) (n := out.n) (j := N - 1) (by omega) (by omega)
          rwa [Function.update_self] at this
        have hsub : Submodule.span K (f.bases '' Set.Ico f.n N) ≤
            Submodule.span K (Function.update out.bases (N - 1) m '' Set.Ico out.n N) := by
          rw [Submodule.span_le]
          rintro _ ⟨j, ⟨hj1, hj2⟩, rfl⟩
          obtain ⟨k, hk1, hk2, rfl⟩ := hφ3 j hj1 hj2
          rw [← (hφ1 k hk1 hk2).2.2, ← hbj k hk2]
          exact mem_null _ hk1 (by omega)
        have hy := h.nullSpan (by omega) (x - (x ⬝ᵥ e / m ⬝ᵥ e) • m) (hp.perp h (fun k hk => by
          rw [sub_dotProduct, smul_dotProduct, h1 k hk, smul_zero, sub_zero]
          exact hx' k hk) (by
          rw [sub_dotProduct, smul_dotProduct, smul_eq_mul, div_mul_cancel₀ _ h2.ne, sub_self]))
        have := Submodule.add_mem _ (hsub hy) (Submodule.smul_mem _ (x ⬝ᵥ e / m ⬝ᵥ e) hmm)
        rwa [sub_add_cancel] at this
      · simp only at h2' hj1 hk1 ⊢
        have hcross : ∀ k, out.n ≤ k → k < N - 1 → m ⬝ᵥ Function.update out.bases (N - 1) m k = 0 := fun k _ hk => by
          rw [hbj k hk]
          exact h5 (by omega) k hk
        rcases Nat.lt_or_ge j (N - 1) with hlt | hge
        · rcases Nat.lt_or_ge k (N - 1) with hlt' | hge'
          · obtain ⟨g1, g2, g3⟩ := hφ1 j hj1 hlt
            obtain ⟨g4, g5, g6⟩ := hφ1 k hk1 hlt'
            rw [hbj j hlt, hbj k hlt', g3, g6]
            exact h.nullFull (by omega) hs _ _ g1 g2 g4 g5 fun e => hjk (hφ2 _ _ hj1 hlt hk1 hlt' e)
          · have := hcross j hj1 hlt
            rw [show k = N - 1 by omega, Function.update_self, dotProduct_comm]
            exact this
        · rw [show j = N - 1 by omega, Function.update_self]
          exact hcross k hk1 (by omega)
    refine ⟨_, hex.trans hm, hp.dim, hgood, hp.verts, hp.root, ?_, ?_, ?_, -(m ⬝ᵥ e), by linarith, fun p β hβ => ?_⟩
    · rw [hnorm]
      exact hm0
    · rw [hnorm]
      intro k hk
      simp only at hk ⊢
      rw [hbk k hk]
      exact h1 k hk
    · rw [hnorm]
      simp only
      rw [← hp.ejected]
      exact h2
    · rw [hnorm]
      simp only
      have e1 : p - s.pts (out.inc out.n) = (p - comb s.pts f.verts β) + (comb s.pts f.verts β - s.pts (out.inc out.n)) := by abel
      rw [e1, dotProduct_add, h3 p β hβ, zero_add, comb_sub_root' _ hβ.sum, dotProduct_sum,
        sum_eq_single_of_mem (f.inc i) (Face.mem_verts hin)]
      · rw [dotProduct_smul, ← hp.ejected, smul_eq_mul]
        ring
      · intro v hv hne
        have hv' : v ∈ out.verts := by
          rw [hp.verts]
          exact mem_erase.2 ⟨hne, hv⟩
        have := hgood.forall_root m (fun k hk => by
          simp only at hk ⊢
          rw [hbk k hk]
          exact h1 k hk) v hv'
        rw [dotProduct_smul, this, smul_zero]
  rcases Nat.lt_or_ge 1 f.n with hn2 | hn1
  · obtain ⟨φ, hφ1, -, hφ3⟩ := hp.kept
    obtain ⟨o, ho, ho0⟩ := pre_orth h hi hN hin hn2 hp
    have h1 := orthAny_sound (by omega) ho
    have hnull : ∀ y ∈ Submodule.span K (f.bases '' Set.Ico f.n N), o ⬝ᵥ y = 0 := by
      intro y hy
      refine dot_span ?_ hy
      rintro _ ⟨j, ⟨hj1, hj2⟩, rfl⟩
      obtain ⟨k, hk1, hk2, rfl⟩ := hφ3 j hj1 hj2
      rw [← (hφ1 k hk1 hk2).2.2]
      exact h1 k hk2
    have h2 : o ⬝ᵥ e ≠ 0 := by
      intro h0
      have := hnull o (h.nullSpan hn2 o (hp.perp h (fun k hk => h1 k (by omega)) h0))
      exact ho0 ((self_dot_eq_zero _).1 this)
    refine ⟨if dot o e ≥ 0 then -o else o, ?_, ?_⟩
    · rw [Face.withNormal, if_pos (by omega), ho]
      rfl
    · -- either sign of `o` is orthogonal to what it has to be
      have hperp : ∀ p : Fin N → K, ∀ β : ℕ → K, IsProj s.pts f.verts p β → o ⬝ᵥ (p - comb s.pts f.verts β) = 0 := by
        intro p β hβ
        refine hnull _ (h.nullSpan hn2 _ fun k hk => ?_)
        rw [h.basis k hk]
        exact hβ.orth _ (Face.mem_verts hk.le) _ (Face.mem_verts le_rfl)
      rw [dot_eq]
      split_ifs with hs
      · refine ⟨fun k hk => ?_, ?_, fun p β hβ => ?_, fun _ k hk => ?_⟩
        · rw [neg_dotProduct, h1 k (by omega), neg_zero]
        · rw [neg_dotProduct]
          have := lt_of_le_of_ne hs (Ne.symm h2)
          linarith
        · rw [neg_dotProduct, hperp p β hβ, neg_zero]
        · rw [neg_dotProduct, h1 k hk, neg_zero]
      · exact ⟨fun k hk => h1 k (by omega), not_le.1 hs, hperp, fun _ => h1⟩
  · have hn1 : f.n = 1 := by omega
    refine ⟨-e, ?_, fun k hk => by omega, ?_, fun p β hβ => ?_, fun h' => by omega⟩
    · rw [Face.withNormal, if_neg (by omega)]
    · rw [neg_dotProduct]
      have he : e ≠ 0 := by
        intro h0
        have hne : f.inc i ≠ out.inc out.n := by
          intro he
          have : out.inc out.n ∈ out.verts := Face.mem_verts le_rfl
          rw [hp.verts, ← he] at this
          exact notMem_erase _ _ this
        have ha := hi.comp (m := 2) (j := fun k => if k = 0 then f.inc i else out.inc out.n) (fun k _ => by
          beta_reduce
          split_ifs
          · exact h.lt i hin
          · exact hp.lt _ le_rfl) (fun k hk l hl e' => by
          split_ifs at e' with a b b
          · omega
          · exact absurd e' hne
          · exact absurd e'.symm hne
          · omega)
        have := ha (fun k => if k = 0 then 1 else -1) (by simp [sum_range_succ]) (by
          simp only [sum_range_succ, range_zero, sum_empty, zero_add]
          rw [← h0, hp.ejected]
          simp
          abel) 0 (by omega)
        simp at this
      linarith [self_dot_pos he]
    · rw [neg_dotProduct, hp.ejected, dotProduct_comm, hβ.orth _ (Face.mem_verts hin) _ hroot, neg_zero]

end Geomc.Shape
