import Verif.Shape.FaceLemmas

/-!
# The search for the nearest face
-/

namespace Geomc.Shape

open Geomc.Vec Geomc.LU Finset

theorem foldlM_range_inv {σ : Type} {m : ℕ} {g : σ → ℕ → Option σ} (P : ℕ → σ → Prop) {x0 : σ} (h0 : P 0 x0)
    (hs : ∀ i < m, ∀ x, P i x → ∃ y, g x i = some y ∧ P (i + 1) y) :
    ∃ y, (List.range m).foldlM g x0 = some y ∧ P m y := by
  induction m with
  | zero => exact ⟨x0, rfl, h0⟩
  | succ m ih =>
    obtain ⟨x, h1, h2⟩ := ih fun i hi => hs i (by omega)
    obtain ⟨y, h3, h4⟩ := hs m (by omega) x h2
    refine ⟨y, ?_, h4⟩
    rw [List.range_succ, List.foldlM_append, h1]
    simp [h3]

variable {K : Type} {N : ℕ} [Field K] [LinearOrder K]

/-- The squared distance of `p` to a combination. -/
def sqd (s : Simp K N) (p : Fin N → K) (V : Finset ℕ) (α : ℕ → K) : K :=
  (p - comb s.pts V α) ⬝ᵥ (p - comb s.pts V α)

/-- The face, point and distance are those of a face the point projects to, with vertices from `V`.  The weight of `rt` is not
known to be positive if `skip` is set. -/
structure IsCand (s : Simp K N) (p : Fin N → K) (skip : Bool) (V : Finset ℕ) (rt : ℕ) (g : Face K N) (q : Fin N → K) (d2 : K) :
    Prop where
  good : Good s g
  sub : g.verts ⊆ V
  root : skip = true → g.inc g.n = rt
  wts : ∃ β : ℕ → K, IsProj s.pts g.verts p β ∧ q = comb s.pts g.verts β ∧ d2 = sqd s p g.verts β ∧
    ∀ v ∈ g.verts, (skip = true → v ≠ rt) → 0 < β v

/-- What the search below a face does to the result. -/
structure Upd (s : Simp K N) (p : Fin N → K) (skip : Bool) (V : Finset ℕ) (rt : ℕ) (r r' : PRes K N) : Prop where
  found : r'.found = true
  front : r'.back = false
  contains : r'.contains = r.contains
  from_ : IsCand s p skip V rt r'.face r'.pt r'.d2 ∨
    (r.found = true ∧ r.back = false ∧ r'.face = r.face ∧ r'.pt = r.pt ∧ r'.d2 = r.d2)
  le : r.found = true → r.back = false → r'.d2 ≤ r.d2

variable {s : Simp K N} {f : Face K N} {p : Fin N → K} {skip : Bool} {V W : Finset ℕ} {rt : ℕ} {r r' r'' : PRes K N}

theorem IsCand.mono {g : Face K N} {q : Fin N → K} {d2 : K} (h : IsCand s p skip V rt g q d2) (hVW : V ⊆ W) :
    IsCand s p skip W rt g q d2 := ⟨h.good, h.sub.trans hVW, h.root, h.wts⟩

theorem Upd.mono (h : Upd s p skip V rt r r') (hVW : V ⊆ W) : Upd s p skip W rt r r' :=
  ⟨h.found, h.front, h.contains, h.from_.imp_left fun h => h.mono hVW, h.le⟩

theorem Upd.trans (h : Upd s p skip V rt r r') (h' : Upd s p skip V rt r' r'') : Upd s p skip V rt r r'' := by
  refine ⟨h'.found, h'.front, h'.contains.trans h.contains, ?_, fun h1 h2 => (h'.le h.found h.front).trans (h.le h1 h2)⟩
  rcases h'.from_ with h1 | ⟨-, -, e1, e2, e3⟩
  · exact Or.inl h1
  · rw [e1, e2, e3]
    rcases h.from_ with h2 | h2
    · exact Or.inl h2
    · exact Or.inr h2

theorem update_spec {g : Face K N} {q : Fin N → K} {d2 : K} (h : IsCand s p skip V rt g q d2) (r : PRes K N) :
    Upd s p skip V rt r (r.update d2 q g false) ∧ (r.update d2 q g false).d2 ≤ d2 := by
  rw [PRes.update]
  by_cases hc : r.found = false ∨ (d2 < r.d2 ∧ ((false : Bool) = true → r.back = true)) ∨ ((false : Bool) = false ∧ r.back = true)
  · rw [if_pos hc]
    refine ⟨⟨rfl, rfl, rfl, Or.inl h, fun h1 h2 => ?_⟩, le_rfl⟩
    rcases hc with hc | hc | hc
    · rw [h1] at hc
      cases hc
    · exact hc.1.le
    · rw [h2] at hc
      exact absurd hc.2 (by simp)
  · rw [if_neg hc]
    have h1 : ¬ r.found = false := fun h => hc (Or.inl h)
    have h2 : ¬ d2 < r.d2 := fun h => hc (Or.inr (Or.inl ⟨h, fun h' => by cases h'⟩))
    have h3 : ¬ r.back = true := fun h => hc (Or.inr (Or.inr ⟨rfl, h⟩))
    have hf : r.found = true := by
      cases hr : r.found
      · exact absurd hr h1
      · rfl
    have hb : r.back = false := by
      cases hr : r.back
      · rfl
      · exact absurd hr h3
    refine ⟨⟨hf, hb, rfl, Or.inr ⟨hf, hb, rfl, rfl, rfl⟩, fun _ _ => le_rfl⟩, not_lt.1 h2⟩

theorem find_back {op : POp} {n : ℕ} {toP : Fin N → K} {depth : ℕ} (hd : 0 < depth) (hb : dot f.normal toP < 0)
    (hs : ¬ (op = .project ∧ depth = 1 ∧ f.n = N - 1)) : findFace s p op skip n f toP depth r = some (r, true) := by
  have e : (decide (depth > 0) && decide (dot f.normal toP < 0)) = true := by simp [hd, hb]
  cases n <;> rw [findFace] <;> simp only [e, true_and, if_neg hs, if_true]

variable [IsStrictOrderedRing K]

/-- Everything a call for a subface finds out. -/
theorem child_spec (h : Good s f) (hi : AffInd s.pts s.n) (hN : GenPos s) (hn : 1 ≤ f.n) {i : ℕ} (hin : i ≤ f.n)
    {β : ℕ → K} (hβ : IsProj s.pts f.verts p β) :
    ∃ g, f.exclude i = some g ∧ g.n = f.n - 1 ∧ Good s g ∧ g.verts = f.verts.erase (f.inc i) ∧
      g.inc g.n = (if i < f.n then f.inc f.n else f.inc (f.n - 1)) ∧ mag2 g.normal ≠ 0 ∧
      (if i = f.n then (p - s.pts (f.inc f.n)) - f.bases (i - 1) else p - s.pts (f.inc f.n)) = p - s.pts (g.inc g.n) ∧
      (dot g.normal (p - s.pts (g.inc g.n)) < 0 ↔ 0 < β (f.inc i)) := by
  obtain ⟨g, h1, h2, h3, h4, h5, h6, -, -, κ, hκ, h7⟩ := exclude_spec h hi hN hn hin
  refine ⟨g, h1, h2, h3, h4, h5, by rw [mag2_eq]; exact (self_dot_pos h6).ne', ?_, ?_⟩
  · rw [h5]
    by_cases hc : i = f.n
    · rw [if_pos hc, if_neg (by omega), hc, h.basis _ (by omega)]
      abel
    · rw [if_neg hc, if_pos (by omega)]
  · rw [dot_eq, h7 p β hβ]
    constructor
    · intro hlt
      by_contra hc
      have := mul_nonneg hκ.le (neg_nonneg.2 (not_lt.1 hc))
      linarith
    · intro hpos
      have := mul_pos hκ hpos
      linarith

/-- The loop over the subfaces of a face. -/
def loopFaces (s : Simp K N) (p : Fin N → K) (op : POp) (skip : Bool) (n : ℕ) (f : Face K N) (depth : ℕ) (r : PRes K N) :
    Option (PRes K N × Bool) :=
  (List.range (f.n + if skip then 0 else 1)).foldlM (fun (x : PRes K N × Bool) i => (f.exclude i).bind fun sub =>
    let toSub := if i = f.n then (p - s.pts (f.inc f.n)) - f.bases (i - 1) else p - s.pts (f.inc f.n)
    if mag2 sub.normal = 0 then some ({ x.1 with degenerate := true }, x.2)
    else (findFace s p op skip n sub toSub (depth + 1) x.1).map fun y => (y.1, if y.2 then x.2 else false)) (r, true)

omit [IsStrictOrderedRing K] in
theorem find_loop {op : POp} {n depth : ℕ} (hfr : depth = 0 ∨ ¬ dot f.normal (p - s.pts (f.inc f.n)) < 0) :
    findFace s p op skip (n + 1) f (p - s.pts (f.inc f.n)) depth r =
      (loopFaces s p op skip n f depth r).map fun x => findEnd s p op f (p - s.pts (f.inc f.n)) false x.2 x.1 := by
  have hb : (decide (depth > 0) && decide (dot f.normal (p - s.pts (f.inc f.n)) < 0)) = false := by
    rcases hfr with rfl | hfr
    · rfl
    · simp [hfr]
  rw [findFace]
  simp only [hb, Bool.false_eq_true, false_and, if_false]
  rfl

/-- The search from a face, as far as faces in front of the point are concerned. -/
def FrontSpec (s : Simp K N) (p : Fin N → K) (op : POp) (skip : Bool) (rt : ℕ) (L : K) (n : ℕ) (f : Face K N) (depth : ℕ)
    (r : PRes K N) : Prop :=
  ∃ r', findFace s p op skip n f (p - s.pts (f.inc f.n)) depth r = some (r', false) ∧ Upd s p skip f.verts rt r r' ∧
    ∀ α : ℕ → K, (∀ v ∈ f.verts, 0 ≤ α v) → ∑ v ∈ f.verts, α v = 1 → (skip = true → sqd s p f.verts α < L) →
      r'.d2 ≤ sqd s p f.verts α

theorem loop_front (hi : AffInd s.pts s.n) (hN : GenPos s) {op : POp} {L : K}
    (hL : skip = true → ∀ W : Finset ℕ, W ⊆ range s.n → rt ∈ W → ∀ γ : ℕ → K, ∑ v ∈ W, γ v = 1 → γ rt ≤ 0 → L ≤ sqd s p W γ)
    {n : ℕ} {f : Face K N} {depth : ℕ} {r : PRes K N} (hn : f.n = n + 1) (h : Good s f) (hrt : skip = true → f.inc f.n = rt)
    (hns : ¬ (op = .project ∧ depth + 1 = 1 ∧ n = N - 1)) {β : ℕ → K} (hβ : IsProj s.pts f.verts p β)
    (ih : ∀ (g : Face K N) (r : PRes K N), g.n = n → Good s g → (skip = true → g.inc g.n = rt) →
      ¬ dot g.normal (p - s.pts (g.inc g.n)) < 0 → FrontSpec s p op skip rt L n g (depth + 1) r) :
    ∃ r1 ins, loopFaces s p op skip n f depth r = some (r1, ins) ∧
      (ins = true → r1 = r ∧ ∀ v ∈ f.verts, (skip = true → v ≠ rt) → 0 < β v) ∧
      (ins = false → Upd s p skip f.verts rt r r1 ∧ (∃ v ∈ f.verts, β v ≤ 0) ∧
        ∀ α : ℕ → K, (∀ v ∈ f.verts, 0 ≤ α v) → ∑ v ∈ f.verts, α v = 1 → (skip = true → sqd s p f.verts α < L) →
          r1.d2 ≤ sqd s p f.verts α) := by
  obtain ⟨m, hm⟩ : ∃ m, m = f.n + if skip then 0 else 1 := ⟨_, rfl⟩
  have hmn : m ≤ f.n + 1 := by
    rw [hm]
    split_ifs <;> omega
  obtain ⟨⟨r1, ins⟩, hf, hinv⟩ := foldlM_range_inv (m := m)
    (g := fun (x : PRes K N × Bool) i => (f.exclude i).bind fun sub =>
        let toSub := if i = f.n then (p - s.pts (f.inc f.n)) - f.bases (i - 1) else p - s.pts (f.inc f.n)
        if mag2 sub.normal = 0 then some ({ x.1 with degenerate := true }, x.2)
        else (findFace s p op skip n sub toSub (depth + 1) x.1).map fun y => (y.1, if y.2 then x.2 else false))
    (fun j x => (x.2 = true → x.1 = r ∧ ∀ i < j, 0 < β (f.inc i)) ∧ (x.2 = false → Upd s p skip f.verts rt r x.1 ∧
        (∃ i < j, β (f.inc i) ≤ 0) ∧ ∀ i < j, β (f.inc i) ≤ 0 → ∀ α : ℕ → K, (∀ v ∈ f.verts.erase (f.inc i), 0 ≤ α v) →
          ∑ v ∈ f.verts.erase (f.inc i), α v = 1 → (skip = true → sqd s p (f.verts.erase (f.inc i)) α < L) →
          x.1.d2 ≤ sqd s p (f.verts.erase (f.inc i)) α)) (x0 := (r, true))
    ⟨fun _ => ⟨rfl, fun i hi => by omega⟩, fun h' => by cases h'⟩ (by
      rintro i him ⟨x, ins⟩ ⟨hx1, hx2⟩
      obtain ⟨g, hex, hgn, hg, hgv, hgr, hgm, hto, hsign⟩ := child_spec h hi hN (by omega) (show i ≤ f.n by omega) hβ
      rw [hex, Option.bind_some]
      simp only
      rw [if_neg hgm, hto]
      by_cases hpos : 0 < β (f.inc i)
      · refine ⟨(x, ins), ?_, ?_, ?_⟩
        · rw [find_back (by omega) (hsign.2 hpos) (by rw [hgn, hn, Nat.add_sub_cancel]; exact hns)]
          simp
        · intro hins
          obtain ⟨e, hall⟩ := hx1 hins
          refine ⟨e, fun k hk => ?_⟩
          rcases Nat.lt_or_ge k i with hki | hki
          · exact hall k hki
          · rw [show k = i by omega]
            exact hpos
        · intro hins
          obtain ⟨hu, ⟨k, hk, hk'⟩, hall⟩ := hx2 hins
          refine ⟨hu, ⟨k, by omega, hk'⟩, fun l hl hl' => ?_⟩
          rcases Nat.lt_or_ge l i with hli | hli
          · exact hall l hli hl'
          · rw [show l = i by omega] at hl'
            exact absurd hpos (not_lt.2 hl')
      · obtain ⟨r2, e2, hu2, hle2⟩ := ih g x (by omega) hg (by
          intro hsk
          rw [hgr, if_pos]
          · exact hrt hsk
          · rw [hsk] at hm
            simp at hm
            omega) (fun h' => hpos (hsign.1 h'))
        have hu2' : Upd s p skip f.verts rt x r2 := hu2.mono (by rw [hgv]; exact erase_subset _ _)
        refine ⟨(r2, false), ?_, fun h' => (by cases h'), fun _ => ?_⟩
        · rw [e2]
          simp
        rw [hgv] at hle2
        cases ins
        · obtain ⟨hu, -, hall⟩ := hx2 rfl
          refine ⟨hu.trans hu2', ⟨i, by omega, not_lt.1 hpos⟩, fun l hl hl' α h0 hα hLα => ?_⟩
          rcases Nat.lt_or_ge l i with hli | hli
          · exact (hu2.le hu.found hu.front).trans (hall l hli hl' α h0 hα hLα)
          · obtain rfl : l = i := by omega
            exact hle2 α h0 hα hLα
        · obtain ⟨e, hall⟩ := hx1 rfl
          simp only at e
          rw [e] at hu2'
          refine ⟨hu2', ⟨i, by omega, not_lt.1 hpos⟩, fun l hl hl' α h0 hα hLα => ?_⟩
          rcases Nat.lt_or_ge l i with hli | hli
          · exact absurd (hall l hli) (not_lt.2 hl')
          · obtain rfl : l = i := by omega
            exact hle2 α h0 hα hLα)
  simp only at hinv
  refine ⟨r1, ins, ?_, ?_, ?_⟩
  · rw [loopFaces, ← hm]
    exact hf
  · intro hins
    obtain ⟨e, hall⟩ := hinv.1 hins
    refine ⟨e, fun v hv hvr => ?_⟩
    obtain ⟨l, hl, rfl⟩ := mem_image.1 hv
    have hl' := mem_range.1 hl
    refine hall l ?_
    cases hsk : skip
    · rw [hsk] at hm
      simp at hm
      omega
    · have : l ≠ f.n := fun e => hvr hsk (by rw [e, hrt hsk])
      rw [hsk] at hm
      simp at hm
      omega
  · intro hins
    obtain ⟨hu, ⟨k, hk, hk'⟩, hall⟩ := hinv.2 hins
    have hex : ∃ v ∈ f.verts, β v ≤ 0 := ⟨f.inc k, Face.mem_verts (by omega), hk'⟩
    refine ⟨hu, hex, fun α h0 hα hLα => ?_⟩
    cases hsk : skip
    · obtain ⟨v, hv, hbv, γ, h1, h2, h3⟩ := hβ.exit h0 hα hex
      obtain ⟨l, hl, rfl⟩ := mem_image.1 hv
      have hl' := mem_range.1 hl
      rw [hsk] at hm
      exact (hall l (by simp at hm; omega) hbv γ h1 h2 (fun h' => by rw [hsk] at h'; cases h')).trans h3
    · have hrf := hrt hsk
      obtain ⟨-, v, hv, hvr, hbv, γ, h1, h2, h3⟩ := hβ.exit_keep h0 hα hex (r := rt) (L := L)
        (fun γ h1 h2 => hL hsk f.verts (fun v hv => mem_range.2 (h.verts_lt hv)) (hrf ▸ Face.mem_verts le_rfl) γ h1 h2)
        (hLα hsk)
      obtain ⟨l, hl, rfl⟩ := mem_image.1 hv
      have hl' := mem_range.1 hl
      have hln : l ≠ f.n := fun e => hvr (by rw [e, hrf])
      rw [hsk] at hm
      exact (hall l (by simp at hm; omega) hbv γ h1 h2 (fun _ => lt_of_le_of_lt h3 (hLα hsk))).trans h3

/-- The search from a face that is not full and that the point is in front of. -/
theorem find_front (hi : AffInd s.pts s.n) (hN : GenPos s) {op : POp} {L : K}
    (hL : skip = true → ∀ W : Finset ℕ, W ⊆ range s.n → rt ∈ W → ∀ γ : ℕ → K, ∑ v ∈ W, γ v = 1 → γ rt ≤ 0 → L ≤ sqd s p W γ) :
    ∀ (n : ℕ) (f : Face K N) (depth : ℕ) (r : PRes K N), f.n = n → Good s f → n < N → (skip = true → f.inc f.n = rt) →
      (depth = 0 ∨ ¬ dot f.normal (p - s.pts (f.inc f.n)) < 0) → FrontSpec s p op skip rt L n f depth r := by
  intro n
  induction n with
  | zero =>
    intro f depth r hn h hlt hrt hfr
    have hb : (decide (depth > 0) && decide (dot f.normal (p - s.pts (f.inc f.n)) < 0)) = false := by
      rcases hfr with rfl | hfr
      · rfl
      · simp [hfr]
    obtain ⟨β, hβ, h1, -⟩ := proj_spec h hi p
    have hq := h1 (by omega)
    rw [projectToFace, if_pos hn] at hq
    have hverts : f.verts = {f.inc 0} := by
      rw [Face.verts, hn]
      simp
    have hcand : IsCand s p skip f.verts rt f (s.pts (f.inc 0)) (mag2 (p - s.pts (f.inc f.n))) := by
      refine ⟨h, subset_rfl, hrt, β, hβ, hq, ?_, fun v hv _ => ?_⟩
      · rw [sqd, ← hq, mag2_eq, hn]
      · have h1 := hβ.sum
        rw [hverts, sum_singleton] at h1
        rw [hverts, mem_singleton] at hv
        rw [hv, h1]
        exact zero_lt_one
    obtain ⟨hu, hle⟩ := update_spec hcand r
    refine ⟨_, ?_, hu, fun α h0 hα _ => hle.trans ?_⟩
    · rw [findFace]
      simp only [hb, Bool.false_eq_true, false_and, if_false]
    · have := hβ.le hα
      rw [mag2_eq, hn]
      rw [← hq] at this
      exact this
  | succ n ih =>
    intro f depth r hn h hlt hrt hfr
    obtain ⟨β, hβ, h1, -⟩ := proj_spec h hi p
    have hq := h1 (by omega)
    obtain ⟨r1, ins, hf, hin, hout⟩ := loop_front (depth := depth) (r := r) (op := op) hi hN hL hn h hrt (by omega) hβ
      (fun g r hg hgood hgr hgf => ih g (depth + 1) r hg hgood (by omega) hgr (Or.inr hgf))
    rw [FrontSpec, find_loop hfr, hf]
    cases ins
    · obtain ⟨hu, -, hall⟩ := hout rfl
      exact ⟨r1, rfl, hu, hall⟩
    · obtain ⟨e, hall⟩ := hin rfl
      rw [Option.map_some, findEnd]
      simp only [if_true, if_pos (show f.n < N by omega)]
      rw [e, hq]
      have hcand : IsCand s p skip f.verts rt f (comb s.pts f.verts β) (dist2 p (comb s.pts f.verts β)) :=
        ⟨h, subset_rfl, hrt, β, hβ, rfl, by rw [dist2_eq]; rfl, hall⟩
      obtain ⟨hu, hle⟩ := update_spec hcand r
      refine ⟨_, rfl, hu, fun α h0 hα _ => hle.trans ?_⟩
      rw [dist2_eq]
      exact hβ.le hα

/-! ### The whole simplex -/

/-- The edges of a flat simplex in general position, without their last coordinates. -/
theorem edges_det (hi : AffInd s.pts s.n) (hN : GenPos s) (h4 : 4 ≤ N) (h2 : 2 < s.n) (hn : s.n ≤ N) :
    (view (fun i => raw (if i < s.n - 1 then s.pts i - s.pts (s.n - 1) else 0)) (s.n - 1) (s.n - 1)).det ≠ 0 := by
  intro hd
  obtain ⟨w, hw, hw0⟩ := Matrix.exists_vecMul_eq_zero_iff.2 hd
  have hu := (hN h4).2 h2 hn (∑ i : Fin (s.n - 1), w i • (s.pts i - s.pts (s.n - 1))) (Submodule.sum_mem _ fun i _ =>
    Submodule.smul_mem _ _ (Submodule.subset_span ⟨i, by omega, s.n - 1, by omega, rfl⟩)) (fun j hj => by
      have := congrFun hw0 ⟨j, hj⟩
      rw [Matrix.vecMul, dotProduct, Pi.zero_apply] at this
      rw [Finset.sum_apply, ← this]
      refine sum_congr rfl fun i _ => ?_
      rw [Pi.smul_apply, smul_eq_mul]
      congr 1
      rw [view, Matrix.of_apply, if_pos i.2]
      exact (raw_lt _ j).symm)
  apply hw
  have hi' : AffInd s.pts (s.n - 1 + 1) := by rwa [show s.n - 1 + 1 = s.n by omega]
  have hall := hi'.edges (c := fun k => if hk : k < s.n - 1 then w ⟨k, hk⟩ else 0) (by
    rw [← hu, ← Fin.sum_univ_eq_sum_range (fun k => (if hk : k < s.n - 1 then w ⟨k, hk⟩ else 0) • (s.pts k - s.pts (s.n - 1)))]
    exact sum_congr rfl fun i _ => by rw [dif_pos i.2])
  ext i
  have := hall i i.2
  rwa [dif_pos i.2] at this

/-- A basis of the vectors at right angles to a flat simplex is found. -/
theorem nullAny_spec (hi : AffInd s.pts s.n) (hN : GenPos s) (h2 : 2 < s.n) (hn : s.n ≤ N) :
    ∃ X, nullspaceAny (s.n - 1) (fun i => if i < s.n - 1 then s.pts i - s.pts (s.n - 1) else 0) = some X ∧
      (∀ b < N - (s.n - 1), ∀ i < s.n - 1, X b ⬝ᵥ (s.pts i - s.pts (s.n - 1)) = 0) ∧
      ∀ c : ℕ → K, ∑ b ∈ range (N - (s.n - 1)), c b • X b = 0 → ∀ b < N - (s.n - 1), c b = 0 := by
  rw [nullspaceAny, if_neg (by omega)]
  by_cases h1 : N - (s.n - 1) = 1
  · rw [if_pos h1, h1]
    obtain ⟨o, ho, ho0⟩ : ∃ o, orthogonalAny N (fun i => if i < s.n - 1 then s.pts i - s.pts (s.n - 1) else 0) = some o ∧ o ≠ 0 := by
      have hcase : N = 3 ∨ ∃ M, N = M + 4 := by
        rcases Nat.lt_or_ge N 4 with h4 | h4
        · omega
        · exact Or.inr ⟨N - 4, by omega⟩
      rcases hcase with rfl | ⟨M, rfl⟩
      · have h3 : s.n = 3 := by omega
        refine ⟨_, rfl, fun h0 => ?_⟩
        simp only [h3, Nat.add_one_sub_one, Nat.zero_lt_succ, Nat.one_lt_ofNat, if_true] at h0
        obtain ⟨x, y, hxy, he⟩ := (C36_orthogonal3 _ _).2.2.1 h0
        rw [h3] at hi
        have := hi.edges (c := fun k => if k = 0 then x else y) (by
          rw [sum_range_succ, sum_range_one]
          simpa using he)
        rcases hxy with hx | hy
        · exact hx (by simpa using this 0 (by omega))
        · exact hy (by simpa using this 1 (by omega))
      · have hd := edges_det hi hN (by omega) h2 hn
        rw [show s.n - 1 = M + 4 - 1 by omega] at hd ⊢
        obtain ⟨o, e, hl, -⟩ := (orthogonal_cases _ (N := M + 4) (by omega)).1 hd
        refine ⟨fun i => o i, ?_, fun h0 => ?_⟩
        · rw [orthogonalAny]
          · rw [e]
            rfl
          all_goals omega
        · have := congrFun h0 ⟨M + 4 - 1, by omega⟩
          simp only [Pi.zero_apply] at this
          rw [hl] at this
          exact one_ne_zero this
    refine ⟨fun _ => o, by rw [ho]; rfl, fun b _ i hi' => ?_, fun c hc b hb => ?_⟩
    · have := orthAny_sound (by omega) ho i (by omega)
      rwa [if_pos hi'] at this
    · rw [sum_range_one] at hc
      obtain rfl : b = 0 := by omega
      exact (smul_eq_zero.1 hc).resolve_right ho0
  · rw [if_neg h1]
    obtain ⟨X, e, hX1, hX2⟩ := (nullspace_cases _ (show s.n - 1 < N by omega)).1 (edges_det hi hN (by omega) h2 hn)
    refine ⟨fun b i => X b i, by rw [e]; rfl, fun b hb i hi' => ?_, fun c hc b hb => ?_⟩
    · have := hX1 b hb i hi'
      rw [sum_raw, if_pos hi'] at this
      rw [dotProduct_comm]
      exact this
    · have := congrFun hc ⟨s.n - 1 + b, by omega⟩
      rw [Finset.sum_apply, Pi.zero_apply] at this
      rw [← this, sum_eq_single b]
      · rw [Pi.smul_apply, smul_eq_mul]
        beta_reduce
        rw [hX2 b hb b hb, if_pos rfl, mul_one]
      · intro b' hb' hne
        rw [Pi.smul_apply, smul_eq_mul]
        beta_reduce
        rw [hX2 b' (mem_range.1 hb') b hb, if_neg (Ne.symm hne), mul_zero]
      · intro h'
        exact absurd (mem_range.2 hb) h'

/-- As many vectors as the dimension, independent and the ones at right angles to the others: the others reach what is at right
angles to the ones. -/
theorem span_complement {b : ℕ → Fin N → K} {n : ℕ} (hn : n ≤ N) (h1 : ∀ c : ℕ → K, ∑ i ∈ range n, c i • b i = 0 → ∀ i < n, c i = 0)
    (h2 : ∀ c : ℕ → K, ∑ i ∈ range (N - n), c i • b (n + i) = 0 → ∀ i < N - n, c i = 0)
    (h3 : ∀ j, n ≤ j → j < N → ∀ i < n, b j ⬝ᵥ b i = 0) {x : Fin N → K} (hx : ∀ i < n, x ⬝ᵥ b i = 0) :
    x ∈ Submodule.span K (b '' Set.Ico n N) := by
  have hsplit : ∀ c : Fin N → K, ∑ i, c i • b i = ∑ i ∈ range n, (if hk : i < N then c ⟨i, hk⟩ else 0) • b i +
      ∑ i ∈ range (N - n), (if hk : n + i < N then c ⟨n + i, hk⟩ else 0) • b (n + i) := by
    intro c
    rw [← sum_range_add (fun i => (if hk : i < N then c ⟨i, hk⟩ else 0) • b i), show n + (N - n) = N by omega,
      ← Fin.sum_univ_eq_sum_range (fun i => (if hk : i < N then c ⟨i, hk⟩ else 0) • b i)]
    exact sum_congr rfl fun i _ => by rw [dif_pos i.2]
  -- the two parts are at right angles
  have horth : ∀ c d : ℕ → K, (∑ i ∈ range n, c i • b i) ⬝ᵥ (∑ i ∈ range (N - n), d i • b (n + i)) = 0 := by
    intro c d
    rw [sum_dotProduct]
    refine sum_eq_zero fun i hi => ?_
    rw [dotProduct_sum]
    refine sum_eq_zero fun j hj => ?_
    rw [smul_dotProduct, dotProduct_smul, dotProduct_comm, h3 _ (by omega) (by have := mem_range.1 hj; omega) i (mem_range.1 hi),
      smul_zero, smul_zero]
  obtain ⟨c, hc⟩ := span_all (K := K) (N := N) (m := N) rfl (b := fun i => b i) (by
    intro c hc
    rw [hsplit c] at hc
    have hu : ∑ i ∈ range n, (if hk : i < N then c ⟨i, hk⟩ else 0) • b i = 0 := by
      rw [← self_dot_eq_zero]
      conv_lhs => arg 2; rw [eq_neg_of_add_eq_zero_left hc]
      rw [dotProduct_neg, horth, neg_zero]
    have hv := hc
    rw [hu, zero_add] at hv
    intro i
    rcases Nat.lt_or_ge i n with hlt | hge
    · have := h1 _ hu i hlt
      rwa [dif_pos i.2] at this
    · have := h2 (fun i => if hk : n + i < N then c ⟨n + i, hk⟩ else 0) hv (i - n) (by omega)
      rw [dif_pos (by omega)] at this
      rw [← this]
      congr 1
      ext
      simp only
      omega) x
  rw [hsplit c] at hc
  have hu : ∑ i ∈ range n, (if hk : i < N then c ⟨i, hk⟩ else 0) • b i = 0 := by
    rw [← self_dot_eq_zero]
    have hxu : (∑ i ∈ range n, (if hk : i < N then c ⟨i, hk⟩ else 0) • b i) ⬝ᵥ x = 0 := by
      rw [sum_dotProduct]
      refine sum_eq_zero fun i hi => ?_
      rw [smul_dotProduct, dotProduct_comm, hx i (mem_range.1 hi), smul_zero]
    rw [← hc, dotProduct_add, horth, add_zero] at hxu
    exact hxu
  rw [hu, zero_add] at hc
  rw [← hc]
  exact Submodule.sum_mem _ fun i hi => Submodule.smul_mem _ _ (mem_null b (by omega) (by have := mem_range.1 hi; omega))

/-- The simplex as its own face. -/
theorem ofSimp_spec (hi : AffInd s.pts s.n) (hN : GenPos s) (h1 : 1 ≤ s.n) (hn : s.n ≤ N + 1) :
    ∃ f, Face.ofSimp s (decide (s.n > 2)) = some f ∧ Good s f ∧ f.n = s.n - 1 ∧ (∀ i, f.inc i = i) ∧ f.verts = range s.n := by
  have hverts : ∀ b : ℕ → Fin N → K, (⟨s.n - 1, b, fun i => i⟩ : Face K N).verts = range s.n := by
    intro b
    rw [Face.verts]
    simp only
    rw [show s.n - 1 + 1 = s.n by omega]
    exact image_id
  have hi' : AffInd s.pts (s.n - 1 + 1) := by rwa [show s.n - 1 + 1 = s.n by omega]
  by_cases hc : s.n - 1 < N ∧ s.n > 2
  · obtain ⟨X, hX, hX1, hX2⟩ := nullAny_spec hi hN hc.2 (by omega)
    have hlo : ∀ i < s.n - 1, (if i < s.n - 1 then (if i < s.n - 1 then s.pts i - s.pts (s.n - 1) else 0) else X (i - (s.n - 1))) =
        s.pts i - s.pts (s.n - 1) := fun i hi' => by rw [if_pos hi', if_pos hi']
    have hhi : ∀ j, s.n - 1 ≤ j → (if j < s.n - 1 then (if j < s.n - 1 then s.pts j - s.pts (s.n - 1) else 0) else X (j - (s.n - 1))) =
        X (j - (s.n - 1)) := fun j hj => by rw [if_neg (by omega)]
    have horth : ∀ j, s.n - 1 ≤ j → j < N → ∀ i < s.n - 1,
        (if j < s.n - 1 then (if j < s.n - 1 then s.pts j - s.pts (s.n - 1) else 0) else X (j - (s.n - 1))) ⬝ᵥ
        (if i < s.n - 1 then (if i < s.n - 1 then s.pts i - s.pts (s.n - 1) else 0) else X (i - (s.n - 1))) = 0 := by
      intro j hj1 hj2 i hi'
      rw [hlo i hi', hhi j hj1]
      exact hX1 _ (by omega) i hi'
    refine ⟨⟨s.n - 1, fun i => if i < s.n - 1 then (if i < s.n - 1 then s.pts i - s.pts (s.n - 1) else 0) else
      X (i - (s.n - 1)), fun i => i⟩, ?_, ⟨hn, ?_, ?_, ?_, ?_, ?_, ?_, ?_, ?_⟩, rfl, fun _ => rfl, hverts _⟩
    · rw [Face.ofSimp]
      simp only [hc.1, hc.2, decide_true, and_self, if_true]
      rw [hX]
      rfl
    · simp only
      omega
    · intro i hi'
      simp only at hi' ⊢
      omega
    · exact fun i _ j _ e => e
    · intro i hi'
      simp only at hi' ⊢
      rw [if_pos hi', if_pos hi']
    · intro _ j hj1 hj2 h0
      simp only at hj1 h0
      rw [hhi j hj1] at h0
      have := hX2 (fun b => if b = j - (s.n - 1) then 1 else 0) (by
        rw [sum_eq_single (j - (s.n - 1))]
        · rw [h0, smul_zero]
        · intro b _ hb
          rw [if_neg hb, zero_smul]
        · intro h'
          exact absurd (mem_range.2 (by omega)) h') (j - (s.n - 1)) (by omega)
      simp at this
    · exact fun _ => horth
    · intro _ x hx
      refine span_complement (by omega) (fun c hc => hi'.edges (c := c) ?_) (fun c hc => hX2 c ?_) horth hx
      · rw [← hc]
        exact sum_congr rfl fun i hi => by rw [hlo i (mem_range.1 hi)]
      · rw [← hc]
        refine sum_congr rfl fun i hi => ?_
        rw [hhi _ (by omega), Nat.add_sub_cancel_left]
    · intro _ h'
      omega
  · refine ⟨⟨s.n - 1, fun i => if i < s.n - 1 then s.pts i - s.pts (s.n - 1) else 0, fun i => i⟩, ?_, ⟨hn, ?_, ?_, ?_, ?_, ?_, ?_, ?_, ?_⟩,
      rfl, fun _ => rfl, hverts _⟩
    · rw [Face.ofSimp]
      simp only [decide_eq_true_eq]
      rw [if_neg hc]
    · simp only
      omega
    · intro i hi'
      simp only at hi' ⊢
      omega
    · exact fun i _ j _ e => e
    · intro i hi'
      simp only at hi' ⊢
      rw [if_pos hi']
    · intro h2 j hj1 hj2
      simp only at h2 hj1
      omega
    · intro h2 j hj1 hj2
      simp only at h2 hj1
      omega
    · intro h2 x hx
      simp only at h2 hx
      refine span_complement (by omega) (fun c hc' => hi'.edges (c := c) ?_) (fun c _ i hi => by omega)
        (fun j hj1 hj2 => by omega) hx
      rw [← hc']
      exact sum_congr rfl fun i hi => by
        simp only
        rw [if_pos (mem_range.1 hi)]
    · intro h2 _ j k hj1 hj2
      simp only at h2 hj1
      omega

/-- Clipping, and projecting to a simplex that is not full: the result is a projection to a face, as near as any point. -/
theorem nearest_spec (hi : AffInd s.pts s.n) (hN0 : 0 < N) (hN : GenPos s) (h1 : 1 ≤ s.n) (hn : s.n ≤ N + 1) (op : POp) (hop : op = .clip ∨ s.n ≤ N)
    {L : K} (hL : skip = true → ∀ W : Finset ℕ, W ⊆ range s.n → s.n - 1 ∈ W → ∀ γ : ℕ → K, ∑ v ∈ W, γ v = 1 → γ (s.n - 1) ≤ 0 →
      L ≤ sqd s p W γ) :
    ∃ r, projectSimplex s p op skip = some r ∧ IsCand s p skip (range s.n) (s.n - 1) r.face r.pt r.d2 ∧ (s.n ≤ N → r.contains = false) ∧
      ∀ α : ℕ → K, (∀ v ∈ range s.n, 0 ≤ α v) → ∑ v ∈ range s.n, α v = 1 → (skip = true → sqd s p (range s.n) α < L) →
          r.d2 ≤ sqd s p (range s.n) α := by
  obtain ⟨f, hf, hg, hfn, hinc', hv⟩ := ofSimp_spec hi hN h1 hn
  have hinc : f.inc f.n = s.n - 1 := by rw [hinc', hfn]
  rw [projectSimplex, if_neg (by omega), hf, Option.bind_some, ← hinc]
  rw [← hinc] at hL
  rcases Nat.lt_or_ge f.n N with hlt | hge
  · obtain ⟨r, e, hu, hall⟩ := find_front (op := op) hi hN hL f.n f 0 (PRes.init p) rfl hg hlt (fun _ => rfl) (Or.inl rfl)
    rw [hv] at hu hall
    refine ⟨r, by rw [e]; rfl, ?_, fun _ => hu.contains, hall⟩
    rcases hu.from_ with h | ⟨h, -⟩
    · exact h
    · cases h
  · have hfN : f.n = N := le_antisymm hg.dim hge
    have hclip : op = .clip := hop.resolve_right (by omega)
    subst hclip
    obtain ⟨β, hβ, -, hfull⟩ := proj_spec hg hi p
    have hp := hfull hfN
    obtain ⟨M, hM⟩ : ∃ M, f.n = M + 1 := ⟨f.n - 1, by omega⟩
    obtain ⟨r1, ins, hl, hin, hout⟩ := loop_front (depth := 0) (r := PRes.init p) (op := .clip) hi hN hL hM hg
      (fun _ => rfl) (fun h => by cases h.1) hβ
      (fun g r hgn hgood hgr hgf => find_front hi hN hL M g 1 r hgn hgood (by omega) hgr (Or.inr hgf))
    rw [show findFace s p .clip skip f.n f (p - s.pts (f.inc f.n)) 0 (PRes.init p) = findFace s p .clip skip (M + 1) f
      (p - s.pts (f.inc f.n)) 0 (PRes.init p) by rw [← hM], find_loop (Or.inl rfl), hl]
    cases ins
    · obtain ⟨hu, -, hall⟩ := hout rfl
      rw [hv] at hu hall
      refine ⟨r1, rfl, ?_, fun h => by omega, hall⟩
      rcases hu.from_ with h | ⟨h, -⟩
      · exact h
      · cases h
    · obtain ⟨e, hall⟩ := hin rfl
      refine ⟨_, rfl, ?_, fun h => by omega, ?_⟩
      · simp only [e, findEnd]
        simp only [if_true, if_neg (show ¬ f.n < N by omega), PRes.init, PRes.update, true_or]
        refine ⟨hg, hv.le, fun _ => rfl, β, hβ, hp.symm, ?_, hall⟩
        rw [sqd, hp, sub_self, dotProduct_zero]
      · intro α _ _ _
        simp only [e, findEnd]
        simp only [if_true, if_neg (show ¬ f.n < N by omega), PRes.init, PRes.update, true_or]
        exact self_dot_nonneg _

end Geomc.Shape
