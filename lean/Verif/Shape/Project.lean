import Verif.Shape.Search

/-!
# Projecting to the surface of a full simplex
-/

namespace Geomc.Shape

open Geomc.Vec Geomc.LU Finset

variable {K : Type} {N : ℕ} [Field K] [LinearOrder K] [IsStrictOrderedRing K]

variable {s : Simp K N} {f : Face K N} {p : Fin N → K} {skip : Bool} {r : PRes K N}

omit [IsStrictOrderedRing K] in
theorem find_special (hN0 : 0 < N) {n : ℕ} {toP : Fin N → K} (hb : dot f.normal toP < 0) (hn : f.n = N - 1) :
    findFace s p .project skip n f toP 1 r =
      some (r.update (dist2 p (projectToFace s f p toP)) (projectToFace s f p toP) f true, true) := by
  have e : (decide (1 > 0) && decide (dot f.normal toP < 0)) = true := by simp [hb]
  cases n <;> rw [findFace] <;> simp only [e, true_and, hn, if_true, findEnd, if_pos (show N - 1 < N by omega), and_self]

/-- What is found from within: a foot of a perpendicular to the plane of a facet, the nearest of the facets before `j`. -/
structure Inner (s : Simp K N) (p : Fin N → K) (j : ℕ) (r : PRes K N) : Prop where
  found : r.found = true
  back : r.back = true
  facet : ∃ k < j, r.face.verts = (range s.n).erase k ∧ Good s r.face ∧ ∃ γ : ℕ → K, IsProj s.pts ((range s.n).erase k) p γ ∧
    r.pt = comb s.pts ((range s.n).erase k) γ ∧ r.d2 = sqd s p ((range s.n).erase k) γ
  le : ∀ i < j, ∀ α : ℕ → K, ∑ v ∈ (range s.n).erase i, α v = 1 → r.d2 ≤ sqd s p ((range s.n).erase i) α

omit [IsStrictOrderedRing K] in
theorem update_true (r : PRes K N) (d2 : K) (q : Fin N → K) (g : Face K N) :
    r.update d2 q g true =
      if r.found = false ∨ (d2 < r.d2 ∧ r.back = true) then { r with found := true, face := g, pt := q, d2 := d2, back := true }
      else r := by
  rw [PRes.update]
  by_cases hc : r.found = false ∨ (d2 < r.d2 ∧ r.back = true)
  · rw [if_pos hc, if_pos]
    rcases hc with h | h
    · exact Or.inl h
    · exact Or.inr (Or.inl ⟨h.1, fun _ => h.2⟩)
  · rw [if_neg hc, if_neg]
    rintro (h | h | h)
    · exact hc (Or.inl h)
    · exact hc (Or.inr ⟨h.1, h.2 rfl⟩)
    · cases h.1

/-- Projecting to the surface of a full simplex. -/
theorem project_full (hi : AffInd s.pts s.n) (hN0 : 0 < N) (hN : GenPos s) (hn : s.n = N + 1) :
    ∃ r, ∃ β : ℕ → K, projectSimplex s p .project false = some r ∧ IsProj s.pts (range s.n) p β ∧
      comb s.pts (range s.n) β = p ∧
      ((∃ v < s.n, β v ≤ 0) → r.contains = false ∧ IsCand s p false (range s.n) N r.face r.pt r.d2 ∧
        ∀ α : ℕ → K, (∀ v ∈ range s.n, 0 ≤ α v) → ∑ v ∈ range s.n, α v = 1 → r.d2 ≤ sqd s p (range s.n) α) ∧
      ((∀ v < s.n, 0 < β v) → r.contains = true ∧ Inner s p s.n r) := by
  obtain ⟨f, hf, hg, hfn, hinc, hv⟩ := ofSimp_spec hi hN (by omega) hn.le
  have hfN : f.n = N := by omega
  obtain ⟨β, hβ, -, hp⟩ := proj_spec hg hi p
  replace hp := hp hfN
  obtain ⟨M, hM⟩ : ∃ M, f.n = M + 1 := ⟨f.n - 1, by omega⟩
  have hβ' := hβ
  rw [hv] at hβ'
  obtain ⟨⟨r1, ins⟩, hl, hinv⟩ := foldlM_range_inv (m := f.n + 1)
    (g := fun (x : PRes K N × Bool) i => (f.exclude i).bind fun sub =>
        let toSub := if i = f.n then (p - s.pts (f.inc f.n)) - f.bases (i - 1) else p - s.pts (f.inc f.n)
        if mag2 sub.normal = 0 then some ({ x.1 with degenerate := true }, x.2)
        else (findFace s p .project false M sub toSub (0 + 1) x.1).map fun y => (y.1, if y.2 then x.2 else false))
    (fun j x => x.1.contains = false ∧ (x.2 = true → (∀ i < j, 0 < β i) ∧ (j = 0 → x.1 = PRes.init p) ∧ (0 < j → Inner s p j x.1)) ∧
      (x.2 = false → (∃ i < j, β i ≤ 0) ∧ x.1.found = true ∧ x.1.back = false ∧
        IsCand s p false (range s.n) N x.1.face x.1.pt x.1.d2 ∧
        ∀ i < j, β i ≤ 0 → ∀ α : ℕ → K, (∀ v ∈ (range s.n).erase i, 0 ≤ α v) → ∑ v ∈ (range s.n).erase i, α v = 1 →
          x.1.d2 ≤ sqd s p ((range s.n).erase i) α)) (x0 := (PRes.init p, true))
    ⟨rfl, fun _ => ⟨fun i hi => by omega, fun _ => rfl, fun h => by omega⟩, fun h' => by cases h'⟩ (by
      rintro i him ⟨x, ins⟩ ⟨hx0, hx1, hx2⟩
      obtain ⟨g, hex, hgn, hgood, hgv, hgr, hgm, hto, hsign⟩ := child_spec hg hi hN (by omega) (show i ≤ f.n by omega) hβ
      rw [hex, Option.bind_some]
      simp only
      rw [if_neg hgm, hto]
      rw [hinc, hv] at hgv
      rw [hinc] at hsign
      by_cases hpos : 0 < β i
      · rw [find_special hN0 (hsign.2 hpos) (by omega)]
        obtain ⟨γ, hγ, hq, -⟩ := proj_spec hgood hi p
        rw [hq (by omega), Option.map_some]
        refine ⟨_, rfl, ?_, ?_, ?_⟩
        · simp only
          rw [update_true]
          split_ifs
          · exact hx0
          · exact hx0
        · intro hins
          simp only [if_true] at hins
          obtain ⟨hall, hz, hpo⟩ := hx1 hins
          refine ⟨fun k hk => ?_, fun h => by omega, fun _ => ?_⟩
          · rcases Nat.lt_or_ge k i with hki | hki
            · exact hall k hki
            · rw [show k = i by omega]
              exact hpos
          have hγ' := hγ
          rw [hgv] at hγ'
          rw [hgv, dist2_eq]
          simp only
          rw [update_true]
          split_ifs with hc
          · refine ⟨rfl, rfl, ⟨i, by omega, hgv, hgood, γ, hγ', rfl, rfl⟩, fun k hk α hα => ?_⟩
            rcases Nat.lt_or_ge k i with hki | hki
            · have hin := hpo (by omega)
              rcases hc with hc | hc
              · have := hin.found
                simp only at this
                rw [hc] at this
                cases this
              · exact hc.1.le.trans (hin.le k hki α hα)
            · obtain rfl : k = i := by omega
              exact hγ'.le hα
          · have hi0 : 0 < i := by
              rcases Nat.eq_zero_or_pos i with h0 | h0
              · have e := hz h0
                simp only at e
                rw [e] at hc
                exact absurd (Or.inl rfl) hc
              · exact h0
            obtain ⟨h1, h2, ⟨k, hk, h3⟩, h4⟩ := hpo hi0
            refine ⟨h1, h2, ⟨k, by omega, h3⟩, fun l hl α hα => ?_⟩
            rcases Nat.lt_or_ge l i with hli | hli
            · exact h4 l hli α hα
            · obtain rfl : l = i := by omega
              have : ¬ (p - comb s.pts ((range s.n).erase l) γ) ⬝ᵥ (p - comb s.pts ((range s.n).erase l) γ) < x.d2 :=
                fun h => hc (Or.inr ⟨h, h2⟩)
              exact (not_lt.1 this).trans (hγ'.le hα)
        · intro hins
          simp only [if_true] at hins
          obtain ⟨⟨k, hk, hk'⟩, h1, h2, h3, h4⟩ := hx2 hins
          have hsame : x.update (dist2 p (comb s.pts g.verts γ)) (comb s.pts g.verts γ) g true = x := by
            rw [update_true, if_neg]
            rintro (h | h)
            · simp only at h1
              rw [h1] at h
              cases h
            · simp only at h2
              rw [h2] at h
              cases h.2
          simp only
          rw [hsame]
          refine ⟨⟨k, by omega, hk'⟩, h1, h2, h3, fun l hl hl' => ?_⟩
          rcases Nat.lt_or_ge l i with hli | hli
          · exact h4 l hli hl'
          · rw [show l = i by omega] at hl'
            exact absurd hpos (not_lt.2 hl')
      · obtain ⟨r2, e2, hu2, hle2⟩ := find_front (skip := false) (rt := N) (op := .project) (L := 0) (p := p) hi hN (fun h => by cases h) M g (0 + 1) x
          (by omega) hgood (by omega) (fun h => by cases h) (Or.inr fun h' => hpos (hsign.1 h'))
        rw [hgv] at hle2
        have hu2' : Upd s p false (range s.n) N x r2 := hu2.mono (by rw [hgv]; exact erase_subset _ _)
        refine ⟨(r2, false), ?_, hu2.contains.trans hx0, fun h' => (by cases h'), fun _ => ?_⟩
        · rw [e2]
          simp
        have hfrom : IsCand s p false (range s.n) N r2.face r2.pt r2.d2 := by
          rcases hu2'.from_ with h | ⟨h1, h2, e3, e4, e5⟩
          · exact h
          · rw [e3, e4, e5]
            cases hins : ins
            · exact (hx2 hins).2.2.2.1
            · rcases Nat.eq_zero_or_pos i with h0 | h0
              · have e := (hx1 hins).2.1 h0
                simp only at e
                rw [e] at h1
                cases h1
              · have := ((hx1 hins).2.2 h0).back
                simp only at this
                rw [h2] at this
                cases this
        refine ⟨⟨i, by omega, not_lt.1 hpos⟩, hu2.found, hu2.front, hfrom, fun l hl hl' α h0 hα => ?_⟩
        rcases Nat.lt_or_ge l i with hli | hli
        · cases hins : ins
          · obtain ⟨-, h1, h2, -, h4⟩ := hx2 hins
            exact (hu2.le h1 h2).trans (h4 l hli hl' α h0 hα)
          · exact absurd ((hx1 hins).1 l hli) (not_lt.2 hl')
        · obtain rfl : l = i := by omega
          exact hle2 α h0 hα (fun h => by cases h))
  simp only at hinv
  obtain ⟨h0, hin, hout⟩ := hinv
  have hll : loopFaces s p .project false M f 0 (PRes.init p) = some (r1, ins) := hl
  have hps : projectSimplex s p .project false =
      some (findEnd s p .project f (p - s.pts (f.inc f.n)) false ins r1).1 := by
    rw [projectSimplex, if_neg (by omega), hf, Option.bind_some, show s.n - 1 = f.inc f.n by rw [hinc, hfn],
      show findFace s p .project false f.n f (p - s.pts (f.inc f.n)) 0 (PRes.init p) = findFace s p .project false (M + 1) f
        (p - s.pts (f.inc f.n)) 0 (PRes.init p) by rw [← hM], find_loop (Or.inl rfl), hll]
    rfl
  refine ⟨_, β, hps, hβ', by rw [← hv]; exact hp, ?_, ?_⟩
  · rintro ⟨v, hvn, hbv⟩
    have hins : ins = false := by
      cases h : ins
      · rfl
      · exact absurd ((hin h).1 v (by omega)) (not_lt.2 hbv)
    obtain ⟨-, -, -, h3, h4⟩ := hout hins
    rw [hins]
    refine ⟨h0, h3, fun α ha hα => ?_⟩
    obtain ⟨u, hu, hbu, γ, h5, h6, h7⟩ := hβ'.exit ha hα ⟨v, mem_range.2 hvn, hbv⟩
    exact (h4 u (by have := mem_range.1 hu; omega) hbu γ h5 h6).trans h7
  · intro hall
    have hins : ins = true := by
      cases h : ins
      · obtain ⟨⟨k, hk, hk'⟩, -⟩ := hout h
        exact absurd (hall k (by omega)) (not_lt.2 hk')
      · rfl
    obtain ⟨-, -, h3⟩ := hin hins
    obtain ⟨h4, h5, h6, h7⟩ := h3 (by omega)
    rw [hins]
    simp only [findEnd, if_true, if_neg (show ¬ f.n < N by omega), reduceCtorEq, if_false, true_and]
    rw [show f.n + 1 = s.n by omega] at h6 h7
    exact ⟨h4, h5, h6, h7⟩

/-- The half-spaces whose intersection is a full simplex. -/
theorem facets (hi : AffInd s.pts s.n) (hN0 : 0 < N) (hN : GenPos s) (hn : s.n = N + 1) :
    ∃ m ρ : ℕ → Fin N → K, ∀ i < s.n, m i ≠ 0 ∧ ∃ κ : K, 0 < κ ∧ ∀ x : Fin N → K, ∀ β : ℕ → K,
      IsProj s.pts (range s.n) x β → m i ⬝ᵥ (x - ρ i) = -κ * β i := by
  obtain ⟨f, hf, hg, hfn, hinc, hv⟩ := ofSimp_spec hi hN (by omega) hn.le
  have hex : ∀ i, ∃ m ρ : Fin N → K, i < s.n → m ≠ 0 ∧ ∃ κ : K, 0 < κ ∧ ∀ x : Fin N → K, ∀ β : ℕ → K,
      IsProj s.pts (range s.n) x β → m ⬝ᵥ (x - ρ) = -κ * β i := by
    intro i
    by_cases hin : i < s.n
    · obtain ⟨g, -, -, -, -, -, hm, -, -, κ, hκ, h⟩ := exclude_spec hg hi hN (by omega) (show i ≤ f.n by omega)
      rw [hv, hinc] at h
      exact ⟨g.normal, _, fun _ => ⟨hm, κ, hκ, h⟩⟩
    · exact ⟨0, 0, fun h => absurd h hin⟩
  choose m ρ h using hex
  exact ⟨m, ρ, h⟩

end Geomc.Shape
