import Verif.Shape.GjkModel
import Verif.Shape.ProjectProps
import Mathlib.Analysis.Convex.Hull
import Mathlib.Analysis.Convex.Combination

/-!
# C57: the GJK intersection test
-/

namespace Geomc.Shape

open Geomc.Vec Geomc.LU Finset

variable {K : Type} {N : ℕ} [Field K] [LinearOrder K]

variable {supA supB : (Fin N → K) → Fin N → K} {A B : Set (Fin N → K)}

omit [LinearOrder K] in
theorem projectOn_zero [DecidableEq K] (a d : Fin N → K) (h : d = 0) : projectOn a d = 0 := by
  rw [projectOn]
  simp [h, mag2_eq]

/-- The loop gives an answer of a round, or gives up. -/
theorem loop_inv (P : Simp K N → (Fin N → K) → Prop) (Q : Bool → (Fin N → K) → Prop) {axis : Fin N → K}
    (hstep : ∀ s d x, P s d → gjkStep supA supB s d = some x → match x with
      | .done h ax => Q h ax
      | .next s d => P s d ∧ mag2 d ≠ 0) :
    ∀ (left it : ℕ) (s : Simp K N) (d : Fin N → K) (r : GRes K N), P s d → gjkLoop supA supB axis left it s d = some r →
      Q r.hit r.axis ∨ (r.hit = true ∧ r.axis = axis ∧ r.iterations = it + left) := by
  intro left
  induction left with
  | zero =>
    intro it s d r hP h
    rw [gjkLoop] at h
    obtain ⟨x, hx, rfl⟩ := Option.map_eq_some_iff.1 h
    have := hstep s d x hP hx
    cases x with
    | done h ax => exact Or.inl this
    | next s d => exact Or.inr ⟨rfl, rfl, rfl⟩
  | succ left ih =>
    intro it s d r hP h
    rw [gjkLoop] at h
    obtain ⟨x, hx, h⟩ := Option.bind_eq_some_iff.1 h
    have := hstep s d x hP hx
    cases x with
    | done h' ax =>
      simp only [Option.some.injEq] at h
      rw [← h]
      exact Or.inl this
    | next s' d' =>
      simp only at h this
      rw [if_neg this.2] at h
      rcases ih _ _ _ _ this.1 h with h | h
      · exact Or.inl h
      · refine Or.inr ⟨h.1, h.2.1, ?_⟩
        rw [h.2.2]
        omega

variable [IsStrictOrderedRing K]

theorem loop_false {axis : Fin N → K} :
    ∀ (left it : ℕ) (s : Simp K N) (d : Fin N → K) (r : GRes K N), gjkLoop supA supB axis left it s d = some r → r.hit = false →
      ∃ d', dot (supA d' - supB (-d')) d' < 0 ∧ r.axis = -projectOn (supA d' - supB (-d')) d' := by
  have hs : ∀ s d h ax, gjkStep supA supB s d = some (.done h ax) → h = false →
      ∃ d', dot (supA d' - supB (-d')) d' < 0 ∧ ax = -projectOn (supA d' - supB (-d')) d' := by
    intro s d h ax e hf
    rw [gjkStep] at e
    simp only at e
    split_ifs at e with hc
    · simp only [Option.some.injEq, GStep.done.injEq] at e
      refine ⟨d, ?_, e.2.symm⟩
      have := e.1
      rw [hf, decide_eq_false_iff_not] at this
      exact not_le.1 this
    · obtain ⟨r, -, e⟩ := Option.bind_eq_some_iff.1 e
      split_ifs at e
      · simp only [Option.some.injEq, GStep.done.injEq] at e
        rw [hf] at e
        cases e.1
      · cases e
  intro left
  induction left with
  | zero =>
    intro it s d r h hf
    rw [gjkLoop] at h
    obtain ⟨x, hx, rfl⟩ := Option.map_eq_some_iff.1 h
    cases x with
    | done h' ax => exact hs s d h' ax hx hf
    | next s d => cases hf
  | succ left ih =>
    intro it s d r h hf
    rw [gjkLoop] at h
    obtain ⟨x, hx, h⟩ := Option.bind_eq_some_iff.1 h
    cases x with
    | done h' ax =>
      simp only [Option.some.injEq] at h
      rw [← h] at hf ⊢
      exact hs s d h' ax hx hf
    | next s' d' =>
      simp only at h
      split_ifs at h
      · simp only [Option.some.injEq] at h
        rw [← h] at hf
        cases hf
      · exact ih _ _ _ _ h hf

/-- **C57**: if the test answers that the shapes are apart they are, in every dimension, whatever the limit and the state left by
the previous call: `separation_axis` separates them, with a gap of at least its own length along it. -/
theorem C57_disjoint (hA : ∀ d, d ≠ 0 → IsSupport A d (supA d)) (hB : ∀ d, d ≠ 0 → IsSupport B d (supB d)) {maxIt : ℕ}
    {axis : Fin N → K} {buffer : Simp K N} {r : GRes K N} (h : gjk supA supB maxIt axis buffer = some r) (hf : r.hit = false) :
    (∀ x ∈ A, ∀ y ∈ B, dot x r.axis + mag2 r.axis ≤ dot y r.axis) ∧ 0 < mag2 r.axis ∧ A ∩ B = ∅ := by
  obtain ⟨d, hd, hax⟩ := loop_false _ _ _ _ _ h hf
  have hd0 : d ≠ 0 := by
    rintro rfl
    rw [dot_eq, dotProduct_zero] at hd
    exact lt_irrefl _ hd
  have hdd := self_dot_pos hd0
  rw [dot_eq] at hd
  obtain ⟨c, hc0, hc⟩ : ∃ c : K, 0 < c ∧ r.axis = c • d ∧ c * (d ⬝ᵥ d) = -((supA d - supB (-d)) ⬝ᵥ d) := by
    refine ⟨-((supA d - supB (-d)) ⬝ᵥ d) / (d ⬝ᵥ d), div_pos (neg_pos.2 hd) hdd, ?_, div_mul_cancel₀ _ hdd.ne'⟩
    rw [hax, projectOn_eq, ← neg_smul, neg_div]
  obtain ⟨hax', hcd⟩ := hc
  have hpos : 0 < mag2 r.axis := by
    rw [hax', mag2_eq, smul_dotProduct, dotProduct_smul, smul_eq_mul, smul_eq_mul]
    positivity
  have hsep : ∀ x ∈ A, ∀ y ∈ B, dot x r.axis + mag2 r.axis ≤ dot y r.axis := by
    intro x hx y hy
    have h1 := (hA d hd0).2 x hx
    have h2 := (hB (-d) (neg_ne_zero.2 hd0)).2 y hy
    rw [dot_eq, dot_eq] at h1 h2
    rw [dotProduct_neg, dotProduct_neg] at h2
    rw [hax', mag2_eq, dot_eq, dot_eq, dotProduct_smul, dotProduct_smul, smul_dotProduct, dotProduct_smul, smul_eq_mul, smul_eq_mul,
      smul_eq_mul, smul_eq_mul, hcd, ← mul_add]
    refine mul_le_mul_of_nonneg_left ?_ hc0.le
    rw [sub_dotProduct]
    linarith
  refine ⟨hsep, hpos, Set.eq_empty_iff_forall_notMem.2 fun x hx => ?_⟩
  have := hsep x hx.1 x hx.2
  linarith

/-! ### In two and three dimensions there is always a result -/

omit [IsStrictOrderedRing K] in
theorem update_found (r : PRes K N) (d2 : K) (q : Fin N → K) (g : Face K N) (b : Bool) : (r.update d2 q g b).found = true := by
  rw [PRes.update]
  by_cases hc : r.found = false ∨ (d2 < r.d2 ∧ (b = true → r.back = true)) ∨ (b = false ∧ r.back = true)
  · rw [if_pos hc]
  · rw [if_neg hc]
    cases h : r.found
    · exact absurd (Or.inl h) hc
    · rfl

omit [IsStrictOrderedRing K] in
theorem update_face {m : ℕ} (r : PRes K N) (d2 : K) (q : Fin N → K) (g : Face K N) (b : Bool) (h1 : r.face.n ≤ m) (h2 : g.n ≤ m) :
    (r.update d2 q g b).face.n ≤ m := by
  rw [PRes.update]
  split_ifs
  · exact h2
  · exact h1

omit [IsStrictOrderedRing K] in
theorem exclude_some (hN : N = 2 ∨ N = 3) (f : Face K N) (i : ℕ) : ∃ g, f.exclude i = some g ∧ g.n = f.n - 1 := by
  have horth : ∀ b : ℕ → Fin N → K, ∃ o, orthogonalAny N b = some o := by
    rcases hN with rfl | rfl <;> exact fun b => ⟨_, rfl⟩
  have hw : ∀ (out : Face K N) (e : Fin N → K), ∃ g, Face.withNormal out e = some g ∧ g.n = out.n := by
    intro out e
    rw [Face.withNormal]
    obtain ⟨o, ho⟩ := horth out.bases
    rw [ho]
    split_ifs <;> exact ⟨_, rfl, rfl⟩
  rw [Face.exclude]
  split_ifs <;> exact hw _ _

omit [IsStrictOrderedRing K] in
theorem find_some (hN : N = 2 ∨ N = 3) (s : Simp K N) (p : Fin N → K) (skip : Bool) (m : ℕ) :
    ∀ (n : ℕ) (f : Face K N) (toP : Fin N → K) (depth : ℕ) (r : PRes K N),
      ∃ r' b, findFace s p .clip skip n f toP depth r = some (r', b) ∧ (depth = 0 → b = false) ∧ (b = false ∨ r.found = true → r'.found = true) ∧
        (r.face.n ≤ m → f.n ≤ m → r'.face.n ≤ m) := by
  intro n
  induction n with
  | zero =>
    intro f toP depth r
    rw [findFace]
    simp only [reduceCtorEq, false_and, and_false, if_false]
    split_ifs with hb
    · refine ⟨_, _, rfl, fun h => ?_, fun h => h.resolve_left (by simp), fun h _ => h⟩
      rw [h] at hb
      simp at hb
    · exact ⟨_, _, rfl, fun _ => rfl, fun _ => update_found _ _ _ _ _, fun h1 h2 => update_face _ _ _ _ _ h1 h2⟩
  | succ n ih =>
    intro f toP depth r
    rw [findFace]
    simp only [reduceCtorEq, false_and, and_false, if_false]
    by_cases hb : (decide (depth > 0) && decide (dot f.normal toP < 0)) = true
    · rw [if_pos hb]
      refine ⟨_, _, rfl, fun h => ?_, fun h => h.resolve_left (by simp), fun h _ => h⟩
      rw [h] at hb
      simp at hb
    · rw [if_neg hb]
      obtain ⟨⟨r1, ins⟩, hf, hinv⟩ := foldlM_range_inv (m := f.n + if skip then 0 else 1)
        (g := fun (x : PRes K N × Bool) i => (f.exclude i).bind fun sub =>
          let toSub := if i = f.n then toP - f.bases (i - 1) else toP
          if mag2 sub.normal = 0 then some ({ x.1 with degenerate := true }, x.2)
          else (findFace s p .clip skip n sub toSub (depth + 1) x.1).map fun y => (y.1, if y.2 then x.2 else false))
        (fun _ x => (x.2 = false ∨ r.found = true → x.1.found = true) ∧ (r.face.n ≤ m → f.n ≤ m → x.1.face.n ≤ m)) (x0 := (r, true))
        ⟨fun h => h.resolve_left (by simp), fun h _ => h⟩ (by
          rintro i - ⟨x, ins⟩ ⟨hx, hxm⟩
          obtain ⟨g, hg, hgn⟩ := exclude_some hN f i
          rw [hg, Option.bind_some]
          simp only
          by_cases h1 : mag2 g.normal = 0
          · rw [if_pos h1]
            exact ⟨_, rfl, hx, hxm⟩
          · rw [if_neg h1]
            obtain ⟨r', b, e, -, hfo, hfm⟩ := ih g (if i = f.n then toP - f.bases (i - 1) else toP) (depth + 1) x
            rw [e]
            refine ⟨_, rfl, fun h => hfo ?_, fun h1 h2 => hfm (hxm h1 h2) (by omega)⟩
            simp only at h hx
            cases b
            · exact Or.inl rfl
            · exact Or.inr (hx h))
      simp only at hinv
      refine ⟨(findEnd s p .clip f toP (decide (depth > 0) && decide (dot f.normal toP < 0)) ins r1).1,
        decide (depth > 0) && decide (dot f.normal toP < 0), by rw [hf]; rfl, fun _ => by simpa using hb, fun _ => ?_, fun h3 h4 => ?_⟩
      · simp only [findEnd, if_true]
        split_ifs with h1 h2
        · exact update_found _ _ _ _ _
        · exact update_found _ _ _ _ _
        · exact hinv.1 (Or.inl (by simpa using h1))
      · have h5 := hinv.2 h3 h4
        simp only [findEnd, if_true]
        split_ifs with h1 h2
        · exact update_face _ _ _ _ _ h5 h4
        · exact update_face _ _ _ _ _ h5 h4
        · exact h5

omit [IsStrictOrderedRing K] in
theorem project_some (hN : N = 2 ∨ N = 3) (s : Simp K N) (h1 : 1 ≤ s.n) (hn : s.n ≤ N + 1) (p : Fin N → K) (skip : Bool) :
    ∃ r, projectSimplex s p .clip skip = some r ∧ r.found = true ∧ r.face.n < s.n := by
  have hf : ∃ f, Face.ofSimp s (decide (s.n > 2)) = some f ∧ f.n = s.n - 1 := by
    rw [Face.ofSimp]
    simp only [decide_eq_true_eq]
    split_ifs with hc
    · obtain rfl : N = 3 := by omega
      have h3 : s.n = 3 := by omega
      rw [nullspaceAny, if_neg (by omega), if_pos (by omega)]
      exact ⟨_, rfl, rfl⟩
    · exact ⟨_, rfl, rfl⟩
  obtain ⟨f, hf, hfn⟩ := hf
  obtain ⟨r, b, e, h2, h3, h4⟩ := find_some hN s p skip (s.n - 1) f.n f (p - s.pts (s.n - 1)) 0 (PRes.init p)
  refine ⟨r, by rw [projectSimplex, if_neg (by omega), hf, Option.bind_some, e]; rfl, h3 (Or.inl (h2 rfl)), ?_⟩
  have := h4 (Nat.zero_le _) hfn.le
  omega

/-! ### Answers that the shapes meet -/

/-- The simplex and search direction before a round: independent points of the difference, with the point of the simplex
nearest to the origin strictly within and the direction from there to the origin. -/
structure GInv (D : Set (Fin N → K)) (s : Simp K N) (d w : Fin N → K) : Prop where
  pos : 1 ≤ s.n
  le : s.n ≤ N
  ind : AffInd s.pts s.n
  mem : ∀ i < s.n, s.pts i ∈ D
  wts : ∃ l : ℕ → K, (∀ i < s.n, 0 < l i) ∧ ∑ i ∈ range s.n, l i = 1 ∧ w = ∑ i ∈ range s.n, l i • s.pts i
  orth : ∀ i < s.n, s.pts i ⬝ᵥ w = w ⬝ᵥ w
  ne : w ≠ 0
  dir : ∃ c : K, 0 < c ∧ d = -(c • w)

theorem convex_comb {D : Set (Fin N → K)} (hD : Convex K D) {V : Finset ℕ} {pts : ℕ → Fin N → K} (hm : ∀ v ∈ V, pts v ∈ D) {l : ℕ → K}
    (h0 : ∀ v ∈ V, 0 ≤ l v) (h1 : ∑ v ∈ V, l v = 1) : comb pts V l ∈ D := hD.sum_mem h0 h1 hm

/-- One round, if the origin is not in the difference: a separation is found, or the nearest point gets nearer. -/
theorem step_spec (hN : N = 2 ∨ N = 3) {D : Set (Fin N → K)} (hD : Convex K D) (h0 : (0 : Fin N → K) ∉ D)
    (hsup : ∀ d, d ≠ 0 → IsSupport D d (supA d - supB (-d))) {s : Simp K N} {d w : Fin N → K} (h : GInv D s d w) :
    (∃ ax, gjkStep supA supB s d = some (.done false ax)) ∨
    ∃ s' d' w', gjkStep supA supB s d = some (.next s' d') ∧ GInv D s' d' w' ∧ w' ⬝ᵥ w' < w ⬝ᵥ w ∧ mag2 d' ≠ 0 ∧
      ∀ i < s'.n, (∃ j < s.n, s'.pts i = s.pts j) ∨ s'.pts i = supA d - supB (-d) := by
  obtain ⟨hn1, hnN, hind, hmem, ⟨l, hl0, hl1, hw⟩, horth, hw0, c, hc, hd⟩ := h
  have hww := self_dot_pos hw0
  have hd0 : d ≠ 0 := by
    rw [hd]
    exact neg_ne_zero.2 (smul_ne_zero hc.ne' hw0)
  obtain ⟨a, ha⟩ : ∃ a, a = supA d - supB (-d) := ⟨_, rfl⟩
  have haD : a ∈ D := ha ▸ (hsup d hd0).1
  have hdot : ∀ x : Fin N → K, x ⬝ᵥ d = -(c * (x ⬝ᵥ w)) := fun x => by rw [hd, dotProduct_neg, dotProduct_smul, smul_eq_mul]
  rw [gjkStep, ← ha]
  simp only
  by_cases hk : dot a d < 0
  · left
    rw [if_pos (Or.inl hk)]
    exact ⟨_, by rw [decide_eq_false (not_le.2 hk)]⟩
  right
  have hk' := hk
  rw [dot_eq, hdot] at hk'
  have haw : a ⬝ᵥ w ≤ 0 := by
    by_contra hpos
    exact hk' (neg_neg_of_pos (mul_pos hc (not_le.1 hpos)))
  have hnew : ∀ i < s.n, a ≠ s.pts i := by
    rintro i hi rfl
    have := horth i hi
    linarith
  rw [if_neg (by
    rintro (h | h)
    · exact hk h
    · exact hnew _ (by omega) h)]
  -- the larger simplex
  obtain ⟨t, ht⟩ : ∃ t, t = s.insert a := ⟨_, rfl⟩
  have htn : t.n = s.n + 1 := by
    rw [ht, Simp.insert, if_pos (by omega)]
  have htp : ∀ i, t.pts i = if i = s.n then a else s.pts i := by
    intro i
    rw [ht, Simp.insert, if_pos (by omega)]
    simp only [Function.update_apply]
  have hold : ∀ i < s.n, t.pts i = s.pts i := fun i hi => by rw [htp, if_neg (by omega)]
  have hlast : t.pts s.n = a := by rw [htp, if_pos rfl]
  have htD : ∀ i < t.n, t.pts i ∈ D := by
    intro i hi
    rw [htp]
    split_ifs with h
    · exact haD
    · exact hmem i (by omega)
  have htw : ∀ i < s.n, t.pts i ⬝ᵥ w = w ⬝ᵥ w := fun i hi => by rw [hold i hi, horth i hi]
  have htind : AffInd t.pts t.n := by
    intro v hv1 hv2
    rw [htn] at hv1 hv2 ⊢
    have e : ∑ i ∈ range (s.n + 1), v i * (t.pts i ⬝ᵥ w) = 0 := by
      have := congrArg (· ⬝ᵥ w) hv2
      simp only [sum_dotProduct, smul_dotProduct, smul_eq_mul, zero_dotProduct] at this
      exact this
    rw [sum_range_succ, hlast, sum_congr rfl (fun i hi => by rw [htw i (mem_range.1 hi)]), ← sum_mul] at e
    rw [sum_range_succ] at hv1 hv2
    have hvn : v s.n = 0 := by
      have e2 : v s.n * (a ⬝ᵥ w - w ⬝ᵥ w) = 0 := by linear_combination e - (w ⬝ᵥ w) * hv1
      rcases mul_eq_zero.1 e2 with h | h
      · exact h
      · linarith
    rw [hvn, add_zero] at hv1
    rw [hvn, zero_smul, add_zero, sum_congr rfl (fun i hi => by rw [hold i (mem_range.1 hi)])] at hv2
    intro i hi
    rcases Nat.lt_or_ge i s.n with h | h
    · exact hind v hv1 hv2 i h
    · rw [show i = s.n by omega]
      exact hvn
  have htn1 : t.n - 1 = s.n := by omega
  -- far away without the new point
  have hL : ∀ W : Finset ℕ, W ⊆ range t.n → t.n - 1 ∈ W → ∀ γ : ℕ → K, ∑ v ∈ W, γ v = 1 → γ (t.n - 1) ≤ 0 →
      w ⬝ᵥ w ≤ sqd t 0 W γ := by
    intro W hW hrt γ hγ hγ0
    rw [htn1] at hrt hγ0
    have e : comb t.pts W γ ⬝ᵥ w = ∑ v ∈ W, γ v * (t.pts v ⬝ᵥ w) := by
      rw [comb, sum_dotProduct]
      exact sum_congr rfl fun v _ => by rw [smul_dotProduct, smul_eq_mul]
    rw [← add_sum_erase W _ hrt, hlast, sum_congr (g := fun v => γ v * (w ⬝ᵥ w)) rfl (fun v hv => by
      have h1 := mem_range.1 (hW (mem_of_mem_erase hv))
      have h2 := ne_of_mem_erase hv
      rw [htw v (by omega)]), ← sum_mul] at e
    rw [← add_sum_erase W γ hrt] at hγ
    have h1 : w ⬝ᵥ w ≤ comb t.pts W γ ⬝ᵥ w := by
      rw [e]
      have h2 : ∑ v ∈ W.erase s.n, γ v = 1 - γ s.n := by linarith
      rw [h2]
      have h3 := mul_nonneg (neg_nonneg.2 hγ0) (show 0 ≤ w ⬝ᵥ w - a ⬝ᵥ w by linarith)
      linarith
    have h2 := cauchy (comb t.pts W γ) w
    rw [sqd, zero_sub, neg_dotProduct, dotProduct_neg, neg_neg]
    by_contra hc
    have h3 := not_le.1 hc
    have h4 : (w ⬝ᵥ w) ^ 2 ≤ (comb t.pts W γ ⬝ᵥ w) ^ 2 := pow_le_pow_left₀ hww.le h1 2
    have h5 := mul_lt_mul_of_pos_right h3 hww
    nlinarith
  obtain ⟨r, e, hcand, -, hall⟩ := nearest_spec (skip := true) (p := 0) htind (by omega) (.small (by omega)) (by omega) (by omega) .clip
    (Or.inl rfl) (fun _ => hL)
  -- something nearer
  have hnear : ∃ α : ℕ → K, (∀ v ∈ range t.n, 0 ≤ α v) ∧ ∑ v ∈ range t.n, α v = 1 ∧ sqd t 0 (range t.n) α < w ⬝ᵥ w := by
    have hne : 0 < (a - w) ⬝ᵥ (a - w) := self_dot_pos (by
      intro h
      rw [sub_eq_zero.1 h] at haw
      linarith)
    obtain ⟨u, hu0, hu1, hu⟩ : ∃ u : K, 0 < u ∧ u ≤ 1 ∧ u * ((a - w) ⬝ᵥ (a - w)) < 2 * (w ⬝ᵥ w) := by
      refine ⟨min 1 (w ⬝ᵥ w / ((a - w) ⬝ᵥ (a - w))), lt_min zero_lt_one (by positivity), min_le_left _ _, ?_⟩
      have := mul_le_mul_of_nonneg_right (min_le_right (1 : K) (w ⬝ᵥ w / ((a - w) ⬝ᵥ (a - w)))) hne.le
      rw [div_mul_cancel₀ _ hne.ne'] at this
      linarith
    refine ⟨fun v => if v = s.n then u else (1 - u) * l v, ?_, ?_, ?_⟩
    · intro v hv
      have := mem_range.1 hv
      simp only
      split_ifs with h
      · exact hu0.le
      · exact mul_nonneg (by linarith) (hl0 v (by omega)).le
    · rw [htn, sum_range_succ, if_pos rfl, sum_congr rfl (fun i hi => by rw [if_neg (by have := mem_range.1 hi; omega)]), ← mul_sum, hl1]
      ring
    · have hx : comb t.pts (range t.n) (fun v => if v = s.n then u else (1 - u) * l v) = w + u • (a - w) := by
        rw [comb, htn, sum_range_succ, if_pos rfl, hlast, sum_congr rfl (fun i hi => by
          rw [if_neg (by have := mem_range.1 hi; omega), hold i (mem_range.1 hi), mul_smul]), ← smul_sum, ← hw]
        module
      rw [sqd, hx, zero_sub, neg_dotProduct, dotProduct_neg, neg_neg, add_dotProduct, dotProduct_add, dotProduct_add, smul_dotProduct,
        smul_dotProduct, dotProduct_smul, dotProduct_smul, smul_eq_mul, smul_eq_mul, smul_eq_mul, smul_eq_mul,
        dotProduct_comm w (a - w), show (a - w) ⬝ᵥ w = a ⬝ᵥ w - w ⬝ᵥ w from sub_dotProduct _ _ _]
      have h3 := mul_pos hu0 (sub_pos.2 hu)
      have h4 := mul_nonneg hu0.le (neg_nonneg.2 haw)
      linarith
  obtain ⟨α, hα0, hα1, hαL⟩ := hnear
  have hd2 : r.d2 < w ⬝ᵥ w := (hall α hα0 hα1 (fun _ => hαL)).trans_lt hαL
  obtain ⟨hg, hsub, hroot, β, hβ, hpt, hrd2, hpos⟩ := hcand
  replace hroot := hroot rfl
  have hβrt : 0 < β (t.n - 1) := by
    by_contra hcc
    have h1 := hL r.face.verts hsub (hroot ▸ Face.mem_verts le_rfl) β hβ.sum (not_lt.1 hcc)
    rw [← hrd2] at h1
    linarith
  have hallpos : ∀ v ∈ r.face.verts, 0 < β v := by
    intro v hv
    by_cases hvr : v = t.n - 1
    · rw [hvr]
      exact hβrt
    · exact hpos v hv fun _ => hvr
  have hptD : r.pt ∈ D := by
    rw [hpt]
    exact convex_comb hD (fun v hv => htD v (mem_range.1 (hsub hv))) (fun v hv => (hallpos v hv).le) hβ.sum
  have hpt0 : r.pt ≠ 0 := fun h => h0 (h ▸ hptD)
  have hfn : r.face.n < N := by
    refine lt_of_le_of_ne hg.dim fun h => hpt0 ?_
    rw [hpt]
    exact hg.full_proj htind h hβ
  obtain ⟨c', hc', hdir⟩ := normalDirection_spec (p := 0) htind hg hβ hpt hpt0.symm
  rw [zero_sub, smul_neg] at hdir
  have hd'0 : normalDirection t 0 r ≠ 0 := by
    rw [hdir]
    exact neg_ne_zero.2 (smul_ne_zero hc'.ne' hpt0)
  have hfound : r.found = true := by
    obtain ⟨r', e', hr', -⟩ := project_some hN t (by omega) (by omega) 0 true
    rw [e] at e'
    rw [Option.some.inj e']
    exact hr'
  refine ⟨projectedFace t r, normalDirection t 0 r, r.pt, ?_, ⟨?_, ?_, ?_, ?_, ?_, ?_, hpt0, c', hc', hdir⟩, ?_, ?_, ?_⟩
  · rw [← ht, e, Option.bind_some, if_neg (by rw [hfound]; simp), if_neg]
    rintro (h | h)
    · simp only [projectedFace] at h
      omega
    · exact hd'0 h
  · simp [projectedFace]
  · simp only [projectedFace]
    omega
  · have ha := hg.affInd htind
    intro w hw1 hw2 i hi'
    simp only [projectedFace] at hw1 hw2 hi'
    refine ha w hw1 (Eq.trans ?_ hw2) i hi'
    exact sum_congr rfl fun j hj => by rw [if_pos (by have := mem_range.1 hj; omega)]
  · intro i hi
    simp only [projectedFace] at hi ⊢
    rw [if_pos (by omega)]
    exact htD _ (hg.lt i (by omega))
  · refine ⟨fun i => β (r.face.inc i), ?_, ?_, ?_⟩
    · intro i hi'
      simp only [projectedFace] at hi'
      exact hallpos _ (Face.mem_verts (by omega))
    · simp only [projectedFace]
      rw [← hg.sum_verts β]
      exact hβ.sum
    · rw [hpt, comb, hg.sum_verts fun v => β v • t.pts v]
      simp only [projectedFace]
      exact sum_congr rfl fun j hj => by rw [if_pos (by have := mem_range.1 hj; omega)]
  · intro i hi
    simp only [projectedFace] at hi ⊢
    rw [if_pos (by omega)]
    have hv : r.face.inc i ∈ r.face.verts := Face.mem_verts (by omega)
    have h1 := hβ.perp' (α := fun v => if v = r.face.inc i then 1 else 0) (by rw [sum_ite_eq' _ _, if_pos hv])
    have h2 : comb t.pts r.face.verts (fun v => if v = r.face.inc i then (1 : K) else 0) = t.pts (r.face.inc i) := by
      rw [comb]
      simp [hv]
    rw [h2, ← hpt, zero_sub, neg_dotProduct, dotProduct_sub] at h1
    rw [dotProduct_comm]
    linarith
  · have : r.d2 = r.pt ⬝ᵥ r.pt := by
      rw [hrd2, sqd, ← hpt, zero_sub, neg_dotProduct, dotProduct_neg, neg_neg]
    rw [← this]
    exact hd2
  · rw [mag2_eq]
    exact (self_dot_pos hd'0).ne'
  · intro i hi
    simp only [projectedFace] at hi ⊢
    rw [if_pos (by omega), htp]
    split_ifs with h
    · exact Or.inr rfl
    · have := hg.lt i (by omega)
      exact Or.inl ⟨_, by omega, rfl⟩

/-- **C79**: in two and three dimensions the test always answers: nothing is divided by zero and no missing result is used,
whatever the support functions return. -/
theorem C79_defined (hN : N = 2 ∨ N = 3) (supA supB : (Fin N → K) → Fin N → K) (maxIt : ℕ) (axis : Fin N → K) (buffer : Simp K N) :
    ∃ r, gjk supA supB maxIt axis buffer = some r := by
  have hstep : ∀ s d, 1 ≤ s.n → s.n ≤ N → ∃ x, gjkStep supA supB s d = some x ∧ match x with
      | .done _ _ => True
      | .next s' _ => 1 ≤ s'.n ∧ s'.n ≤ N := by
    intro s d h1 h2
    rw [gjkStep]
    simp only
    split_ifs with hc
    · exact ⟨_, rfl, trivial⟩
    · have hn : (s.insert (supA d - supB (-d))).n = s.n + 1 := by rw [Simp.insert, if_pos (by omega)]
      obtain ⟨r, e, hr, hrn⟩ := project_some hN (s.insert (supA d - supB (-d))) (by omega) (by omega) 0 true
      rw [e, Option.bind_some, if_neg (by rw [hr]; simp)]
      split_ifs with hf
      · exact ⟨_, rfl, trivial⟩
      · refine ⟨_, rfl, ?_⟩
        push Not at hf
        have := hf.1
        simp only [projectedFace] at this ⊢
        omega
  have hloop : ∀ left it s d, 1 ≤ s.n → s.n ≤ N → ∃ r, gjkLoop supA supB axis left it s d = some r := by
    intro left
    induction left with
    | zero =>
      intro it s d h1 h2
      obtain ⟨x, e, -⟩ := hstep s d h1 h2
      rw [gjkLoop, e]
      exact ⟨_, rfl⟩
    | succ left ih =>
      intro it s d h1 h2
      obtain ⟨x, e, hx⟩ := hstep s d h1 h2
      rw [gjkLoop, e, Option.bind_some]
      cases x with
      | done h ax => exact ⟨_, rfl⟩
      | next s' d' =>
        simp only at hx ⊢
        split_ifs
        · exact ⟨_, rfl⟩
        · exact ih _ _ _ hx.1 hx.2
  have hn : (Simp.insert ⟨buffer.pts, 0⟩ (supA axis - supB (-axis)) : Simp K N).n = 1 := by
    rw [Simp.insert, if_pos (by simp)]
  exact hloop _ _ _ _ (by omega) (by omega)

/-- Points of one shape minus points of the other. -/
def diffSet (A B : Set (Fin N → K)) : Set (Fin N → K) := {x | ∃ a ∈ A, ∃ b ∈ B, x = a - b}

theorem diff_convex (hA : Convex K A) (hB : Convex K B) : Convex K (diffSet A B) := by
  rintro x ⟨a, ha, b, hb, rfl⟩ y ⟨a', ha', b', hb', rfl⟩ s t hs ht hst
  exact ⟨s • a + t • a', hA ha ha' hs ht hst, s • b + t • b', hB hb hb' hs ht hst, by module⟩

omit [LinearOrder K] [IsStrictOrderedRing K] in
theorem zero_mem_diff : (0 : Fin N → K) ∈ diffSet A B ↔ (A ∩ B).Nonempty := by
  constructor
  · rintro ⟨a, ha, b, hb, h⟩
    rw [sub_eq_zero.1 h.symm] at ha
    exact ⟨b, ha, hb⟩
  · rintro ⟨x, ha, hb⟩
    exact ⟨x, ha, x, hb, (sub_self x).symm⟩

theorem diff_support (hA : ∀ d, d ≠ 0 → IsSupport A d (supA d)) (hB : ∀ d, d ≠ 0 → IsSupport B d (supB d)) (d : Fin N → K) (hd : d ≠ 0) :
    IsSupport (diffSet A B) d (supA d - supB (-d)) := by
  obtain ⟨h1, h2⟩ := hA d hd
  obtain ⟨h3, h4⟩ := hB (-d) (neg_ne_zero.2 hd)
  refine ⟨⟨_, h1, _, h3, rfl⟩, ?_⟩
  rintro x ⟨a, ha, b, hb, rfl⟩
  have h5 := h2 a ha
  have h6 := h4 b hb
  rw [dot_eq, dot_eq] at h5 h6 ⊢
  rw [dotProduct_neg, dotProduct_neg] at h6
  rw [sub_dotProduct, sub_dotProduct]
  linarith

/-- The first simplex. -/
theorem start_inv (hN0 : 0 < N) {D : Set (Fin N → K)} {a : Fin N → K} (ha : a ∈ D) (h0 : a ≠ 0) (buffer : Simp K N) :
    GInv D (Simp.insert ⟨buffer.pts, 0⟩ a) (-a) a := by
  have hn : (Simp.insert ⟨buffer.pts, 0⟩ a : Simp K N) = ⟨Function.update buffer.pts 0 a, 1⟩ := by
    rw [Simp.insert, if_pos (by simp)]
  rw [hn]
  refine ⟨le_rfl, hN0, ?_, ?_, ⟨fun _ => 1, fun _ _ => zero_lt_one, by simp, by simp⟩, ?_, h0, 1, zero_lt_one, by simp⟩
  · intro w h1 _ i hi
    simp only [sum_range_one] at h1
    rw [show i = 0 from Nat.lt_one_iff.1 hi]
    exact h1
  · intro i hi
    rw [show i = 0 from Nat.lt_one_iff.1 hi]
    simpa using ha
  · intro i hi
    rw [show i = 0 from Nat.lt_one_iff.1 hi]
    simp

/-- **C79**: if the test answers that two convex shapes meet before the limit is reached, they do, in two and three dimensions.
Together with `C57_disjoint` and `C79_defined` the answer is right unless the limit is reached. -/
theorem C79_overlap (hN : N = 2 ∨ N = 3) (hcA : Convex K A) (hcB : Convex K B) (hA : ∀ d, d ≠ 0 → IsSupport A d (supA d))
    (hB : ∀ d, d ≠ 0 → IsSupport B d (supB d)) {maxIt : ℕ} {axis : Fin N → K} (hax : axis ≠ 0) {buffer : Simp K N} {r : GRes K N}
    (h : gjk supA supB maxIt axis buffer = some r) (ht : r.hit = true) (hit : r.iterations ≤ maxIt) : (A ∩ B).Nonempty := by
  rw [← zero_mem_diff]
  by_contra h0
  have hsup := diff_support hA hB
  have ha := (hsup axis hax).1
  have hne : supA axis - supB (-axis) ≠ 0 := fun h => h0 (h ▸ ha)
  rcases loop_inv (fun s d => ∃ w, GInv (diffSet A B) s d w) (fun h _ => h = false) (by
    rintro s d x ⟨w, hw⟩ hx
    rcases step_spec hN (diff_convex hcA hcB) h0 hsup hw with ⟨ax, e⟩ | ⟨s', d', w', e, hinv, -, hd, -⟩
    · rw [hx] at e
      cases Option.some.inj e
      rfl
    · rw [hx] at e
      cases Option.some.inj e
      exact ⟨⟨w', hinv⟩, hd⟩) _ _ _ _ _ ⟨_, start_inv (by omega) ha hne buffer⟩ h with h1 | ⟨-, -, h1⟩
  · rw [ht] at h1
    cases h1
  · omega

/-! ### Shapes with finitely many support points -/

/-- The squared distance of the origin to the averages of finitely many points. -/
def IsMin (S : Finset (Fin N → K)) (x : K) : Prop :=
  ∃ w ∈ convexHull K (S : Set (Fin N → K)), x = w ⬝ᵥ w ∧ ∀ y ∈ convexHull K (S : Set (Fin N → K)), w ⬝ᵥ w ≤ y ⬝ᵥ y

theorem IsMin.unique {S : Finset (Fin N → K)} {x y : K} (hx : IsMin S x) (hy : IsMin S y) : x = y := by
  obtain ⟨w, h1, rfl, h2⟩ := hx
  obtain ⟨w', h3, rfl, h4⟩ := hy
  exact le_antisymm (h2 _ h3) (h4 _ h1)

theorem GInv.isMin [DecidableEq (Fin N → K)] {D : Set (Fin N → K)} {s : Simp K N} {d w : Fin N → K} (h : GInv D s d w) :
    IsMin ((range s.n).image s.pts) (w ⬝ᵥ w) := by
  obtain ⟨-, -, -, -, ⟨l, hl0, hl1, hw⟩, horth, hw0, -⟩ := h
  refine ⟨w, ?_, rfl, fun y hy => ?_⟩
  · rw [hw]
    refine (convex_convexHull K _).sum_mem (fun i hi => (hl0 i (mem_range.1 hi)).le) hl1 fun i hi => subset_convexHull K _ ?_
    exact mem_coe.2 (mem_image_of_mem _ hi)
  · have hh : convexHull K (((range s.n).image s.pts : Finset (Fin N → K)) : Set (Fin N → K)) ⊆ {y | y ⬝ᵥ w = w ⬝ᵥ w} := by
      refine convexHull_min ?_ ?_
      · intro y hy
        obtain ⟨i, hi, rfl⟩ := mem_image.1 (mem_coe.1 hy)
        exact horth i (mem_range.1 hi)
      · intro x hx y hy a b ha hb hab
        simp only [Set.mem_setOf_eq] at hx hy ⊢
        rw [add_dotProduct, smul_dotProduct, smul_dotProduct, hx, hy, ← add_smul, hab, one_smul]
    have e : y ⬝ᵥ w = w ⬝ᵥ w := hh hy
    have h1 := cauchy y w
    rw [e, pow_two] at h1
    exact le_of_mul_le_mul_right h1 (self_dot_pos hw0)

/-- **C79**: if the differences of support points come from a finite set of `m` points and at least `2 ^ m` iterations are allowed, the test is exact. -/
theorem C79_exact (hN : N = 2 ∨ N = 3) (hcA : Convex K A) (hcB : Convex K B) (hA : ∀ d, d ≠ 0 → IsSupport A d (supA d))
    (hB : ∀ d, d ≠ 0 → IsSupport B d (supB d)) {V : Finset (Fin N → K)} (hV : ∀ d, d ≠ 0 → supA d - supB (-d) ∈ V) {maxIt : ℕ}
    (hmax : 2 ^ V.card ≤ maxIt) {axis : Fin N → K} (hax : axis ≠ 0) (buffer : Simp K N) :
    ∃ r, gjk supA supB maxIt axis buffer = some r ∧ (r.hit = true ↔ (A ∩ B).Nonempty) := by
  classical
  obtain ⟨r, hr⟩ := C79_defined hN supA supB maxIt axis buffer
  refine ⟨r, hr, fun ht => ?_, fun hne => ?_⟩
  swap
  · cases h : r.hit
    · rw [(C57_disjoint hA hB hr h).2.2] at hne
      exact absurd hne Set.not_nonempty_empty
    · rfl
  rw [← zero_mem_diff]
  by_contra h0
  have hsup := diff_support hA hB
  have ha := (hsup axis hax).1
  have hne : supA axis - supB (-axis) ≠ 0 := fun h => h0 (h ▸ ha)
  -- the sets of points with a nearer nearest point
  have key : ∀ left it s d w r, GInv (diffSet A B) s d w → (∀ i < s.n, s.pts i ∈ V) →
      (V.powerset.filter fun S => ∃ x, IsMin S x ∧ x < w ⬝ᵥ w).card ≤ left →
      gjkLoop supA supB axis left it s d = some r → r.hit = false := by
    intro left
    induction left with
    | zero =>
      intro it s d w r hinv hsV hcard h
      rw [gjkLoop] at h
      obtain ⟨x, hx, rfl⟩ := Option.map_eq_some_iff.1 h
      rcases step_spec hN (diff_convex hcA hcB) h0 hsup hinv with ⟨ax, e⟩ | ⟨s', d', w', e, hinv', hlt, hd, hfrom⟩
      · rw [hx] at e
        cases Option.some.inj e
        rfl
      · exfalso
        have hmem : (range s'.n).image s'.pts ∈ V.powerset.filter fun S => ∃ x, IsMin S x ∧ x < w ⬝ᵥ w := by
          refine mem_filter.2 ⟨mem_powerset.2 fun y hy => ?_, _, hinv'.isMin, hlt⟩
          obtain ⟨i, hi, rfl⟩ := mem_image.1 hy
          rcases hfrom i (mem_range.1 hi) with ⟨j, hj, e⟩ | e
          · rw [e]
            exact hsV j hj
          · rw [e]
            refine hV d ?_
            obtain ⟨c, hc, hd'⟩ := hinv.dir
            rw [hd']
            exact neg_ne_zero.2 (smul_ne_zero hc.ne' hinv.ne)
        rw [card_eq_zero.1 (Nat.le_zero.1 hcard)] at hmem
        exact absurd hmem (notMem_empty _)
    | succ left ih =>
      intro it s d w r hinv hsV hcard h
      rw [gjkLoop] at h
      obtain ⟨x, hx, h⟩ := Option.bind_eq_some_iff.1 h
      rcases step_spec hN (diff_convex hcA hcB) h0 hsup hinv with ⟨ax, e⟩ | ⟨s', d', w', e, hinv', hlt, hd, hfrom⟩
      · rw [hx] at e
        cases Option.some.inj e
        simp only [Option.some.injEq] at h
        rw [← h]
      · rw [hx] at e
        cases Option.some.inj e
        simp only at h
        rw [if_neg hd] at h
        have hsV' : ∀ i < s'.n, s'.pts i ∈ V := by
          intro i hi
          rcases hfrom i hi with ⟨j, hj, e⟩ | e
          · rw [e]
            exact hsV j hj
          · rw [e]
            refine hV d ?_
            obtain ⟨c, hc, hd'⟩ := hinv.dir
            rw [hd']
            exact neg_ne_zero.2 (smul_ne_zero hc.ne' hinv.ne)
        refine ih _ s' d' w' r hinv' hsV' ?_ h
        have hss : (V.powerset.filter fun S => ∃ x, IsMin S x ∧ x < w' ⬝ᵥ w') ⊂ V.powerset.filter fun S => ∃ x, IsMin S x ∧ x < w ⬝ᵥ w := by
          refine (ssubset_iff_of_subset ?_).2 ⟨(range s'.n).image s'.pts, mem_filter.2 ⟨?_, _, hinv'.isMin, hlt⟩, ?_⟩
          · intro S hS
            obtain ⟨h1, x, h2, h3⟩ := mem_filter.1 hS
            exact mem_filter.2 ⟨h1, x, h2, h3.trans hlt⟩
          · refine mem_powerset.2 fun y hy => ?_
            obtain ⟨i, hi, rfl⟩ := mem_image.1 hy
            exact hsV' i (mem_range.1 hi)
          · intro hS
            obtain ⟨-, x, h2, h3⟩ := mem_filter.1 hS
            rw [h2.unique hinv'.isMin] at h3
            exact lt_irrefl _ h3
        have := card_lt_card hss
        omega
  have hstart := start_inv (show 0 < N by omega) ha hne buffer
  have hn1 : (Simp.insert ⟨buffer.pts, 0⟩ (supA axis - supB (-axis)) : Simp K N) =
      ⟨Function.update buffer.pts 0 (supA axis - supB (-axis)), 1⟩ := by
    rw [Simp.insert, if_pos (by simp)]
  have := key maxIt 1 _ _ _ r hstart (by
    intro i hi
    rw [hn1] at hi ⊢
    simp only at hi ⊢
    rw [show i = 0 by omega, Function.update_self]
    exact hV axis hax) (le_trans (card_filter_le _ _) (by rw [card_powerset]; exact hmax)) hr
  rw [ht] at this
  cases this

end Geomc.Shape
