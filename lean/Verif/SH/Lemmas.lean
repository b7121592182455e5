import Verif.SH.Model
import Verif.Basis.Props
import Mathlib.Order.Interval.Finset.Nat
import Mathlib.Data.Int.Interval

/-! Auxiliary facts for the spherical harmonics properties. -/

namespace Geomc.SH

variable {K : Type}

theorem idx_bound (B l : ℕ) (m : ℤ) (hl : l < B) (h1 : -(l : ℤ) ≤ m) (h2 : m ≤ l) :
    0 ≤ idx l m ∧ idx l m < (B * B : ℕ) := by
  unfold idx
  have : (l : ℤ) + 1 ≤ B := by exact_mod_cast hl
  push_cast
  constructor <;> nlinarith

theorem idx_inj (l l' : ℕ) (m m' : ℤ) (h1 : -(l : ℤ) ≤ m) (h2 : m ≤ l) (h1' : -(l' : ℤ) ≤ m')
    (h2' : m' ≤ l') (h : idx l m = idx l' m') : l = l' ∧ m = m' := by
  unfold idx at h
  rcases lt_trichotomy l l' with hlt | heq | hgt
  · exfalso
    have : (l : ℤ) + 1 ≤ l' := by exact_mod_cast hlt
    nlinarith
  · subst heq; exact ⟨rfl, by linarith⟩
  · exfalso
    have : (l' : ℤ) + 1 ≤ l := by exact_mod_cast hgt
    nlinarith

theorem get_of (s : SH K) (i : ℤ) (h : 0 ≤ i ∧ i < s.size) : s.get i = some (s.c i) := if_pos h

theorem put_of (s : SH K) (i : ℤ) (v : K) (h : 0 ≤ i ∧ i < s.size) :
    s.put i v = some { s with c := Function.update s.c i v } := if_pos h

/-- A loop which rewrites each of a list of distinct positions once. -/
theorem fold_put {α : Type} (ι : α → ℤ) (g : α → K → K) (body : SH K → α → Option (SH K)) (B : ℕ) :
    ∀ (is : List α) (s : SH K), s.bands = B → (is.map ι).Nodup →
    (∀ t a, t.bands = B → a ∈ is →
      body t a = some { t with c := Function.update t.c (ι a) (g a (t.c (ι a))) }) →
    ∃ s', is.foldlM body s = some s' ∧ s'.bands = B ∧
      (∀ a ∈ is, s'.c (ι a) = g a (s.c (ι a))) ∧ (∀ j, (∀ a ∈ is, ι a ≠ j) → s'.c j = s.c j) := by
  intro is
  induction is with
  | nil => intro s hs _ _; exact ⟨s, rfl, hs, by simp, by simp⟩
  | cons a is ih =>
    intro s hs hnd hb
    rw [List.map_cons, List.nodup_cons] at hnd
    obtain ⟨s', h1, h2, h3, h4⟩ := ih { s with c := Function.update s.c (ι a) (g a (s.c (ι a))) } hs hnd.2
      (fun t b ht hb' => hb t b ht (List.mem_cons_of_mem _ hb'))
    refine ⟨s', ?_, h2, ?_, ?_⟩
    · rw [List.foldlM_cons, hb s a hs List.mem_cons_self]
      exact h1
    · intro b hb'
      rcases List.mem_cons.1 hb' with rfl | hb'
      · rw [h4 (ι b) (fun c hc he => hnd.1 (he ▸ List.mem_map_of_mem hc))]
        exact Function.update_self ..
      · rw [h3 b hb']
        have : ι b ≠ ι a := fun he => hnd.1 (he ▸ List.mem_map_of_mem hb')
        simp [Function.update_of_ne this]
    · intro j hj
      rw [h4 j (fun b hb' => hj b (List.mem_cons_of_mem _ hb'))]
      exact Function.update_of_ne (hj a List.mem_cons_self).symm _ _

theorem foldlM_get_sum [Field K] (f : ℕ → K) (body : K → ℕ → Option K) (n : ℕ)
    (hb : ∀ acc i, i < n → body acc i = some (acc + f i)) (a : K) :
    (List.range n).foldlM body a = some (a + ∑ i ∈ Finset.range n, f i) := by
  induction n with
  | zero => simp
  | succ n ih =>
    rw [List.range_succ, List.foldlM_append, ih (fun acc i hi => hb acc i (by omega)),
      Finset.sum_range_succ]
    simp [hb _ n (Nat.lt_succ_self n), add_assoc]

variable [Field K]

/-- The variables `(pmm0, pmm1)` before the pass for band `m + j`. -/
def loopState (F : Fns K) (x : K) (m : ℕ) : ℕ → K × K
  | 0 => (1, 1)
  | 1 => (Basis.assocLegendre F.halfPow m m x, 1)
  | j + 2 => (Basis.assocLegendre F.halfPow (m + j) m x, Basis.assocLegendre F.halfPow (m + j + 1) m x)

theorem assocLoop_snd (m : ℕ) (x p0 p1 : K) (k : ℕ) :
    (Basis.assocLoop m x p0 p1 (k + 1)).1 = (Basis.assocLoop m x p0 p1 k).2 := rfl

theorem assoc_two (hp : ℕ → K → K) (m j : ℕ) (x : K) :
    Basis.assocLegendre hp (m + j + 2) m x =
      (x * (2 * ((m + j + 2 : ℕ) : K) - 1) * Basis.assocLegendre hp (m + j + 1) m x -
        (((m + j + 2 : ℕ) : K) + m - 1) * Basis.assocLegendre hp (m + j) m x) /
      (((m + j + 2 : ℕ) : K) - m) := by
  have h0 : ∀ k, Basis.assocLegendre hp (m + k) m x =
      (Basis.assocLoop m x (Basis.pmm hp m x) (x * (2 * (m : K) + 1) * Basis.pmm hp m x) k).1 := by
    intro k
    cases k with
    | zero => simp [Basis.assocLegendre, Basis.assocLoop]
    | succ k =>
      rw [assocLoop_snd]
      cases k with
      | zero => simp [Basis.assocLegendre, Basis.assocLoop]
      | succ k =>
        unfold Basis.assocLegendre
        simp only [show m + (k + 1 + 1) ≠ m by omega, show m + (k + 1 + 1) ≠ m + 1 by omega, if_false]
        rw [show m + (k + 1 + 1) - (m + 1) = k + 1 by omega]
  have e1 := h0 (j + 2)
  have e2 := h0 (j + 1)
  have e3 := h0 j
  rw [assocLoop_snd] at e1
  rw [show m + j + 2 = m + (j + 2) from rfl, e1, show m + j + 1 = m + (j + 1) from rfl, e2, e3,
    assocLoop_snd]
  rw [Basis.assocLoop]
  rw [show m + (j + 2) = m + 2 + j by omega]

theorem plm_spec (F : Fns K) (x : K) (m j : ℕ) :
    plm F x m (m + j) (loopState F x m j) =
      (Basis.assocLegendre F.halfPow (m + j) m x, loopState F x m (j + 1)) := by
  match j with
  | 0 =>
    simp [plm, loopState, Basis.assocLegendre, Basis.pmm]
  | 1 =>
    simp only [plm, loopState, show m + 1 ≠ m by omega, if_false, if_true]
    simp [Basis.assocLegendre]
  | j + 2 =>
    simp only [plm, loopState, show m + (j + 2) ≠ m by omega, show m + (j + 2) ≠ m + 1 by omega, if_false]
    have := assoc_two F.halfPow m j x
    rw [show m + j + 2 = m + (j + 2) from rfl] at this
    rw [← this]
    rfl

theorem shCoeff_pos (F : Fns K) (l m : ℕ) (hm : m ≠ 0) (x azi : K) :
    shCoeff F l m x azi =
      Basis.assocLegendre F.halfPow l m x * F.sqrt 2 * knorm F l m * F.cos (m * azi) := by
  unfold shCoeff knorm
  rw [if_pos (by exact_mod_cast Nat.pos_of_ne_zero hm)]
  simp only [Int.natAbs_natCast, Int.cast_natCast, mul_div_assoc]
  ring

theorem shCoeff_neg (F : Fns K) (l m : ℕ) (hm : m ≠ 0) (x azi : K) :
    shCoeff F l (-(m : ℤ)) x azi =
      Basis.assocLegendre F.halfPow l m x * F.sqrt 2 * knorm F l m * F.sin (m * azi) := by
  unfold shCoeff knorm
  have : 0 < m := Nat.pos_of_ne_zero hm
  rw [if_neg (by omega), if_pos (by omega)]
  simp only [Int.natAbs_neg, Int.natAbs_natCast, Int.cast_neg, Int.cast_natCast, neg_neg, mul_div_assoc]
  ring

theorem shCoeff_zero (F : Fns K) (l : ℕ) (x azi : K) :
    shCoeff F l 0 x azi = Basis.assocLegendre F.halfPow l 0 x * knorm F l 0 := by
  unfold shCoeff knorm
  simp only [gt_iff_lt, lt_irrefl, if_false, Int.natAbs_zero, mul_div_assoc]
  ring

/-- Contribution of `±m` in band `l` to an evaluation. -/
def evalTerm (F : Fns K) (s : SH K) (x azi : K) (m l : ℕ) : K :=
  if m ≠ 0 then s.c (idx l m) * shCoeff F l m x azi + s.c (idx l (-(m : ℤ))) * shCoeff F l (-(m : ℤ)) x azi
  else s.c (idx l 0) * shCoeff F l 0 x azi

theorem evalBody_spec (F : Fns K) (s : SH K) (x azi : K) (m j : ℕ) (h : m + j < s.bands) (acc : K) :
    evalBody F s x azi m (acc, loopState F x m j) (m + j) =
      some (acc + evalTerm F s x azi m (m + j), loopState F x m (j + 1)) := by
  have hb : ∀ q : ℤ, -((m + j : ℕ) : ℤ) ≤ q → q ≤ (m + j : ℕ) →
      s.coeff (m + j : ℕ) q = some (s.c (idx (m + j : ℕ) q)) :=
    fun q h1 h2 => get_of s _ (idx_bound s.bands (m + j) q h h1 h2)
  unfold evalBody
  simp only [plm_spec]
  by_cases hm : m = 0
  · rw [if_neg (by simp [hm]), hb 0 (by omega) (by omega)]
    unfold evalTerm
    rw [if_neg (by simp [hm]), shCoeff_zero]
    subst hm
    simp only [Option.bind_eq_bind, Option.bind_some]
    congr 2; ring
  · rw [if_pos hm, hb m (by omega) (by push_cast; omega), hb (-(m : ℤ)) (by push_cast; omega) (by omega)]
    unfold evalTerm
    rw [if_pos hm, shCoeff_pos F _ m hm, shCoeff_neg F _ m hm]
    simp only [Option.bind_eq_bind, Option.bind_some]
    congr 2; ring

theorem evalInner (F : Fns K) (s : SH K) (x azi : K) (m : ℕ) : ∀ (n : ℕ), m + n ≤ s.bands → ∀ (acc : K),
    (List.range' m n).foldlM (evalBody F s x azi m) (acc, (1, 1)) =
      some (acc + ∑ j ∈ Finset.range n, evalTerm F s x azi m (m + j), loopState F x m n) := by
  intro n
  induction n with
  | zero => intro _ acc; simp [loopState]
  | succ n ih =>
    intro h acc
    rw [List.range'_1_concat, List.foldlM_append, ih (by omega)]
    simp only [Option.bind_eq_bind, Option.bind_some, List.foldlM_cons, List.foldlM_nil]
    rw [evalBody_spec F s x azi m n (by omega)]
    simp [Finset.sum_range_succ, add_assoc]

/-- Splitting a sum over `-n..n` into pairs. -/
theorem sum_Icc_pairs (f : ℤ → K) (n : ℕ) :
    ∑ m ∈ Finset.Icc (-(n : ℤ)) n, f m = ∑ m ∈ Finset.range (n + 1),
      if m ≠ 0 then f m + f (-(m : ℤ)) else f 0 := by
  induction n with
  | zero => simp
  | succ n ih =>
    have e : Finset.Icc (-((n + 1 : ℕ) : ℤ)) ((n + 1 : ℕ) : ℤ) =
        insert (-((n + 1 : ℕ) : ℤ)) (insert ((n + 1 : ℕ) : ℤ) (Finset.Icc (-(n : ℤ)) n)) := by
      ext q; simp only [Finset.mem_Icc, Finset.mem_insert]; push_cast; omega
    rw [e, Finset.sum_insert, Finset.sum_insert, ih, Finset.sum_range_succ _ (n + 1)]
    · rw [if_pos (Nat.succ_ne_zero n)]; ring
    · simp only [Finset.mem_Icc]; push_cast; omega
    · simp only [Finset.mem_Icc, Finset.mem_insert]; push_cast; omega

theorem sum_tri (T : ℕ → ℕ → K) (B : ℕ) :
    ∑ m ∈ Finset.range B, ∑ j ∈ Finset.range (B - m), T m (m + j) =
      ∑ l ∈ Finset.range B, ∑ m ∈ Finset.range (l + 1), T m l := by
  have h1 : ∀ m ∈ Finset.range B, ∑ j ∈ Finset.range (B - m), T m (m + j) =
      ∑ l ∈ Finset.Ico m B, T m l := by
    intro m hm
    rw [Finset.sum_Ico_eq_sum_range]
  rw [Finset.sum_congr rfl h1]
  apply Finset.sum_comm'
  intro m l
  simp only [Finset.mem_Ico, Finset.mem_range]
  omega

/-- A sum over the whole coefficient array, band by band. -/
theorem sum_bands (g : ℤ → K) (B : ℕ) :
    ∑ i ∈ Finset.range (B * B), g i = ∑ l ∈ Finset.range B, ∑ m ∈ Finset.Icc (-(l : ℤ)) l, g (idx l m) := by
  induction B with
  | zero => simp
  | succ B ih =>
    rw [Finset.sum_range_succ, ← ih, show (B + 1) * (B + 1) = B * B + (2 * B + 1) by ring,
      Finset.sum_range_add]
    congr 1
    apply Finset.sum_bij (fun (j : ℕ) _ => (j : ℤ) - B)
    · intro j hj; simp only [Finset.mem_range, Finset.mem_Icc] at hj ⊢; omega
    · intro a _ b _ h; omega
    · intro m hm
      simp only [Finset.mem_Icc] at hm
      exact ⟨(m + B).toNat, by simp only [Finset.mem_range]; omega, by omega⟩
    · intro j _
      congr 1
      unfold idx; push_cast; ring

theorem eval_sum (F : Fns K) (s : SH K) (x azi : K) :
    s.eval F x azi = some (∑ l ∈ Finset.range s.bands, ∑ m ∈ Finset.Icc (-(l : ℤ)) l,
      s.c (idx l m) * shCoeff F l m x azi) := by
  unfold SH.eval
  rw [foldlM_get_sum (fun m => ∑ j ∈ Finset.range (s.bands - m), evalTerm F s x azi m (m + j))]
  · rw [zero_add, sum_tri (fun m l => evalTerm F s x azi m l)]
    congr 1
    apply Finset.sum_congr rfl
    intro l _
    rw [sum_Icc_pairs (fun m => s.c (idx l m) * shCoeff F l m x azi)]
    rfl
  · intro acc m hm
    rw [evalInner F s x azi m (s.bands - m) (by omega)]
    rfl

/-- What the pass for `±m` in band `l` of a projection adds to position `i`. -/
def projTerm (F : Fns K) (x azi val : K) (m l : ℕ) (i : ℤ) : K :=
  if m ≠ 0 then (if i = idx l m then shCoeff F l m x azi * val else 0) +
    (if i = idx l (-(m : ℤ)) then shCoeff F l (-(m : ℤ)) x azi * val else 0)
  else if i = idx l 0 then shCoeff F l 0 x azi * val else 0

theorem projBody_spec (F : Fns K) (x azi val : K) (s : SH K) (m j : ℕ) (h : m + j < s.bands) :
    projBody F x azi val m (s, loopState F x m j) (m + j) =
      some (⟨s.bands, fun i => s.c i + projTerm F x azi val m (m + j) i⟩, loopState F x m (j + 1)) := by
  have hb : ∀ q : ℤ, -((m + j : ℕ) : ℤ) ≤ q → q ≤ (m + j : ℕ) →
      0 ≤ idx (m + j : ℕ) q ∧ idx (m + j : ℕ) q < (s.bands * s.bands : ℕ) :=
    fun q h1 h2 => idx_bound s.bands (m + j) q h h1 h2
  unfold projBody SH.coeff
  simp only [plm_spec]
  by_cases hm : m = 0
  · have b0 := hb 0 (by omega) (by omega)
    rw [if_neg (by simp [hm]), get_of s _ b0]
    simp only [Option.bind_eq_bind, Option.bind_some]
    rw [put_of s _ _ b0]
    simp only [Option.bind_some]
    congr 3
    funext i
    unfold projTerm
    rw [if_neg (by simp [hm]), shCoeff_zero]
    subst hm
    by_cases hi : i = idx ((0 + j : ℕ) : ℤ) 0
    · rw [if_pos hi, hi, Function.update_self]
    · rw [if_neg hi, Function.update_of_ne hi, add_zero]
  · have b1 := hb m (by omega) (by push_cast; omega)
    have b2 := hb (-(m : ℤ)) (by push_cast; omega) (by omega)
    rw [if_pos hm, get_of s _ b1]
    simp only [Option.bind_eq_bind, Option.bind_some]
    rw [put_of s _ _ b1]
    simp only [Option.bind_some]
    rw [get_of _ _ (by exact b2)]
    simp only [Option.bind_some]
    rw [put_of _ _ _ (by exact b2)]
    simp only [Option.bind_some]
    congr 3
    funext i
    unfold projTerm
    rw [if_pos hm, shCoeff_pos F _ m hm, shCoeff_neg F _ m hm]
    have hne : idx ((m + j : ℕ) : ℤ) (-(m : ℤ)) ≠ idx ((m + j : ℕ) : ℤ) m := by
      unfold idx; intro hc; have : m = 0 := by omega
      exact hm this
    by_cases hi2 : i = idx ((m + j : ℕ) : ℤ) (-(m : ℤ))
    · subst hi2
      rw [Function.update_self, if_neg hne, if_pos rfl, Function.update_of_ne hne, zero_add]
    · rw [Function.update_of_ne hi2, if_neg hi2, add_zero]
      by_cases hi1 : i = idx ((m + j : ℕ) : ℤ) m
      · subst hi1; rw [Function.update_self, if_pos rfl]
      · rw [Function.update_of_ne hi1, if_neg hi1, add_zero]

theorem projInner (F : Fns K) (x azi val : K) (m : ℕ) (s : SH K) : ∀ (n : ℕ), m + n ≤ s.bands →
    (List.range' m n).foldlM (projBody F x azi val m) (s, (1, 1)) =
      some (⟨s.bands, fun i => s.c i + ∑ j ∈ Finset.range n, projTerm F x azi val m (m + j) i⟩,
        loopState F x m n) := by
  intro n
  induction n with
  | zero => intro _; simp [loopState]
  | succ n ih =>
    intro h
    rw [List.range'_1_concat, List.foldlM_append, ih (by omega)]
    simp only [Option.bind_eq_bind, Option.bind_some, List.foldlM_cons, List.foldlM_nil]
    rw [projBody_spec F x azi val _ m n (by show m + n < s.bands; omega)]
    simp [Finset.sum_range_succ, add_assoc]

theorem project_sum (F : Fns K) (s : SH K) (x azi val : K) :
    s.project F x azi val = some ⟨s.bands, fun i => s.c i + ∑ m ∈ Finset.range s.bands,
      ∑ j ∈ Finset.range (s.bands - m), projTerm F x azi val m (m + j) i⟩ := by
  unfold SH.project
  have : ∀ n ≤ s.bands, (List.range n).foldlM (fun (t : SH K) (m : ℕ) => do
      let r ← (List.range' m (s.bands - m)).foldlM (projBody F x azi val m) (t, (1, 1))
      some r.1) s = some ⟨s.bands, fun i => s.c i + ∑ m ∈ Finset.range n,
      ∑ j ∈ Finset.range (s.bands - m), projTerm F x azi val m (m + j) i⟩ := by
    intro n
    induction n with
    | zero => intro _; simp
    | succ n ih =>
      intro h
      rw [List.range_succ, List.foldlM_append, ih (by omega)]
      simp only [Option.bind_eq_bind, Option.bind_some, List.foldlM_cons, List.foldlM_nil]
      rw [projInner F x azi val n _ (s.bands - n) (by simp only; omega)]
      simp [Finset.sum_range_succ, add_assoc]
  exact this _ le_rfl

end Geomc.SH
