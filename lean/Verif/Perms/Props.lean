import Verif.Perms.Lemmas
import Verif.Mtx.Elementwise
import Mathlib.LinearAlgebra.Matrix.Determinant.Basic
import Mathlib.LinearAlgebra.Matrix.Permutation

/-! # C29, C30, C72: permutation matrices, their sign, in-place permutation -/

namespace Geomc.Mtx

open Matrix

/-- The matrix which takes row `r` from row `a r`. -/
def rowMatrix {n : ℕ} (a : ℕ → ℕ) : Matrix (Fin n) (Fin n) ℤ := .of fun r c => if a r = c then 1 else 0

/-- Everything a program can do with `PermutationMatrix` objects of size `n`, with the matrix each object is
meant to be.  The index arrays passed to the setters are arbitrary rearrangements of `0 … n-1`. -/
inductive Reach (n : ℕ) : Perm → Matrix (Fin n) (Fin n) ℤ → Prop
  | new : Reach n (Perm.new n) 1
  | setIdentity {p A} : Reach n p A → Reach n p.setIdentity 1
  | swapRows {p A p'} (a b : Fin n) : Reach n p A → p.swapRows a b = some p' →
      Reach n p' (A.submatrix (Equiv.swap a b) id)
  | swapCols {p A p'} (a b : Fin n) : Reach n p A → p.swapCols a b = some p' →
      Reach n p' (A.submatrix id (Equiv.swap a b))
  | transpose {p A} : Reach n p A → Reach n p.transpose Aᵀ
  | setRowSources {p A p'} (σ : Equiv.Perm (Fin n)) (a : ℕ → ℕ) (ha : ∀ i : Fin n, a i = (σ i : Fin n)) :
      Reach n p A → p.setRowSources a = some p' → Reach n p' (rowMatrix a)
  | setColSources {p A p'} (σ : Equiv.Perm (Fin n)) (a : ℕ → ℕ) (ha : ∀ i : Fin n, a i = (σ i : Fin n)) :
      Reach n p A → p.setColSources a = some p' → Reach n p' (rowMatrix a)ᵀ
  | mul {d a b d' D A B} : Reach n d D → Reach n a A → Reach n b B → permPerm d a b = some d' →
      Reach n d' (A * B)

/-- `p` stores the matrix `A` and its inverse consistently. -/
structure Good (n : ℕ) (p : Perm) (A : Matrix (Fin n) (Fin n) ℤ) : Prop where
  size : p.n = n
  valid : p.Valid
  elem : ∀ r c : Fin n, A r c = if p.src r = c then 1 else 0

theorem Good.shows {n : ℕ} {p : Perm} {A : Matrix (Fin n) (Fin n) ℤ} (h : Good n p A) (m : Mem ℤ) :
    Shows p.asSrc m A := by
  refine ⟨h.size, h.size, fun i j => ?_⟩
  show (if (i : ℕ) < p.n then _ else none) = _
  rw [if_pos (by rw [h.size]; exact i.2), h.elem]

theorem Good.new (n : ℕ) : Good n (Perm.new n) 1 := by
  refine ⟨rfl, fun i hi => ⟨hi, hi, rfl, rfl⟩, fun r c => ?_⟩
  rw [Matrix.one_apply]
  exact if_congr Fin.ext_iff rfl rfl

theorem Good.transpose {n : ℕ} {p : Perm} {A : Matrix (Fin n) (Fin n) ℤ} (h : Good n p A) :
    Good n p.transpose Aᵀ := by
  obtain ⟨hn, hv, he⟩ := h
  refine ⟨hn, fun i hi => ⟨(hv i hi).2.1, (hv i hi).1, (hv i hi).2.2.2, (hv i hi).2.2.1⟩, fun r c => ?_⟩
  rw [Matrix.transpose_apply, he]
  refine if_congr ?_ rfl rfl
  rw [Perm.src_eq_iff hv (by omega) (by omega)]
  exact eq_comm

theorem invertInto_spec {n : ℕ} (σ : Equiv.Perm (Fin n)) (a b : ℕ → ℕ)
    (ha : ∀ i : Fin n, a i = (σ i : Fin n)) :
    ∃ b', invertInto n a b = some b' ∧ ∀ i : Fin n, b' i = (σ.symm i : Fin n) := by
  obtain ⟨b', e, h⟩ := forN_inv (n := n) (f := fun i b => Perm.store n b (a i) i) (s := b)
    (fun k b' => ∀ i : Fin n, (i : ℕ) < k → b' (σ i : Fin n) = i) (fun i h => by omega)
    (by
      intro k hk s hs
      refine ⟨Function.update s (a k) k, ?_, ?_⟩
      · have : a k < n := by rw [show a k = _ from ha ⟨k, hk⟩]; exact Fin.is_lt _
        simp [Perm.store, this]
      · intro i hi
        rw [show a k = _ from ha ⟨k, hk⟩, upd]
        split_ifs with he
        · have := σ.injective he
          rw [this]
        · refine hs i ?_
          rcases Nat.lt_or_eq_of_le (Nat.lt_succ_iff.1 hi) with h1 | h1
          · exact h1
          · exact absurd (by congr 1; exact Fin.ext h1) he)
  refine ⟨b', e, fun i => ?_⟩
  have := h (σ.symm i) (Fin.is_lt _)
  rwa [Equiv.apply_symm_apply] at this

theorem Good.setRowSources {n : ℕ} {p : Perm} (hn : p.n = n) (σ : Equiv.Perm (Fin n)) (a : ℕ → ℕ)
    (ha : ∀ i : Fin n, a i = (σ i : Fin n)) :
    ∃ p', p.setRowSources a = some p' ∧ Good n p' (rowMatrix a) ∧ p'.sign = 0 := by
  subst hn
  obtain ⟨b', e, h⟩ := invertInto_spec σ a p.dst ha
  refine ⟨{ p with src := a, dst := b', sign := 0 }, by unfold Perm.setRowSources; rw [e]; rfl,
    ⟨rfl, fun i hi => ?_, fun r c => rfl⟩, rfl⟩
  have h1 : a i = _ := ha ⟨i, hi⟩
  have h2 : b' i = _ := h ⟨i, hi⟩
  refine ⟨?_, ?_, ?_, ?_⟩
  · show a i < _
    rw [h1]
    exact Fin.is_lt _
  · show b' i < _
    rw [h2]
    exact Fin.is_lt _
  · show b' (a i) = _
    rw [h1, h, Equiv.symm_apply_apply]
  · show a (b' i) = _
    rw [h2, ha, Equiv.apply_symm_apply]

theorem Good.setColSources {n : ℕ} {p : Perm} (hn : p.n = n) (σ : Equiv.Perm (Fin n)) (a : ℕ → ℕ)
    (ha : ∀ i : Fin n, a i = (σ i : Fin n)) :
    ∃ p', p.setColSources a = some p' ∧ Good n p' (rowMatrix a)ᵀ ∧ p'.sign = 0 := by
  obtain ⟨q, e, h, hs⟩ := Good.setRowSources (p := p.transpose) hn σ a ha
  refine ⟨q.transpose, ?_, h.transpose, hs⟩
  unfold Perm.setRowSources at e
  unfold Perm.setColSources
  cases h1 : invertInto p.transpose.n a p.transpose.dst with
  | none => rw [h1] at e; cases e
  | some d =>
    rw [h1] at e
    obtain rfl := Option.some.inj e
    have h2 : invertInto p.n a p.src = some d := h1
    rw [h2]
    rfl

theorem Good.swapRows {n : ℕ} {p : Perm} {A : Matrix (Fin n) (Fin n) ℤ} (h : Good n p A) (a b : Fin n) :
    ∃ p', p.swapRows a b = some p' ∧ Good n p' (A.submatrix (Equiv.swap a b) id) ∧ p'.sign = -p.sign := by
  obtain ⟨hn, hv, he⟩ := h
  subst hn
  have va := hv a a.2
  have vb := hv b b.2
  refine ⟨⟨p.n, Function.update (Function.update p.src a (p.src b)) b (p.src a),
    Function.update (Function.update p.dst (p.src a) b) (p.src b) a, -p.sign⟩, ?_, ⟨rfl, ?_, ?_⟩, rfl⟩
  · simp [Perm.swapRows, Perm.at, Perm.store, va.1, vb.1]
  · intro i hi
    have vi := hv i hi
    have hinj : ∀ x < p.n, ∀ y < p.n, p.src x = p.src y → x = y := fun x hx y hy hxy => by
      have h1 := (hv x hx).2.2.1
      have h2 := (hv y hy).2.2.1
      rw [hxy, h2] at h1
      exact h1.symm
    have hs : ∀ x < p.n, p.src x < p.n := fun x hx => (hv x hx).1
    have e1 : ∀ x, Function.update (Function.update p.src (a : ℕ) (p.src b)) (b : ℕ) (p.src a) x
        = if x = b then p.src a else if x = a then p.src b else p.src x := by
      intro x; simp only [Function.update_apply]
    have e2 : ∀ x, Function.update (Function.update p.dst (p.src a) (b : ℕ)) (p.src b) (a : ℕ) x
        = if x = p.src b then (a : ℕ) else if x = p.src a then (b : ℕ) else p.dst x := by
      intro x; simp only [Function.update_apply]
    show _ < p.n ∧ _ < p.n ∧ _ = i ∧ _ = i
    simp only [e1, e2]
    have hda : ∀ x, p.src x = p.src a → x < p.n → x = a := fun x h hx => hinj x hx a a.2 h
    have hdb : ∀ x, p.src x = p.src b → x < p.n → x = b := fun x h hx => hinj x hx b b.2 h
    refine ⟨?_, ?_, ?_, ?_⟩
    · split_ifs
      · exact va.1
      · exact vb.1
      · exact vi.1
    · split_ifs
      · exact a.2
      · exact b.2
      · exact vi.2.1
    · by_cases h1 : i = b
      · rw [if_pos h1]
        by_cases h2 : p.src a = p.src b
        · rw [if_pos h2, hdb a h2 a.2, h1]
        · rw [if_neg h2, if_pos rfl, h1]
      · rw [if_neg h1]
        by_cases h2 : i = a
        · rw [if_pos h2, if_pos rfl, h2]
        · rw [if_neg h2, if_neg (fun h => h1 (hdb i h hi)), if_neg (fun h => h2 (hda i h hi))]
          exact vi.2.2.1
    · by_cases h1 : i = p.src b
      · rw [if_pos h1]
        by_cases h2 : (a : ℕ) = b
        · rw [if_pos h2, h1, h2]
        · rw [if_neg h2, if_pos rfl, h1]
      · rw [if_neg h1]
        by_cases h2 : i = p.src a
        · rw [if_pos h2, if_pos rfl, h2]
        · have n1 : p.dst i ≠ b := fun h => h1 (by rw [← h]; exact vi.2.2.2.symm)
          have n2 : p.dst i ≠ a := fun h => h2 (by rw [← h]; exact vi.2.2.2.symm)
          rw [if_neg h2, if_neg n1, if_neg n2]
          exact vi.2.2.2
  · intro r c
    rw [Matrix.submatrix_apply, he, id]
    refine if_congr ?_ rfl rfl
    show _ ↔ Function.update (Function.update p.src (a : ℕ) (p.src b)) (b : ℕ) (p.src a) r = c
    rw [upd, upd]
    rw [Equiv.swap_apply_def]
    by_cases h1 : r = a
    · by_cases h2 : r = b
      · rw [if_pos h1, if_pos h2, ← h1, ← h2]
      · rw [if_pos h1, if_neg h2, if_pos h1]
    · by_cases h2 : r = b
      · rw [if_neg h1, if_pos h2, if_pos h2]
      · rw [if_neg h1, if_neg h2, if_neg h2, if_neg h1]

theorem swapCols_eq (p : Perm) (a b : ℕ) :
    p.swapCols a b = (p.transpose.swapRows a b).map Perm.transpose := by
  simp only [Perm.swapCols, Perm.swapRows, Perm.transpose]
  cases Perm.at p.n p.dst a with
  | none => rfl
  | some da =>
    simp only [Option.bind_eq_bind, Option.bind_some]
    cases Perm.store p.n p.src da b with
    | none => rfl
    | some s =>
      simp only [Option.bind_some]
      cases Perm.at p.n p.dst b with
      | none => rfl
      | some db =>
        simp only [Option.bind_some]
        cases Perm.store p.n s db a with
        | none => rfl
        | some s =>
          simp only [Option.bind_some]
          cases Perm.store p.n p.dst a db with
          | none => rfl
          | some d =>
            simp only [Option.bind_some]
            cases Perm.store p.n d b da <;> rfl

theorem Good.swapCols {n : ℕ} {p : Perm} {A : Matrix (Fin n) (Fin n) ℤ} (h : Good n p A) (a b : Fin n) :
    ∃ p', p.swapCols a b = some p' ∧ Good n p' (A.submatrix id (Equiv.swap a b)) ∧ p'.sign = -p.sign := by
  obtain ⟨q, e, hg, hs⟩ := h.transpose.swapRows a b
  refine ⟨q.transpose, by rw [swapCols_eq, e]; rfl, ?_, hs⟩
  have := hg.transpose
  rwa [show (Aᵀ.submatrix (Equiv.swap a b) id)ᵀ = A.submatrix id (Equiv.swap a b) from rfl] at this

theorem Good.mul {n : ℕ} {d a b : Perm} {A B : Matrix (Fin n) (Fin n) ℤ} (hd : d.n = n) (ha : Good n a A)
    (hb : Good n b B) : ∃ d', permPerm d a b = some d' ∧ Good n d' (A * B) := by
  obtain ⟨d', e, hv, hs⟩ := C25_perm_perm (m := fun _ => (0 : ℤ)) (d := d) ha.valid hb.valid (ha.shows _)
    (hb.shows _) hd
  refine ⟨d', e, hs.1, hv, fun r c => ?_⟩
  have := Perm.shows_nat hs r.2 c.2
  rwa [nat_fin] at this

/-! ### C29 -/

/-- **C29**: after every history the object is a permutation matrix: its two index arrays are mutually inverse,
its elements are those of the matrix the history describes, and element `(r,c)` is 1 exactly when row `r` takes
from row `c`, which is when row `c` goes to row `r`. -/
theorem C29_history {n : ℕ} {p : Perm} {A : Matrix (Fin n) (Fin n) ℤ} (h : Reach n p A) :
    p.n = n ∧
    (∀ i < n, p.src i < n ∧ p.dst i < n ∧ p.dst (p.src i) = i ∧ p.src (p.dst i) = i) ∧
    (∀ (m : Mem ℤ) (r c : Fin n), p.get m r c = some (A r c) ∧
      (A r c = 1 ↔ p.src r = c) ∧ (A r c = 1 ↔ p.dst c = r)) ∧
    ∃ σ : Equiv.Perm (Fin n), A = σ.permMatrix ℤ ∧ ∀ i : Fin n, p.src i = (σ i : Fin n) := by
  have hg : Good n p A := by
    induction h with
    | new => exact Good.new n
    | setIdentity _ ih =>
      obtain ⟨hn, -, -⟩ := ih
      subst hn
      exact Good.new _
    | swapRows a b _ e ih =>
      obtain ⟨p', e', hg, -⟩ := ih.swapRows a b
      rw [e] at e'
      obtain rfl := Option.some.inj e'
      exact hg
    | swapCols a b _ e ih =>
      obtain ⟨p', e', hg, -⟩ := ih.swapCols a b
      rw [e] at e'
      obtain rfl := Option.some.inj e'
      exact hg
    | transpose _ ih => exact ih.transpose
    | setRowSources σ a ha _ e ih =>
      obtain ⟨p', e', hg, -⟩ := Good.setRowSources ih.size σ a ha
      rw [e] at e'
      obtain rfl := Option.some.inj e'
      exact hg
    | setColSources σ a ha _ e ih =>
      obtain ⟨p', e', hg, -⟩ := Good.setColSources ih.size σ a ha
      rw [e] at e'
      obtain rfl := Option.some.inj e'
      exact hg
    | mul _ _ _ e ihd iha ihb =>
      obtain ⟨p', e', hg⟩ := Good.mul ihd.size iha ihb
      rw [e] at e'
      obtain rfl := Option.some.inj e'
      exact hg
  obtain ⟨hn, hv, he⟩ := hg
  subst hn
  refine ⟨rfl, hv, fun m r c => ⟨?_, ?_, ?_⟩, ?_⟩
  · rw [Perm.get, if_pos r.2, he]
  · rw [he]; split_ifs with h1 <;> simp [h1]
  · rw [he]
    have := Perm.src_eq_iff hv r.2 c.2
    split_ifs with h1
    · simp [(this.1 h1).symm]
    · simp only [zero_ne_one, false_iff]
      exact fun h => h1 (this.2 h.symm)
  · let σ : Equiv.Perm (Fin p.n) :=
      { toFun := fun i => ⟨p.src i, (hv i i.2).1⟩
        invFun := fun i => ⟨p.dst i, (hv i i.2).2.1⟩
        left_inv := fun i => Fin.ext (hv i i.2).2.2.1
        right_inv := fun i => Fin.ext (hv i i.2).2.2.2 }
    refine ⟨σ, ?_, fun i => rfl⟩
    ext r c
    rw [he, Equiv.Perm.permMatrix, PEquiv.toMatrix_apply]
    refine if_congr ?_ rfl rfl
    simp [Equiv.toPEquiv_apply, σ, Fin.ext_iff, eq_comm]

/-- **C29**: no operation of a history fails (in particular no index leaves the arrays). -/
theorem C29_defined {n : ℕ} {p q d : Perm} {A B D : Matrix (Fin n) (Fin n) ℤ} (hp : Reach n p A)
    (hq : Reach n q B) (hd : Reach n d D) (a b : Fin n) (σ : Equiv.Perm (Fin n)) (x : ℕ → ℕ)
    (hx : ∀ i : Fin n, x i = (σ i : Fin n)) :
    (p.swapRows a b).isSome ∧ (p.swapCols a b).isSome ∧ (p.setRowSources x).isSome ∧
      (p.setColSources x).isSome ∧ (permPerm d p q).isSome := by
  have good : ∀ {p A}, Reach n p A → Good n p A := by
    intro p A h
    obtain ⟨h1, h2, h3, -⟩ := C29_history h
    subst h1
    refine ⟨rfl, h2, fun r c => ?_⟩
    have := (h3 (fun _ => 0) r c).1
    rw [Perm.get, if_pos r.2] at this
    exact (Option.some.inj this).symm
  obtain ⟨_, e1, -⟩ := (good hp).swapRows a b
  obtain ⟨_, e2, -⟩ := (good hp).swapCols a b
  obtain ⟨_, e3, -⟩ := Good.setRowSources (good hp).size σ x hx
  obtain ⟨_, e4, -⟩ := Good.setColSources (good hp).size σ x hx
  obtain ⟨_, e5, -⟩ := Good.mul (good hd).size (good hp) (good hq)
  simp [e1, e2, e3, e4, e5]

/-! ### C30 -/

/-- Histories in which the sign stays known: identity, transposition, and swaps of two different rows or
columns. -/
inductive SignReach (n : ℕ) : Perm → Matrix (Fin n) (Fin n) ℤ → Prop
  | new : SignReach n (Perm.new n) 1
  | setIdentity {p A} : Reach n p A → SignReach n p.setIdentity 1
  | swapRows {p A p'} (a b : Fin n) (h : a ≠ b) : SignReach n p A → p.swapRows a b = some p' →
      SignReach n p' (A.submatrix (Equiv.swap a b) id)
  | swapCols {p A p'} (a b : Fin n) (h : a ≠ b) : SignReach n p A → p.swapCols a b = some p' →
      SignReach n p' (A.submatrix id (Equiv.swap a b))
  | transpose {p A} : SignReach n p A → SignReach n p.transpose Aᵀ

/-- **C30**, the part that holds for `sign()`: after such a history it returns the determinant of the matrix,
which is the parity of its permutation. -/
theorem C30_sign_partial {n : ℕ} {p : Perm} {A : Matrix (Fin n) (Fin n) ℤ} (h : SignReach n p A) :
    p.signCall = some A.det := by
  suffices H : Good n p A ∧ p.sign = A.det ∧ p.sign ≠ 0 by
    rw [Perm.signCall, if_neg H.2.2, H.2.1]
  induction h with
  | new => exact ⟨Good.new n, by simp [Perm.new, Perm.setIdentity], by simp [Perm.new, Perm.setIdentity]⟩
  | setIdentity h =>
    obtain ⟨h1, -⟩ := C29_history h
    subst h1
    exact ⟨Good.new _, by simp [Perm.setIdentity], by simp [Perm.setIdentity]⟩
  | swapRows a b hab _ e ih =>
    obtain ⟨p', e', hg, hs⟩ := ih.1.swapRows a b
    rw [e] at e'
    obtain rfl := Option.some.inj e'
    refine ⟨hg, ?_, ?_⟩
    · rw [hs, Matrix.det_permute, Equiv.Perm.sign_swap hab, ih.2.1]
      simp
    · rw [hs]; exact neg_ne_zero.2 ih.2.2
  | swapCols a b hab _ e ih =>
    obtain ⟨p', e', hg, hs⟩ := ih.1.swapCols a b
    rw [e] at e'
    obtain rfl := Option.some.inj e'
    refine ⟨hg, ?_, ?_⟩
    · rw [hs, Matrix.det_permute', Equiv.Perm.sign_swap hab, ih.2.1]
      simp
    · rw [hs]; exact neg_ne_zero.2 ih.2.2
  | transpose _ ih =>
    exact ⟨ih.1.transpose, by rw [Matrix.det_transpose]; exact ih.2.1, ih.2.2⟩

/-- **C30** is false for `sign()`: exchanging a row with itself flips the reported sign, whatever the matrix. -/
theorem C30_swap_self_refuted {n : ℕ} {p : Perm} {A : Matrix (Fin n) (Fin n) ℤ} (h : SignReach n p A)
    (a : Fin n) : ∃ p', p.swapRows a a = some p' ∧
      (∀ i < n, p'.src i = p.src i) ∧ p'.signCall = some (-A.det) := by
  have h1 := C30_sign_partial h
  have hg : Good n p A := by
    induction h with
    | new => exact Good.new n
    | setIdentity h =>
      obtain ⟨h1, -⟩ := C29_history h
      subst h1
      exact Good.new _
    | swapRows a b hab h e ih =>
      obtain ⟨p', e', hg, -⟩ := (ih (C30_sign_partial h)).swapRows a b
      rw [e] at e'
      obtain rfl := Option.some.inj e'
      exact hg
    | swapCols a b hab h e ih =>
      obtain ⟨p', e', hg, -⟩ := (ih (C30_sign_partial h)).swapCols a b
      rw [e] at e'
      obtain rfl := Option.some.inj e'
      exact hg
    | transpose h ih => exact (ih (C30_sign_partial h)).transpose
  unfold Perm.signCall at h1
  split_ifs at h1 with h0
  have hva := (hg.valid a (by rw [hg.size]; exact a.2)).1
  refine ⟨⟨p.n, Function.update (Function.update p.src a (p.src a)) a (p.src a),
    Function.update (Function.update p.dst (p.src a) a) (p.src a) a, -p.sign⟩, ?_, ?_, ?_⟩
  · have ha : (a : ℕ) < p.n := by rw [hg.size]; exact a.2
    simp [Perm.swapRows, Perm.at, Perm.store, hva, ha]
  · intro i _
    simp
  · rw [Perm.signCall, if_neg (neg_ne_zero.2 h0), ← Option.some.inj h1]

/-- **C30** is false for `sign()`: after any of the setters the function returns no value. -/
theorem C30_uncached_refuted {n : ℕ} {p : Perm} (hn : p.n = n) (σ : Equiv.Perm (Fin n)) (a : ℕ → ℕ)
    (ha : ∀ i : Fin n, a i = (σ i : Fin n)) :
    (∃ p', p.setRowSources a = some p' ∧ p'.signCall = none) ∧
    (∃ p', p.setColSources a = some p' ∧ p'.signCall = none) := by
  obtain ⟨p₁, e₁, -, h₁⟩ := Good.setRowSources hn σ a ha
  obtain ⟨p₂, e₂, -, h₂⟩ := Good.setColSources hn σ a ha
  exact ⟨⟨p₁, e₁, if_pos h₁⟩, ⟨p₂, e₂, if_pos h₂⟩⟩

/-- **C30** is false for `sign()`: a product keeps the sign the destination had before, whatever the operands,
so that the identity overwritten with an exchange of two rows still reports an even permutation. -/
theorem C30_product_refuted :
    (∀ d a b d', permPerm d a b = some d' → d'.signCall = d.signCall) ∧
    ∃ (a b d' : Perm) (A : Matrix (Fin 2) (Fin 2) ℤ), SignReach 2 a A ∧ SignReach 2 b 1 ∧
      permPerm (Perm.new 2) a b = some d' ∧ d'.signCall ≠ some (A * 1).det := by
  have key : ∀ d a b d', permPerm d a b = some d' → d'.signCall = d.signCall := by
    intro d a b d' h
    have := forN_partial (fun _ (s : Perm) => s.sign = d.sign) h rfl (by
      intro i s s' hs e
      simp only [Option.bind_eq_bind, Option.bind_eq_some_iff] at e
      obtain ⟨_, -, _, -, _, -, _, -, e⟩ := e
      split_ifs at e
      rw [← Option.some.inj e]
      exact hs)
    simp only [Perm.signCall, this]
  refine ⟨key, ?_⟩
  obtain ⟨p', e, hg, -⟩ := (Good.new 2).swapRows 0 1
  obtain ⟨d', e', -⟩ := Good.mul (d := Perm.new 2) rfl hg (Good.new 2)
  refine ⟨p', Perm.new 2, d', _, SignReach.swapRows 0 1 (by decide) .new e, .new, e', ?_⟩
  rw [key _ _ _ _ e', mul_one, Matrix.det_permute, Equiv.Perm.sign_swap (by decide)]
  simp [Perm.signCall, Perm.new, Perm.setIdentity]

/-- **C30**: what `permutation_sign` computes: the parity of the number of displaced elements.  It always
terminates and leaves the identity. -/
theorem C30_permutation_sign_value {n : ℕ} (σ : Equiv.Perm (Fin n)) (p : ℕ → ℕ)
    (hp : ∀ i : Fin n, p i = (σ i : Fin n)) :
    ∃ p', permutationSign n p = some (p', (-1) ^ σ.support.card) ∧ ∀ i < n, p' i = i := by
  obtain ⟨s, e, V, hV, h1, h2, h3, h4⟩ := forN_inv (n := n)
    (f := fun i (s : (ℕ → ℕ) × Bool) => if s.1 i = i then some s else signLoop n n i i s.1 s.2)
    (s := (p, false))
    (fun k s => ∃ V : Finset (Fin n), V ⊆ σ.support ∧ (∀ x : Fin n, x ∈ V → s.1 x = x) ∧
      (∀ x : Fin n, x ∉ V → s.1 x = (σ x : Fin n)) ∧ s.2 = V.card.bodd ∧
      (∀ x y : Fin n, σ.SameCycle x y → x ∈ V → y ∈ V) ∧
      ∀ x : Fin n, (x : ℕ) < k → x ∈ σ.support → x ∈ V)
    ⟨∅, by simp, by simp, fun x _ => hp x, by simp, by simp, fun x hx => by omega⟩
    (by
      rintro k hk ⟨q, odd⟩ ⟨V, hV, h1, h2, h3, h4, h5⟩
      simp only at h1 h2 h3
      have next : ∀ {V' : Finset (Fin n)}, V ⊆ V' → ((⟨k, hk⟩ : Fin n) ∈ σ.support → (⟨k, hk⟩ : Fin n) ∈ V') →
          ∀ x : Fin n, (x : ℕ) < k + 1 → x ∈ σ.support → x ∈ V' := by
        intro V' hsub hkV x hx hxs
        rcases Nat.lt_or_eq_of_le (Nat.lt_succ_iff.1 hx) with h | h
        · exact hsub (h5 x h hxs)
        · obtain rfl : x = ⟨k, hk⟩ := Fin.ext h
          exact hkV hxs
      by_cases hkk : q k = k
      · refine ⟨(q, odd), if_pos hkk, V, hV, h1, h2, h3, h4, next (Finset.Subset.refl _) ?_⟩
        intro hks
        by_contra hkV
        have := h2 ⟨k, hk⟩ hkV
        rw [show q k = k from hkk] at this
        exact (Equiv.Perm.mem_support.1 hks) (Fin.ext this.symm)
      · have hkV : (⟨k, hk⟩ : Fin n) ∉ V := fun h => hkk (h1 _ h)
        have hσ : σ ⟨k, hk⟩ ≠ ⟨k, hk⟩ := fun h => hkk (by
          have := h2 _ hkV
          rw [h] at this
          exact this)
        obtain ⟨q', odd', e, g1, g2, g3⟩ := signLoop_spec σ ⟨k, hk⟩ hσ q odd
          (fun a => by
            rw [h2 _ (fun h => hkV (h4 _ _ (Equiv.Perm.SameCycle.symm ⟨a, by simp⟩) h)), pow_succ_apply'])
          n 0 q odd (by omega) (fun a h h' => by omega) (by rintro x ⟨a, h, -⟩; omega) (fun x _ => rfl)
          (by simp)
        refine ⟨(q', odd'), by rw [if_neg hkk]; exact e, V ∪ (σ.cycleOf ⟨k, hk⟩).support, ?_, ?_, ?_, ?_, ?_,
          next Finset.subset_union_left ?_⟩
        · exact Finset.union_subset hV (Equiv.Perm.support_cycleOf_le σ _)
        · intro x hx
          by_cases hc : σ.SameCycle ⟨k, hk⟩ x
          · exact g1 x hc
          · rw [Finset.mem_union] at hx
            rcases hx with hx | hx
            · show q' x = x
              rw [g2 x hc, h1 x hx]
            · exact absurd ((Equiv.Perm.mem_support_cycleOf_iff' hσ).1 hx) hc
        · intro x hx
          rw [Finset.mem_union, not_or] at hx
          have hc : ¬ σ.SameCycle ⟨k, hk⟩ x := fun h => hx.2 ((Equiv.Perm.mem_support_cycleOf_iff' hσ).2 h)
          show q' x = _
          rw [g2 x hc, h2 x hx.1]
        · show odd' = _
          have hdis : Disjoint V (σ.cycleOf ⟨k, hk⟩).support := by
            rw [Finset.disjoint_left]
            intro x hx hx'
            exact hkV (h4 _ _ ((Equiv.Perm.mem_support_cycleOf_iff' hσ).1 hx').symm hx)
          rw [Finset.card_union_of_disjoint hdis, Nat.bodd_add, g3]
          rw [show odd = _ from h3]
        · intro x y hxy hx
          rw [Finset.mem_union] at hx ⊢
          rcases hx with hx | hx
          · exact Or.inl (h4 x y hxy hx)
          · exact Or.inr ((Equiv.Perm.mem_support_cycleOf_iff' hσ).2 (((Equiv.Perm.mem_support_cycleOf_iff' hσ).1 hx).trans hxy))
        · intro _
          exact Finset.mem_union_right _ ((Equiv.Perm.mem_support_cycleOf_iff' hσ).2 (Equiv.Perm.SameCycle.refl _ _)))
  have hVs : V = σ.support := Finset.Subset.antisymm hV (fun x hx => h4.2 x x.2 hx)
  refine ⟨s.1, ?_, fun i hi => ?_⟩
  · unfold permutationSign
    rw [e]
    simp only [Option.bind_eq_bind, Option.bind_some]
    rw [h3, hVs]
    congr 2
    rcases Nat.even_or_odd σ.support.card with he | ho
    · rw [he.neg_one_pow, if_neg]
      rw [← Nat.not_odd_iff_even, Nat.odd_iff, Nat.mod_two_of_bodd] at he
      intro hb
      rw [hb] at he
      exact he rfl
    · rw [ho.neg_one_pow, if_pos]
      rw [Nat.odd_iff, Nat.mod_two_of_bodd] at ho
      by_contra hb
      rw [Bool.not_eq_true] at hb
      rw [hb] at ho
      exact absurd ho (by decide)
  · by_cases hx : (⟨i, hi⟩ : Fin n) ∈ V
    · exact h1 _ hx
    · have := h2 _ hx
      rw [hVs, Equiv.Perm.notMem_support] at hx
      rwa [hx] at this

/-- **C30**, exactly when `permutation_sign` is right: the permutation has an even number of non-trivial
cycles. -/
theorem C30_permutation_sign_iff {n : ℕ} (σ : Equiv.Perm (Fin n)) (p : ℕ → ℕ)
    (hp : ∀ i : Fin n, p i = (σ i : Fin n)) :
    (∃ p', permutationSign n p = some (p', (Equiv.Perm.sign σ : ℤ))) ↔ Even (Multiset.card σ.cycleType) := by
  obtain ⟨p', e, -⟩ := C30_permutation_sign_value σ p hp
  have hs : (Equiv.Perm.sign σ : ℤ) = (-1) ^ σ.support.card * (-1) ^ Multiset.card σ.cycleType := by
    rw [Equiv.Perm.sign_of_cycleType, Equiv.Perm.sum_cycleType, pow_add]
    simp
  have hne : ((-1 : ℤ)) ^ σ.support.card ≠ 0 := pow_ne_zero _ (by decide)
  constructor
  · rintro ⟨p'', e'⟩
    rw [e] at e'
    have h1 := (Prod.mk.inj (Option.some.inj e')).2
    rw [hs] at h1
    have h2 := mul_left_cancel₀ hne ((mul_one _).trans h1)
    by_contra hodd
    rw [Nat.not_even_iff_odd] at hodd
    rw [hodd.neg_one_pow] at h2
    exact absurd h2 (by decide)
  · intro he
    exact ⟨p', by rw [e, hs, he.neg_one_pow, mul_one]⟩

/-- **C30** refuted for `permutation_sign`: every exchange of two elements is reported as even. -/
theorem C30_permutation_sign_refuted {n : ℕ} (a b : Fin n) (hab : a ≠ b) (p : ℕ → ℕ)
    (hp : ∀ i : Fin n, p i = (Equiv.swap a b i : Fin n)) :
    ∃ p', permutationSign n p = some (p', 1) ∧ Equiv.Perm.sign (Equiv.swap a b) = -1 := by
  obtain ⟨p', e, -⟩ := C30_permutation_sign_value _ p hp
  rw [Equiv.Perm.card_support_swap hab] at e
  exact ⟨p', e, Equiv.Perm.sign_swap hab⟩

/-- **C30**: the private `_compute_sign` (which nothing calls) is the parity. -/
theorem C30_compute_sign {n : ℕ} (σ : Equiv.Perm (Fin n)) (p : ℕ → ℕ)
    (hp : ∀ i : Fin n, p i = (σ i : Fin n)) :
    computeSign n p = some (decide (Equiv.Perm.sign σ = -1)) := by
  obtain ⟨s, e, V, π, h1, h2, h3, h4, h5, h6, h7⟩ := forN_inv (n := n)
    (f := fun i (s : (ℕ → ℕ) × Bool) =>
      if s.1 i = 1 then some s else markLoop n p (n + 1) (p i) (Function.update s.1 i 1) s.2)
    (s := (fun _ => 0, false))
    (fun k s => ∃ (V : Finset (Fin n)) (π : Equiv.Perm (Fin n)), (∀ x : Fin n, x ∈ V → s.1 x = 1) ∧
      (∀ x : Fin n, x ∉ V → s.1 x ≠ 1) ∧ (∀ x ∈ V, π x = σ x) ∧ (∀ x ∉ V, π x = x) ∧
      (∀ x y : Fin n, σ.SameCycle x y → x ∈ V → y ∈ V) ∧ (∀ x : Fin n, (x : ℕ) < k → x ∈ V) ∧
      Equiv.Perm.sign π = if s.2 then -1 else 1)
    ⟨∅, 1, by simp, by simp, by simp, by simp, by simp, fun x h => by omega, by simp⟩
    (by
      rintro k hk ⟨buf, odd⟩ ⟨V, π, h1, h2, h3, h4, h5, h6, h7⟩
      simp only at h1 h2 h7
      have next : ∀ {V' : Finset (Fin n)}, V ⊆ V' → (⟨k, hk⟩ : Fin n) ∈ V' →
          ∀ x : Fin n, (x : ℕ) < k + 1 → x ∈ V' := by
        intro V' hsub hkV x hx
        rcases Nat.lt_or_eq_of_le (Nat.lt_succ_iff.1 hx) with h | h
        · exact hsub (h6 x h)
        · obtain rfl : x = ⟨k, hk⟩ := Fin.ext h
          exact hkV
      by_cases hb : buf k = 1
      · have hkV : (⟨k, hk⟩ : Fin n) ∈ V := by
          by_contra h
          exact h2 _ h hb
        exact ⟨(buf, odd), if_pos hb, V, π, h1, h2, h3, h4, h5, next (Finset.Subset.refl _) hkV, h7⟩
      · have hkV : (⟨k, hk⟩ : Fin n) ∉ V := fun h => hb (h1 _ h)
        obtain ⟨buf', odd', j, e, g1, g2, g3, g4, g5⟩ := markLoop_spec σ ⟨k, hk⟩ p buf odd hp
          (fun x hx => h2 x (fun h => hkV (h5 _ _ hx.symm h))) (n + 1) 0
          (Function.update buf ((⟨k, hk⟩ : Fin n) : ℕ) 1) odd (by omega) (fun a h h' => by omega)
          (by
            rintro x ⟨a, ha, rfl⟩
            obtain rfl : a = 0 := by omega
            rw [pow_zero, Equiv.Perm.one_apply, Function.update_self])
          (by
            intro x hx
            rw [upd, if_neg (fun h => hx ⟨0, le_rfl, by rw [h]; simp⟩)])
          (by simp)
        have hcyc : ∀ x, x ∈ Finset.univ.filter (fun x => σ.SameCycle ⟨k, hk⟩ x) ↔ σ.SameCycle ⟨k, hk⟩ x := by
          intro x
          simp
        refine ⟨(buf', odd'), ?_, V ∪ Finset.univ.filter (fun x => σ.SameCycle ⟨k, hk⟩ x),
          π * σ.cycleOf ⟨k, hk⟩, ?_, ?_, ?_, ?_, ?_, next Finset.subset_union_left ?_, ?_⟩
        · rw [if_neg hb]
          have : p k = ((σ ^ (0 + 1)) ⟨k, hk⟩ : Fin n) := by
            rw [zero_add, pow_one]
            exact hp ⟨k, hk⟩
          show markLoop n p (n + 1) (p k) _ _ = _
          rw [this]
          exact e
        · intro x hx
          by_cases hc : σ.SameCycle ⟨k, hk⟩ x
          · exact g1 x hc
          · rw [Finset.mem_union, hcyc] at hx
            show buf' x = 1
            rw [g2 x hc, h1 x (hx.resolve_right hc)]
        · intro x hx
          rw [Finset.mem_union, hcyc, not_or] at hx
          show buf' x ≠ 1
          rw [g2 x hx.2]
          exact h2 x hx.1
        · intro x hx
          rw [Equiv.Perm.mul_apply]
          by_cases hc : σ.SameCycle ⟨k, hk⟩ x
          · rw [Equiv.Perm.SameCycle.cycleOf_apply hc]
            exact h4 _ (fun h => hkV (h5 _ _ (Equiv.Perm.sameCycle_apply_right.2 hc).symm h))
          · rw [Equiv.Perm.cycleOf_apply_of_not_sameCycle hc]
            rw [Finset.mem_union, hcyc] at hx
            exact h3 x (hx.resolve_right hc)
        · intro x hx
          rw [Finset.mem_union, hcyc, not_or] at hx
          rw [Equiv.Perm.mul_apply, Equiv.Perm.cycleOf_apply_of_not_sameCycle hx.2]
          exact h4 x hx.1
        · intro x y hxy hx
          rw [Finset.mem_union, hcyc] at hx ⊢
          rcases hx with hx | hx
          · exact Or.inl (h5 x y hxy hx)
          · exact Or.inr (hx.trans hxy)
        · rw [Finset.mem_union, hcyc]
          exact Or.inr (Equiv.Perm.SameCycle.refl _ _)
        · show Equiv.Perm.sign (π * _) = if odd' then -1 else 1
          rw [map_mul, h7, g5]
          by_cases hσ : σ ⟨k, hk⟩ = ⟨k, hk⟩
          · have hj : j = 0 := by
              by_contra hj
              exact g3 1 (by omega) (by omega) (by simpa using hσ)
            rw [(Equiv.Perm.cycleOf_eq_one_iff σ).2 hσ, hj]
            simp
          · rw [(Equiv.Perm.isCycle_cycleOf σ hσ).sign, card_cycle hσ g3 g4]
            have : (-(-1) ^ (j + 1) : ℤˣ) = if j.bodd then -1 else 1 := by
              rw [pow_succ, mul_neg_one, neg_neg]
              rcases Nat.even_or_odd j with he | ho
              · rw [he.neg_one_pow, if_neg]
                rw [← Nat.not_odd_iff_even, Nat.odd_iff, Nat.mod_two_of_bodd] at he
                intro hb
                rw [hb] at he
                exact he rfl
              · rw [ho.neg_one_pow, if_pos]
                rw [Nat.odd_iff, Nat.mod_two_of_bodd] at ho
                by_contra hb
                rw [Bool.not_eq_true] at hb
                rw [hb] at ho
                exact absurd ho (by decide)
            rw [this]
            cases odd <;> cases j.bodd <;> rfl)
  have hπ : π = σ := by
    ext x
    rw [h3 x (h6 x x.2)]
  unfold computeSign
  rw [e]
  simp only [Option.bind_eq_bind, Option.bind_some, ← hπ, h7]
  congr 1
  cases s.2 <;> decide

/-! ### C72 -/

/-- **C72**: `permutation_apply` (and `destructive_apply_permutation`) terminates and puts element `p[i]` of the
input at position `i`. -/
theorem C72_apply {α : Type} {n : ℕ} (σ : Equiv.Perm (Fin n)) (p : ℕ → ℕ)
    (hp : ∀ i : Fin n, p i = (σ i : Fin n)) (v : ℕ → α) :
    ∃ p' v', permutationApply n p v = some (p', v') ∧ (∀ i < n, v' i = v (p i)) ∧
      ∀ i : Fin n, p' i = i ∨ (p' i = p i ∧ ∀ j : Fin n, σ.SameCycle i j → i ≤ j) := by
  obtain ⟨⟨p', v'⟩, e, h1, h2, h3, h4⟩ := forN_inv (n := n)
    (f := fun i (s : (ℕ → ℕ) × (ℕ → α)) => if s.1 i = i then some s else applyLoop n n i i (s.1 i) s.1 s.2)
    (s := (p, v))
    (fun k s =>
      (∀ x : Fin n, (∃ y : Fin n, (y : ℕ) < k ∧ σ.SameCycle y x) → s.2 x = v (σ x : Fin n)) ∧
      (∀ x : Fin n, (¬ ∃ y : Fin n, (y : ℕ) < k ∧ σ.SameCycle y x) → s.2 x = v x) ∧
      (∀ x : Fin n, (∃ y : Fin n, (y : ℕ) < k ∧ σ.SameCycle y x) → k ≤ x → s.1 x = x) ∧
      (∀ x : Fin n, s.1 x = (σ x : Fin n) ∨ s.1 x = x) ∧
      (∀ x : Fin n, (¬ ∃ y : Fin n, (y : ℕ) < k ∧ σ.SameCycle y x) → s.1 x = (σ x : Fin n)) ∧
      (∀ x y : Fin n, σ.SameCycle y x → y < x → (y : ℕ) < k → s.1 x = x))
    (by
      refine ⟨?_, fun x _ => rfl, ?_, fun x => Or.inl (hp x), fun x _ => hp x, fun x y _ _ h => by omega⟩
      · rintro x ⟨y, hy, -⟩
        omega
      · rintro x ⟨y, hy, -⟩
        omega)
    (by
      rintro k hk ⟨q, u⟩ ⟨h1, h2, h3, h4, h5, h6⟩
      simp only at h1 h2 h3 h4 h5 h6
      have split : ∀ x : Fin n, (∃ y : Fin n, (y : ℕ) < k + 1 ∧ σ.SameCycle y x) ↔
          (∃ y : Fin n, (y : ℕ) < k ∧ σ.SameCycle y x) ∨ σ.SameCycle ⟨k, hk⟩ x := by
        intro x
        constructor
        · rintro ⟨y, hy, hc⟩
          rcases Nat.lt_or_eq_of_le (Nat.lt_succ_iff.1 hy) with h | h
          · exact Or.inl ⟨y, h, hc⟩
          · obtain rfl : y = ⟨k, hk⟩ := Fin.ext h
            exact Or.inr hc
        · rintro (⟨y, hy, hc⟩ | hc)
          · exact ⟨y, by omega, hc⟩
          · exact ⟨⟨k, hk⟩, by simp, hc⟩
      by_cases hvis : ∃ y : Fin n, (y : ℕ) < k ∧ σ.SameCycle y ⟨k, hk⟩
      · -- already visited
        have hkk : q k = k := h3 ⟨k, hk⟩ hvis le_rfl
        have same : ∀ x : Fin n, (∃ y : Fin n, (y : ℕ) < k + 1 ∧ σ.SameCycle y x) ↔
            ∃ y : Fin n, (y : ℕ) < k ∧ σ.SameCycle y x := by
          intro x
          rw [split]
          refine ⟨fun h => h.elim id (fun hc => ?_), Or.inl⟩
          obtain ⟨y, hy, hc'⟩ := hvis
          exact ⟨y, hy, hc'.trans hc⟩
        refine ⟨(q, u), if_pos hkk, ?_, ?_, ?_, h4, ?_, ?_⟩
        · exact fun x hx => h1 x ((same x).1 hx)
        · exact fun x hx => h2 x (fun h => hx ((same x).2 h))
        · exact fun x hx hkx => h3 x ((same x).1 hx) (by omega)
        · exact fun x hx => h5 x (fun h => hx ((same x).2 h))
        · intro x y hc hyx hy
          rcases Nat.lt_or_eq_of_le (Nat.lt_succ_iff.1 hy) with h | h
          · exact h6 x y hc hyx h
          · obtain rfl : y = ⟨k, hk⟩ := Fin.ext h
            obtain ⟨z, hz, hcz⟩ := hvis
            exact h6 x z (hcz.trans hc) (lt_trans (show z < ⟨k, hk⟩ from hz) hyx) hz
      · have hqk : q k = _ := h5 ⟨k, hk⟩ hvis
        have hnot : ∀ x : Fin n, σ.SameCycle ⟨k, hk⟩ x → ¬ ∃ y : Fin n, (y : ℕ) < k ∧ σ.SameCycle y x :=
          fun x hc ⟨y, hy, hc'⟩ => hvis ⟨y, hy, hc'.trans hc.symm⟩
        by_cases hσ : σ ⟨k, hk⟩ = ⟨k, hk⟩
        · -- a fixed point
          have hkk : q k = k := by rw [hqk, hσ]
          have alone : ∀ x, σ.SameCycle ⟨k, hk⟩ x → x = ⟨k, hk⟩ := fun x ⟨a, ha⟩ => by
            rw [← ha]
            exact Equiv.Perm.zpow_apply_eq_self_of_apply_eq_self hσ a
          refine ⟨(q, u), if_pos hkk, ?_, ?_, ?_, h4, ?_, ?_⟩
          · intro x hx
            rcases (split x).1 hx with h | h
            · exact h1 x h
            · show u x = _
              rw [h2 x (hnot x h), alone x h, hσ]
          · exact fun x hx => h2 x (fun h => hx ((split x).2 (Or.inl h)))
          · intro x hx hkx
            rcases (split x).1 hx with h | h
            · exact h3 x h (by omega)
            · rw [alone x h] at hkx
              simp at hkx
          · exact fun x hx => h5 x (fun h => hx ((split x).2 (Or.inl h)))
          · intro x y hc hyx hy
            rcases Nat.lt_or_eq_of_le (Nat.lt_succ_iff.1 hy) with h | h
            · exact h6 x y hc hyx h
            · obtain rfl : y = ⟨k, hk⟩ := Fin.ext h
              rw [alone x hc] at hyx
              exact absurd hyx (lt_irrefl _)
        · have hkk : q k ≠ k := fun h => hσ (Fin.ext (hqk.symm.trans h))
          obtain ⟨q', u', e, g1, g2, g3, g4⟩ := applyLoop_spec σ ⟨k, hk⟩ q u
            (fun a => by
              rw [h5 _ (hnot _ ⟨a, by simp⟩), pow_succ_apply'])
            n 0 q u (by omega) (fun a h h' => by
              obtain rfl : a = 1 := by omega
              rw [pow_one]
              exact hσ)
            (by rintro x ⟨a, h, h', -⟩; omega) (fun x _ => rfl) (by rintro x ⟨a, h, -⟩; omega) rfl
            (fun x _ => rfl)
          refine ⟨(q', u'), ?_, ?_, ?_, ?_, ?_, ?_, ?_⟩
          · rw [if_neg hkk]
            show applyLoop n n k k (q k) q u = _
            rw [hqk]
            exact e
          · intro x hx
            show u' x = _
            rcases (split x).1 hx with h | h
            · have hc : ¬ σ.SameCycle ⟨k, hk⟩ x := fun hc => hnot x hc h
              rw [g2 x hc, h1 x h]
            · rw [g1 x h, h2 _ (hnot _ (Equiv.Perm.sameCycle_apply_right.2 h))]
          · intro x hx
            show u' x = _
            rw [split, not_or] at hx
            rw [g2 x hx.2, h2 x hx.1]
          · intro x hx hkx
            show q' x = _
            rcases (split x).1 hx with h | h
            · have hc : ¬ σ.SameCycle ⟨k, hk⟩ x := fun hc => hnot x hc h
              rw [g4 x (Or.inl hc), h3 x h (by omega)]
            · refine g3 x h (fun he => ?_)
              rw [he] at hkx
              simp at hkx
          · intro x
            show q' x = _ ∨ q' x = _
            by_cases hc : σ.SameCycle ⟨k, hk⟩ x
            · by_cases hx : x = ⟨k, hk⟩
              · rw [g4 x (Or.inr hx)]
                exact h4 x
              · exact Or.inr (g3 x hc hx)
            · rw [g4 x (Or.inl hc)]
              exact h4 x
          · intro x hx
            show q' x = _
            rw [split, not_or] at hx
            rw [g4 x (Or.inl hx.2), h5 x hx.1]
          · intro x y hc hyx hy
            show q' x = _
            by_cases hcx : σ.SameCycle ⟨k, hk⟩ x
            · refine g3 x hcx (fun he => ?_)
              rw [he] at hyx
              rcases Nat.lt_or_eq_of_le (Nat.lt_succ_iff.1 hy) with h | h
              · exact hvis ⟨y, h, hc.trans hcx.symm⟩
              · exact absurd (show (y : ℕ) < k from hyx) (by omega)
            · rw [g4 x (Or.inl hcx)]
              rcases Nat.lt_or_eq_of_le (Nat.lt_succ_iff.1 hy) with h | h
              · exact h6 x y hc hyx h
              · obtain rfl : y = ⟨k, hk⟩ := Fin.ext h
                exact absurd hc hcx)
  obtain ⟨h4, h5, h6⟩ := h4
  refine ⟨p', v', e, fun i hi => ?_, fun i => ?_⟩
  · rw [show p i = _ from hp ⟨i, hi⟩]
    exact h1 ⟨i, hi⟩ ⟨⟨i, hi⟩, hi, Equiv.Perm.SameCycle.refl _ _⟩
  · by_cases hmin : ∀ j : Fin n, σ.SameCycle i j → i ≤ j
    · rcases h4 i with h | h
      · exact Or.inr ⟨h.trans (hp i).symm, hmin⟩
      · exact Or.inl h
    · push Not at hmin
      obtain ⟨j, hc, hj⟩ := hmin
      exact Or.inl (h6 i j hc.symm hj j.2)

/-- **C72** refuted: the index array is documented to hold the identity afterwards; the first element of each
cycle is not reset. -/
theorem C72_reset_refuted : ∃ p' v', permutationApply 2 (fun i => 1 - i) (fun i => i) = some (p', v') ∧
    p' 0 = 1 := ⟨_, _, rfl, rfl⟩

/-! ### Concrete instances -/

example : (permutationApply 4 (fun i => (i + 1) % 4) (fun i => 10 * i)).map
    (fun s => ((List.range 4).map s.1, (List.range 4).map s.2)) = some ([1, 1, 2, 3], [10, 20, 30, 0]) := by
  decide

example : (permutationSign 3 (fun i => (i + 1) % 3)).map Prod.snd = some (-1) := by decide

example : computeSign 3 (fun i => (i + 1) % 3) = some false := by decide

example : (do
    let p ← (Perm.new 3).swapRows 0 2
    let p ← p.transpose.swapCols 1 2
    some ((List.range 3).map p.src, (List.range 3).map p.dst, p.signCall))
    = some ([1, 2, 0], [2, 0, 1], some 1) := by decide

end Geomc.Mtx
