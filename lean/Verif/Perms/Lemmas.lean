import Verif.Perms.Model
import Mathlib.GroupTheory.Perm.Cycle.Type

/-! # Cycle walks -/

namespace Geomc.Mtx

open Equiv.Perm (mem_support_cycleOf_iff')

variable {n : ℕ} {α : Type}

/-- `i, σ i, …, σ^j i` are distinct. -/
def Fresh (σ : Equiv.Perm (Fin n)) (i : Fin n) (j : ℕ) : Prop := ∀ a, 0 < a → a ≤ j → (σ ^ a) i ≠ i

theorem Fresh.inj {σ : Equiv.Perm (Fin n)} {i : Fin n} {j : ℕ} (h : Fresh σ i j) {a b : ℕ} (ha : a ≤ j)
    (hb : b ≤ j) (he : (σ ^ a) i = (σ ^ b) i) : a = b := by
  wlog hab : a ≤ b generalizing a b
  · exact (this hb ha he.symm (by omega)).symm
  by_contra hne
  refine h (b - a) (by omega) (by omega) ?_
  have : (σ ^ b) i = (σ ^ a) ((σ ^ (b - a)) i) := by
    rw [← Equiv.Perm.mul_apply, ← pow_add]
    congr 2
    omega
  rw [this] at he
  exact ((σ ^ a).injective he).symm

theorem Fresh.lt {σ : Equiv.Perm (Fin n)} {i : Fin n} {j : ℕ} (h : Fresh σ i j) : j < n := by
  have : Function.Injective (fun a : Fin (j + 1) => (σ ^ (a : ℕ)) i) := fun a b he =>
    Fin.ext (h.inj (by omega) (by omega) he)
  have := Fintype.card_le_of_injective _ this
  simp only [Fintype.card_fin] at this
  omega

theorem Fresh.succ {σ : Equiv.Perm (Fin n)} {i : Fin n} {j : ℕ} (h : Fresh σ i j) (hne : (σ ^ (j + 1)) i ≠ i) :
    Fresh σ i (j + 1) := by
  intro a ha haj
  rcases Nat.lt_or_eq_of_le haj with h1 | rfl
  · exact h a ha (by omega)
  · exact hne

theorem pow_succ_apply' (σ : Equiv.Perm (Fin n)) (j : ℕ) (i : Fin n) : (σ ^ (j + 1)) i = σ ((σ ^ j) i) := by
  rw [pow_succ', Equiv.Perm.mul_apply]

/-- The members of a closed cycle. -/
theorem sameCycle_iff {σ : Equiv.Perm (Fin n)} {i : Fin n} {k : ℕ} (hk : 0 < k) (he : (σ ^ k) i = i) (x : Fin n) :
    σ.SameCycle i x ↔ ∃ a < k, x = (σ ^ a) i := by
  constructor
  · intro h
    obtain ⟨b, rfl⟩ := h.exists_nat_pow_eq
    refine ⟨b % k, Nat.mod_lt _ hk, ?_⟩
    have hq : ∀ q : ℕ, (σ ^ (k * q)) i = i := by
      intro q
      induction q with
      | zero => simp
      | succ q ih => rw [Nat.mul_succ, pow_add, Equiv.Perm.mul_apply, he, ih]
    conv_lhs => rw [← Nat.mod_add_div b k, pow_add, Equiv.Perm.mul_apply, hq]
  · rintro ⟨a, -, rfl⟩
    exact ⟨a, by simp⟩

theorem card_cycle {σ : Equiv.Perm (Fin n)} {i : Fin n} {k : ℕ} (hi : σ i ≠ i) (hf : Fresh σ i k)
    (he : (σ ^ (k + 1)) i = i) : (σ.cycleOf i).support.card = k + 1 := by
  have : (σ.cycleOf i).support = (Finset.range (k + 1)).image (fun a => (σ ^ a) i) := by
    ext x
    rw [mem_support_cycleOf_iff' hi, sameCycle_iff (Nat.succ_pos k) he]
    simp only [Finset.mem_image, Finset.mem_range]
    constructor
    · rintro ⟨a, ha, rfl⟩
      exact ⟨a, ha, rfl⟩
    · rintro ⟨a, ha, rfl⟩
      exact ⟨a, ha, rfl⟩
  rw [this, Finset.card_image_of_injOn, Finset.card_range]
  intro a ha b hb he'
  simp only [Finset.coe_range, Set.mem_Iio] at ha hb
  exact hf.inj (by omega) (by omega) he'

theorem upd (f : ℕ → α) (x y : Fin n) (a : α) :
    Function.update f (x : ℕ) a (y : ℕ) = if y = x then a else f y := by
  rw [Function.update_apply]
  exact if_congr Fin.val_inj rfl rfl

theorem forN_partial {S : Type} {m : ℕ} {f : ℕ → S → Option S} {s s' : S} (P : ℕ → S → Prop)
    (h : forN m f s = some s') (h0 : P 0 s) (hs : ∀ i s s', P i s → f i s = some s' → P (i + 1) s') :
    P m s' := by
  induction m generalizing s' with
  | zero =>
    rw [forN_zero] at h
    exact Option.some.inj h ▸ h0
  | succ m ih =>
    rw [forN_succ, Option.bind_eq_some_iff] at h
    obtain ⟨t, h1, h2⟩ := h
    exact hs m t s' (ih h1) h2

/-! ### `permutation_apply` -/

theorem applyLoop_spec (σ : Equiv.Perm (Fin n)) (i : Fin n) (p₀ : ℕ → ℕ) (v₀ : ℕ → α)
    (hp₀ : ∀ a, p₀ ((σ ^ a) i : Fin n) = ((σ ^ (a + 1)) i : Fin n)) :
    ∀ (f j : ℕ) (p : ℕ → ℕ) (v : ℕ → α), n ≤ j + f → Fresh σ i (j + 1) →
      (∀ x : Fin n, (∃ a, 0 < a ∧ a ≤ j ∧ x = (σ ^ a) i) → p x = x) →
      (∀ x : Fin n, (¬ ∃ a, 0 < a ∧ a ≤ j ∧ x = (σ ^ a) i) → p x = p₀ x) →
      (∀ x : Fin n, (∃ a < j, x = (σ ^ a) i) → v x = v₀ (σ x)) → v ((σ ^ j) i : Fin n) = v₀ i →
      (∀ x : Fin n, (¬ ∃ a ≤ j, x = (σ ^ a) i) → v x = v₀ x) →
      ∃ p' v', applyLoop n f i ((σ ^ j) i : Fin n) ((σ ^ (j + 1)) i : Fin n) p v = some (p', v') ∧
        (∀ x : Fin n, σ.SameCycle i x → v' x = v₀ (σ x)) ∧
        (∀ x : Fin n, ¬ σ.SameCycle i x → v' x = v₀ x) ∧
        (∀ x : Fin n, σ.SameCycle i x → x ≠ i → p' x = x) ∧
        (∀ x : Fin n, ¬ σ.SameCycle i x ∨ x = i → p' x = p₀ x) := by
  intro f
  induction f with
  | zero =>
    intro j p v hf hfr
    have := hfr.lt
    omega
  | succ f ih =>
    intro j p v hf hfr h1 h2 h3 h4 h5
    rw [applyLoop, if_pos (Fin.is_lt _)]
    have hnext : p ((σ ^ (j + 1)) i : Fin n) = ((σ ^ (j + 2)) i : Fin n) := by
      rw [h2 _ ?_, hp₀]
      rintro ⟨a, ha, haj, he⟩
      have := hfr.inj le_rfl (by omega) he
      omega
    have hcn : (σ ^ j) i ≠ (σ ^ (j + 1)) i := fun he => by
      have := hfr.inj (by omega) le_rfl he
      omega
    -- the state after this round
    have g1 : ∀ x : Fin n, (∃ a, 0 < a ∧ a ≤ j + 1 ∧ x = (σ ^ a) i) →
        Function.update p ((σ ^ (j + 1)) i : Fin n) ((σ ^ (j + 1)) i : Fin n) x = x := by
      rintro x ⟨a, ha, haj, rfl⟩
      rw [upd]
      split_ifs with he
      · rw [he]
      · refine h1 _ ⟨a, ha, ?_, rfl⟩
        rcases Nat.lt_or_eq_of_le haj with h | rfl
        · omega
        · exact absurd rfl he
    have g2 : ∀ x : Fin n, (¬ ∃ a, 0 < a ∧ a ≤ j + 1 ∧ x = (σ ^ a) i) →
        Function.update p ((σ ^ (j + 1)) i : Fin n) ((σ ^ (j + 1)) i : Fin n) x = p₀ x := by
      intro x hx
      rw [upd, if_neg (fun he => hx ⟨j + 1, by omega, le_rfl, he⟩)]
      exact h2 x (fun ⟨a, ha, haj, he⟩ => hx ⟨a, ha, by omega, he⟩)
    have g3 : ∀ x : Fin n, (∃ a < j + 1, x = (σ ^ a) i) →
        Function.update (Function.update v ((σ ^ j) i : Fin n) (v ((σ ^ (j + 1)) i : Fin n)))
          ((σ ^ (j + 1)) i : Fin n) (v ((σ ^ j) i : Fin n)) x = v₀ (σ x) := by
      rintro x ⟨a, ha, rfl⟩
      rw [upd, if_neg (fun he => by have := hfr.inj (by omega) le_rfl he; omega), upd]
      split_ifs with he
      · have : v ((σ ^ (j + 1)) i : Fin n) = v₀ ((σ ^ (j + 1)) i : Fin n) := h5 _ (by
          rintro ⟨b, hb, he'⟩
          have := hfr.inj le_rfl (by omega) he'
          omega)
        rw [this, he, pow_succ_apply']
      · refine h3 _ ⟨a, ?_, rfl⟩
        rcases Nat.lt_or_eq_of_le (Nat.lt_succ_iff.1 ha) with h | rfl
        · exact h
        · exact absurd rfl he
    have g4 : Function.update (Function.update v ((σ ^ j) i : Fin n) (v ((σ ^ (j + 1)) i : Fin n)))
          ((σ ^ (j + 1)) i : Fin n) (v ((σ ^ j) i : Fin n)) ((σ ^ (j + 1)) i : Fin n) = v₀ i := by
      rw [Function.update_self, h4]
    have g5 : ∀ x : Fin n, (¬ ∃ a ≤ j + 1, x = (σ ^ a) i) →
        Function.update (Function.update v ((σ ^ j) i : Fin n) (v ((σ ^ (j + 1)) i : Fin n)))
          ((σ ^ (j + 1)) i : Fin n) (v ((σ ^ j) i : Fin n)) x = v₀ x := by
      intro x hx
      rw [upd, if_neg (fun he => hx ⟨j + 1, le_rfl, he⟩), upd, if_neg (fun he => hx ⟨j, by omega, he⟩)]
      exact h5 x (fun ⟨a, ha, he⟩ => hx ⟨a, by omega, he⟩)
    simp only [hnext]
    split_ifs with hend
    · have hend' : (σ ^ (j + 2)) i = i := Fin.ext hend
      refine ⟨_, _, rfl, ?_, ?_, ?_, ?_⟩
      · intro x hx
        obtain ⟨a, ha, rfl⟩ := (sameCycle_iff (by omega) hend' x).1 hx
        by_cases haj : a < j + 1
        · exact g3 _ ⟨a, haj, rfl⟩
        · obtain rfl : a = j + 1 := by omega
          rw [g4, ← pow_succ_apply', hend']
      · intro x hx
        exact g5 x (fun ⟨a, ha, he⟩ => hx ((sameCycle_iff (by omega) hend' x).2 ⟨a, by omega, he⟩))
      · intro x hx hxi
        obtain ⟨a, ha, rfl⟩ := (sameCycle_iff (by omega) hend' x).1 hx
        refine g1 _ ⟨a, ?_, by omega, rfl⟩
        by_contra h0
        obtain rfl : a = 0 := by omega
        exact hxi (by simp)
      · intro x hx
        refine g2 x (fun ⟨a, ha, haj, he⟩ => ?_)
        rcases hx with hx | hx
        · exact hx ((sameCycle_iff (by omega) hend' x).2 ⟨a, by omega, he⟩)
        · exact hfr a ha (by omega) (he.symm.trans hx)
    · have hne : (σ ^ (j + 2)) i ≠ i := fun he => hend (by rw [he])
      exact ih (j + 1) _ _ (by omega) (hfr.succ hne) g1 g2 g3 g4 g5

/-! ### `permutation_sign` -/

theorem signLoop_spec (σ : Equiv.Perm (Fin n)) (i : Fin n) (hi : σ i ≠ i) (p₀ : ℕ → ℕ) (odd₀ : Bool)
    (hp₀ : ∀ a, p₀ ((σ ^ a) i : Fin n) = ((σ ^ (a + 1)) i : Fin n)) :
    ∀ (f j : ℕ) (p : ℕ → ℕ) (odd : Bool), n ≤ j + f → Fresh σ i j →
      (∀ x : Fin n, (∃ a < j, x = (σ ^ a) i) → p x = x) →
      (∀ x : Fin n, (¬ ∃ a < j, x = (σ ^ a) i) → p x = p₀ x) →
      odd = (odd₀ ^^ j.bodd) →
      ∃ p' odd', signLoop n f i ((σ ^ j) i : Fin n) p odd = some (p', odd') ∧
        (∀ x : Fin n, σ.SameCycle i x → p' x = x) ∧ (∀ x : Fin n, ¬ σ.SameCycle i x → p' x = p₀ x) ∧
        odd' = (odd₀ ^^ (σ.cycleOf i).support.card.bodd) := by
  intro f
  induction f with
  | zero =>
    intro j p odd hf hfr
    have := hfr.lt
    omega
  | succ f ih =>
    intro j p odd hf hfr h1 h2 h3
    rw [signLoop, if_pos (Fin.is_lt _)]
    have hnext : p ((σ ^ j) i : Fin n) = ((σ ^ (j + 1)) i : Fin n) := by
      rw [h2 _ ?_, hp₀]
      rintro ⟨a, ha, he⟩
      have := hfr.inj le_rfl (by omega) he
      omega
    have g1 : ∀ x : Fin n, (∃ a < j + 1, x = (σ ^ a) i) →
        Function.update p ((σ ^ j) i : Fin n) ((σ ^ j) i : Fin n) x = x := by
      rintro x ⟨a, ha, rfl⟩
      rw [upd]
      split_ifs with he
      · rw [he]
      · refine h1 _ ⟨a, ?_, rfl⟩
        rcases Nat.lt_or_eq_of_le (Nat.lt_succ_iff.1 ha) with h | rfl
        · exact h
        · exact absurd rfl he
    have g2 : ∀ x : Fin n, (¬ ∃ a < j + 1, x = (σ ^ a) i) →
        Function.update p ((σ ^ j) i : Fin n) ((σ ^ j) i : Fin n) x = p₀ x := by
      intro x hx
      rw [upd, if_neg (fun he => hx ⟨j, by omega, he⟩)]
      exact h2 x (fun ⟨a, ha, he⟩ => hx ⟨a, by omega, he⟩)
    have g3 : (!odd) = (odd₀ ^^ (j + 1).bodd) := by
      rw [h3, Nat.bodd_succ]
      cases odd₀ <;> cases j.bodd <;> rfl
    simp only [hnext]
    split_ifs with hend
    · have hend' : (σ ^ (j + 1)) i = i := Fin.ext hend
      refine ⟨_, _, rfl, ?_, ?_, ?_⟩
      · intro x hx
        obtain ⟨a, ha, rfl⟩ := (sameCycle_iff (by omega) hend' x).1 hx
        exact g1 _ ⟨a, ha, rfl⟩
      · intro x hx
        exact g2 x (fun ⟨a, ha, he⟩ => hx ((sameCycle_iff (by omega) hend' x).2 ⟨a, by omega, he⟩))
      · rw [card_cycle hi hfr hend', g3]
    · have hne : (σ ^ (j + 1)) i ≠ i := fun he => hend (by rw [he])
      exact ih (j + 1) _ _ (by omega) (hfr.succ hne) g1 g2 g3

/-! ### `_compute_sign` -/

theorem markLoop_spec (σ : Equiv.Perm (Fin n)) (i : Fin n) (p : ℕ → ℕ) (buf₀ : ℕ → ℕ) (odd₀ : Bool)
    (hp : ∀ x : Fin n, p x = (σ x : Fin n)) (hb : ∀ x : Fin n, σ.SameCycle i x → buf₀ x ≠ 1) :
    ∀ (f j : ℕ) (buf : ℕ → ℕ) (odd : Bool), n + 1 ≤ j + f → Fresh σ i j →
      (∀ x : Fin n, (∃ a ≤ j, x = (σ ^ a) i) → buf x = 1) →
      (∀ x : Fin n, (¬ ∃ a ≤ j, x = (σ ^ a) i) → buf x = buf₀ x) →
      odd = (odd₀ ^^ j.bodd) →
      ∃ buf' odd' k, markLoop n p f ((σ ^ (j + 1)) i : Fin n) buf odd = some (buf', odd') ∧
        (∀ x : Fin n, σ.SameCycle i x → buf' x = 1) ∧ (∀ x : Fin n, ¬ σ.SameCycle i x → buf' x = buf₀ x) ∧
        Fresh σ i k ∧ (σ ^ (k + 1)) i = i ∧ odd' = (odd₀ ^^ k.bodd) := by
  intro f
  induction f with
  | zero =>
    intro j buf odd hf hfr
    have := hfr.lt
    omega
  | succ f ih =>
    intro j buf odd hf hfr h1 h2 h3
    rw [markLoop, if_pos (Fin.is_lt _)]
    by_cases hend : (σ ^ (j + 1)) i = i
    · rw [if_pos (by rw [hend]; exact h1 i ⟨0, by omega, by simp⟩)]
      refine ⟨_, _, j, rfl, ?_, ?_, hfr, hend, h3⟩
      · intro x hx
        obtain ⟨a, ha, rfl⟩ := (sameCycle_iff (by omega) hend x).1 hx
        exact h1 _ ⟨a, by omega, rfl⟩
      · intro x hx
        exact h2 x (fun ⟨a, ha, he⟩ => hx ((sameCycle_iff (by omega) hend x).2 ⟨a, by omega, he⟩))
    · have hfr' := hfr.succ hend
      have hfresh : ¬ ∃ a ≤ j, (σ ^ (j + 1)) i = (σ ^ a) i := by
        rintro ⟨a, ha, he⟩
        have := hfr'.inj le_rfl (by omega) he
        omega
      rw [if_neg (by rw [h2 _ hfresh]; exact hb _ ⟨((j + 1 : ℕ) : ℤ), by rw [zpow_natCast]⟩)]
      rw [hp, ← pow_succ_apply']
      refine ih (j + 1) _ _ (by omega) hfr' ?_ ?_ ?_
      · rintro x ⟨a, ha, rfl⟩
        rw [upd]
        split_ifs with he
        · rfl
        · refine h1 _ ⟨a, ?_, rfl⟩
          rcases Nat.lt_or_eq_of_le ha with h | rfl
          · omega
          · exact absurd rfl he
      · intro x hx
        rw [upd, if_neg (fun he => hx ⟨j + 1, le_rfl, he⟩)]
        exact h2 x (fun ⟨a, ha, he⟩ => hx ⟨a, by omega, he⟩)
      · rw [h3, Nat.bodd_succ]
        cases odd₀ <;> cases j.bodd <;> rfl

end Geomc.Mtx
