import Verif.Hash.Lemmas
import Mathlib.Data.Finite.Prod

/-!
# C11-C13: hash combination, structured digests, SipHash
-/

namespace Geomc.Hash

/-- **C11.** At each supported width and for every first hash, `hash_combine` is a bijection of its
second argument: combining never creates (or hides) a collision between second hashes. -/
theorem C11_bijective :
    (∀ h0 : BitVec 128, Function.Bijective (combine128 h0)) ∧
    (∀ h0 : BitVec 64, Function.Bijective (combine64 h0)) ∧
    (∀ h0 : BitVec 32, Function.Bijective (combine32 h0)) ∧
    (∀ h0 : BitVec 16, Function.Bijective (combine16 h0)) :=
  ⟨fun h => bitvec_surj (combine128_inj h), fun h => bitvec_surj (combine64_inj h),
   fun h => bitvec_surj (combine32_inj h), fun h => bitvec_surj (combine16_inj h)⟩

/-- The symmetric claim is false: two different first hashes can collide with the same second hash. -/
theorem C11_first_argument_refuted : combine16 0x3b#16 0#16 = combine16 0x40#16 0#16 := by decide

example : combine32 1#32 2#32 ≠ combine32 1#32 3#32 := by decide

/-- What C11 gives for a generic combiner: distinct second arguments stay distinct. -/
def Separates {H : Type} (combine : H → H → H) : Prop := ∀ h, Function.Injective (combine h)

theorem combineMany_last {H : Type} {combine : H → H → H} (hc : Separates combine) (xs : List H) :
    ∀ (h a b : H), combineMany combine h (xs ++ [a]) = combineMany combine h (xs ++ [b]) → a = b := by
  induction xs with
  | nil => intro h a b e; exact hc h e
  | cons x xs ih => intro h a b e; exact ih x a b (hc h e)

/-- **C12, last element.** With a combiner as in C11, two sequences (arrays via `hash_array`, argument
packs and tuples via `hash_many`) which differ only in their last element have different digests
exactly when the last elements' own digests differ. -/
theorem C12_last {H T : Type} {combine : H → H → H} (hc : Separates combine) (digest : T → H)
    (nonce : H) (xs : List T) (a b : T) :
    (hashArray combine digest nonce (xs ++ [a]) = hashArray combine digest nonce (xs ++ [b]) ↔
      digest a = digest b) ∧
    (hashMany combine digest nonce (xs ++ [a]) = hashMany combine digest nonce (xs ++ [b]) ↔
      digest a = digest b) := by
  constructor
  · simp only [hashArray, List.foldl_append, List.foldl_cons, List.foldl_nil]
    exact ⟨fun e => hc _ e, fun e => by rw [e]⟩
  · simp only [hashMany, List.map_append, List.map_cons, List.map_nil]
    exact ⟨fun e => combineMany_last hc _ _ _ _ e, fun e => by rw [e]⟩

/-- **C12, equality.** If equal elements (for the element type's own `==`, written `R`) have equal
digests, then element-wise equal sequences have equal digests. -/
theorem C12_respects_eq {H T : Type} (combine : H → H → H) (digest : T → H) (R : T → T → Prop)
    (hR : ∀ a b, R a b → digest a = digest b) (nonce : H) (xs ys : List T) (h : List.Forall₂ R xs ys) :
    hashArray combine digest nonce xs = hashArray combine digest nonce ys ∧
    hashMany combine digest nonce xs = hashMany combine digest nonce ys := by
  have hm : xs.map digest = ys.map digest := by
    induction h with
    | nil => rfl
    | cons h _ ih => simp [hR _ _ h, ih]
  refine ⟨?_, by rw [hashMany, hashMany, hm]⟩
  have : ∀ zs : List T, hashArray combine digest nonce zs =
      (zs.map digest).foldl combine nonce := by
    intro zs; rw [hashArray, List.foldl_map]
  rw [this, this, hm]

/-- All four widths meet the hypothesis of `C12_last`. -/
theorem C12_separates : Separates combine128 ∧ Separates combine64 ∧ Separates combine32 ∧
    Separates combine16 :=
  ⟨combine128_inj, combine64_inj, combine32_inj, combine16_inj⟩

example : hashArray combine64 (BitVec.ofNat 64) 5#64 [1, 2, 3] ≠
    hashArray combine64 (BitVec.ofNat 64) 5#64 [1, 2, 4] := by decide

/-- **C12 refuted for dual numbers.** `Dual::operator==` compares only the primal part, yet the digest
mixes in the dual part: duals which compare equal have different digests as soon as the digests of
their dual parts differ. -/
theorem C12_dual_refuted {H T : Type} {combine : H → H → H} (hc : Separates combine) (digest : T → H)
    (x dx dx' : T) (h : digest dx ≠ digest dx') :
    digestDual combine digest x dx ≠ digestDual combine digest x dx' :=
  fun e => h (hc _ e)

example : digestDual combine64 (BitVec.ofNat 64) 1 2 ≠ digestDual combine64 (BitVec.ofNat 64) 1 3 :=
  C12_dual_refuted combine64_inj _ _ _ _ (by decide)

/-- **C13.** For every message and 16-byte key, `siphash` is defined (no byte outside the message is
read), its 8- and 16-byte outputs are the little-endian bytes of the published SipHash-2-4, and each
byte of the message is read exactly once. -/
theorem C13_siphash (msg key : List Byte) (hk : key.length = 16) :
    ∃ log, (∃ k0 k1 : Word, k0 = Spec.leWord (key.take 8) ∧ k1 = Spec.leWord (key.drop 8) ∧
      siphash msg key 8 = some (Spec.leBytes (Spec.sip64 k0 k1 msg), log) ∧
      siphash msg key 16 = some
        (Spec.leBytes (Spec.sip128 k0 k1 msg).1 ++ Spec.leBytes (Spec.sip128 k0 k1 msg).2, log)) ∧
      log.Perm (List.range msg.length) := by
  refine ⟨List.range (8 * (msg.length / 8)) ++
        (List.range (msg.length % 8)).reverse.map (8 * (msg.length / 8) + ·), ⟨_, _, rfl, rfl, ?_, ?_⟩,
        ?_⟩
  · have := siphash_eq msg key (by omega) 8 (Or.inl rfl)
    rw [this, List.take_of_length_le (l := key.drop 8) (by simp; omega)]
    rfl
  · have := siphash_eq msg key (by omega) 16 (Or.inr rfl)
    rw [this, List.take_of_length_le (l := key.drop 8) (by simp; omega)]
    rfl
  · have h1 : (List.range (8 * (msg.length / 8)) ++
        (List.range (msg.length % 8)).map (8 * (msg.length / 8) + ·)).Perm
        (List.range msg.length) := by
      conv_rhs => rw [show msg.length = 8 * (msg.length / 8) + msg.length % 8 by omega,
        List.range_add]
    refine List.Perm.trans ?_ h1
    exact List.Perm.append_left _ ((List.reverse_perm _).map _)

/-- **C13, absorption.** Different messages (of any lengths) are absorbed as different word
sequences, and each round is a permutation of the 256-bit state. -/
theorem C13_injective : Function.Injective Spec.words ∧ Function.Bijective sipround := by
  refine ⟨words_inj, ?_⟩
  have e : St ≃ Fin (2 ^ 64) × Fin (2 ^ 64) × Fin (2 ^ 64) × Fin (2 ^ 64) :=
    ⟨fun s => (s.v0.toFin, s.v1.toFin, s.v2.toFin, s.v3.toFin),
     fun p => ⟨⟨p.1⟩, ⟨p.2.1⟩, ⟨p.2.2.1⟩, ⟨p.2.2.2⟩⟩, fun _ => rfl, fun _ => rfl⟩
  have : Finite St := Finite.of_equiv _ e.symm
  exact Finite.injective_iff_bijective.1 sipround_inj

/-- The test vector of appendix A of the SipHash paper. -/
example : siphash ((List.range 15).map (BitVec.ofNat 8)) ((List.range 16).map (BitVec.ofNat 8)) 8 =
    some (Spec.leBytes 0xa129ca6149be45e5#64, [0, 1, 2, 3, 4, 5, 6, 7, 14, 13, 12, 11, 10, 9, 8]) := by
  decide +kernel

end Geomc.Hash
