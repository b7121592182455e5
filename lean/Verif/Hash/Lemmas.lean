import Verif.Hash.Spec
import Mathlib.Tactic.Ring
import Mathlib.Data.List.GetD
import Mathlib.Data.Fintype.EquivFin

namespace Geomc.Hash

/-! ## `hash_combine` -/

theorem combine128_inj (h0 : BitVec 128) : Function.Injective (combine128 h0) := by
  intro a b h
  simpa [combine128] using h

theorem combine64_inj (h0 : BitVec 64) : Function.Injective (combine64 h0) := by
  intro a b h
  simpa [combine64] using h

theorem combine32_inj (h0 : BitVec 32) : Function.Injective (combine32 h0) := by
  intro a b h
  simpa [combine32] using h

theorem combine16_inj (h0 : BitVec 16) : Function.Injective (combine16 h0) := by
  intro a b h
  simp only [combine16, BitVec.xor_right_inj] at h
  rw [BitVec.setWidth_add _ _ (by decide), BitVec.setWidth_add _ _ (by decide),
    BitVec.setWidth_add _ _ (by decide), BitVec.setWidth_add _ _ (by decide),
    BitVec.setWidth_add _ _ (by decide), BitVec.setWidth_add _ _ (by decide)] at h
  simpa using h

/-- Pigeonhole on bit vectors. -/
theorem bitvec_surj {w : ℕ} {f : BitVec w → BitVec w} (h : Function.Injective f) :
    Function.Bijective f := by
  have e : BitVec w ≃ Fin (2 ^ w) := ⟨fun x => x.toFin, fun x => ⟨x⟩, fun _ => rfl, fun _ => rfl⟩
  have : Finite (BitVec w) := Finite.of_equiv _ e.symm
  exact Finite.injective_iff_bijective.1 h

/-! ## SipHash rounds -/

theorem rotl_inj {w : ℕ} (r : ℕ) (hr : r < w) :
    Function.Injective (fun x : BitVec w => x.rotateLeft r) := by
  intro x y h
  apply BitVec.eq_of_getLsbD_eq
  intro i hi
  simp only at h
  have e : ∀ z : BitVec w, z.getLsbD i = (z.rotateLeft r).getLsbD ((i + r) % w) := by
    intro z
    rw [BitVec.getLsbD_rotateLeft_of_le hr]
    by_cases hc : i + r < w
    · rw [Nat.mod_eq_of_lt hc]
      have h1 : decide (i + r < r) = false := by simp
      have h2 : decide (i + r < w) = true := by simpa using hc
      rw [h1, h2]; simp
    · have : (i + r) % w = i + r - w := by
        rw [Nat.mod_eq_sub_mod (by omega), Nat.mod_eq_of_lt (by omega)]
      rw [this]
      have h1 : decide (i + r - w < r) = true := by simp; omega
      rw [h1]
      simp only [cond_true]
      congr 1; omega
  rw [e x, e y, h]

theorem round_eq (s : St) : sipround s = Spec.round s := rfl

theorem rounds2 (s : St) : rounds 2 s = Spec.round (Spec.round s) := rfl

theorem rounds4 (s : St) : rounds 4 s = Spec.round4 s := rfl

theorem sipround_inj : Function.Injective sipround := by
  rintro ⟨a, b, c, d⟩ ⟨a', b', c', d'⟩ h
  simp only [sipround, St.mk.injEq] at h
  obtain ⟨h0, h1, h2, h3⟩ := h
  have r32 := rotl_inj (w := 64) 32 (by decide)
  have r13 := rotl_inj (w := 64) 13 (by decide)
  have r16 := rotl_inj (w := 64) 16 (by decide)
  have r21 := rotl_inj (w := 64) 21 (by decide)
  have r17 := rotl_inj (w := 64) 17 (by decide)
  have h2 := r32 h2
  rw [h2] at h1
  rw [h0] at h3
  have h1 := r17 ((BitVec.xor_left_inj _).1 h1)
  have h3 := r21 ((BitVec.xor_left_inj _).1 h3)
  try simp only at h1 h3
  rw [h1] at h2
  rw [h3] at h0
  have h2 := (BitVec.add_left_inj _).1 h2
  have h0 := r32 ((BitVec.add_left_inj _).1 h0)
  try simp only at h0
  rw [h0] at h1
  rw [h2] at h3
  have h1 := r13 ((BitVec.xor_left_inj _).1 h1)
  have h3 := r16 ((BitVec.xor_left_inj _).1 h3)
  try simp only at h1 h3
  rw [h1] at h0
  rw [h3] at h2
  have h0 := (BitVec.add_left_inj _).1 h0
  have h2 := (BitVec.add_left_inj _).1 h2
  simp [h0, h1, h2, h3]

/-! ## Byte order -/

theorem u64to8_eq (w : Word) : u64to8 w = Spec.leBytes w := by
  simp only [u64to8, u32to8, Spec.leBytes, List.range_succ, List.range_zero, List.map,
    List.nil_append, List.cons_append]
  congr 1 <;> [skip; congr 1 <;> [skip; congr 1 <;> [skip; congr 1 <;> [skip;
    congr 1 <;> [skip; congr 1 <;> [skip; congr 1 <;> [skip; congr 1]]]]]]] <;>
  · ext i hi
    simp [← Nat.add_assoc, show 8 + i < 32 by omega, show 16 + i < 32 by omega,
      show 24 + i < 32 by omega]
    try omega

theorem leWord_getLsbD (bs : List Byte) : ∀ i, i < 64 →
    (Spec.leWord bs).getLsbD i = (bs.getD (i / 8) 0).getLsbD (i % 8) := by
  induction bs with
  | nil => intro i hi; simp [Spec.leWord]
  | cons b bs ih =>
    intro i hi
    simp only [Spec.leWord, BitVec.getLsbD_or, BitVec.getLsbD_shiftLeft, BitVec.getLsbD_setWidth]
    by_cases hc : i < 8
    · have : i / 8 = 0 := by omega
      simp [this, hc, Nat.mod_eq_of_lt hc, hi]
    · obtain ⟨j, rfl⟩ : ∃ j, i = j + 8 := ⟨i - 8, by omega⟩
      rw [show (j + 8) / 8 = j / 8 + 1 by omega, show (j + 8) % 8 = j % 8 by omega]
      simp only [List.getD_cons_succ, Nat.add_sub_cancel]
      rw [ih j (by omega)]
      simp [hi]

/-- The bytes of a word of eight can be read back. -/
theorem leWord_inj {a b : List Byte} (ha : a.length = 8) (hb : b.length = 8)
    (h : Spec.leWord a = Spec.leWord b) : a = b := by
  apply List.ext_getElem (by omega)
  intro j h1 h2
  apply BitVec.eq_of_getLsbD_eq
  intro i hi
  have e : ∀ z : List Byte, (hz : z.length = 8) →
      (Spec.leWord z).getLsbD (8 * j + i) = (z[j]'(by omega)).getLsbD i := by
    intro z hz
    rw [leWord_getLsbD z _ (by omega), show (8 * j + i) / 8 = j by omega,
      show (8 * j + i) % 8 = i by omega, List.getD_eq_getElem z 0 (by omega)]
  rw [← e a ha, ← e b hb, h]

theorem rd_eq (msg : List Byte) (i : ℕ) (h : i < msg.length) (log : List ℕ) :
    rd msg i log = some (msg[i], log ++ [i]) := by
  simp [rd, List.getElem?_eq_getElem h]

theorem leWord_or (b0 b1 b2 b3 b4 b5 b6 b7 : Byte) :
    b0.setWidth 64 ||| (b1.setWidth 64 <<< 8 ||| b2.setWidth 64 <<< 16) |||
      (b3.setWidth 64 <<< 24 ||| b4.setWidth 64 <<< 32) |||
      (b5.setWidth 64 <<< 40 ||| b6.setWidth 64 <<< 48) ||| b7.setWidth 64 <<< 56 =
    Spec.leWord [b0, b1, b2, b3, b4, b5, b6, b7] := by
  simp only [Spec.leWord, BitVec.ofNat_eq_ofNat, BitVec.zero_shiftLeft, BitVec.zero_or]
  obtain ⟨f, hf⟩ : ∃ f : ℕ → Word → Word, ∀ n x, x <<< n = f n x := ⟨_, fun _ _ => rfl⟩
  have e : ∀ (x : Word) (n : ℕ), f 8 (f n x) = f (n + 8) x := by
    intro x n
    rw [← hf, ← hf, ← hf, BitVec.shiftLeft_add]
  have e0 : ∀ x y : Word, f 8 (x ||| y) = f 8 x ||| f 8 y := by
    intro x y
    rw [← hf, ← hf, ← hf]; exact BitVec.shiftLeft_or_distrib x y 8
  simp only [hf]
  simp only [e0, e, Nat.reduceAdd]
  ac_rfl

theorem u8to64_eq (msg : List Byte) (p : ℕ) (h : p + 8 ≤ msg.length) (log : List ℕ) :
    u8to64 msg p log = some (Spec.leWord ((msg.drop p).take 8),
      log ++ [p, p + 1, p + 2, p + 3, p + 4, p + 5, p + 6, p + 7]) := by
  have e : (msg.drop p).take 8 = [msg[p], msg[p + 1], msg[p + 2], msg[p + 3], msg[p + 4], msg[p + 5],
      msg[p + 6], msg[p + 7]] := by
    apply List.ext_getElem
    · simp; omega
    · intro i h1 h2
      simp only [List.length_cons, List.length_nil] at h2
      rw [List.getElem_take, List.getElem_drop]
      rcases i with _ | _ | _ | _ | _ | _ | _ | _ | i
      all_goals first | rfl | omega
  rw [e]
  simp only [u8to64, rd_eq msg _ (show p < msg.length by omega),
    rd_eq msg _ (show p + 1 < msg.length by omega), rd_eq msg _ (show p + 2 < msg.length by omega),
    rd_eq msg _ (show p + 3 < msg.length by omega), rd_eq msg _ (show p + 4 < msg.length by omega),
    rd_eq msg _ (show p + 5 < msg.length by omega), rd_eq msg _ (show p + 6 < msg.length by omega),
    rd_eq msg _ (show p + 7 < msg.length by omega), Option.bind_eq_bind, Option.bind_some,
    List.append_assoc, List.cons_append, List.nil_append, Option.some.injEq, Prod.mk.injEq, and_true]
  exact leWord_or _ _ _ _ _ _ _ _

theorem len_byte (n : ℕ) : BitVec.ofNat 64 n <<< 56 = (BitVec.ofNat 8 n).setWidth 64 <<< 56 := by
  apply BitVec.eq_of_getLsbD_eq
  intro i hi
  simp only [BitVec.getLsbD_shiftLeft, BitVec.getLsbD_setWidth, BitVec.getLsbD_ofNat]
  by_cases hc : i < 56
  · simp [hc]
  · have h1 : i - 56 < 64 := by omega
    have h2 : i - 56 < 8 := by omega
    simp [h1, h2]

theorem tail_eq (msg : List Byte) (ni : ℕ) : ∀ (k : ℕ) (b : Word) (log : List ℕ), ni + k ≤ msg.length →
    k ≤ 7 → tail msg ni k b log = some (b ||| Spec.leWord ((msg.drop ni).take k),
      log ++ ((List.range k).reverse.map (ni + ·))) := by
  intro k
  induction k with
  | zero => intro b log _ _; simp [tail, Spec.leWord]
  | succ k ih =>
    intro b log h h7
    rw [tail, rd_eq msg _ (by omega)]
    simp only [Option.bind_eq_bind, Option.bind_some]
    rw [ih _ _ (by omega) (by omega)]
    simp only [Option.some.injEq, Prod.mk.injEq]
    constructor
    · rw [List.take_add_one, List.getElem?_drop, List.getElem?_eq_getElem (by omega),
        Option.toList_some, BitVec.or_assoc]
      congr 1
      apply BitVec.eq_of_getLsbD_eq
      intro i hi
      simp only [BitVec.getLsbD_or, BitVec.getLsbD_shiftLeft, BitVec.getLsbD_setWidth,
        leWord_getLsbD _ i hi]
      have hl : ((msg.drop ni).take k).length = k := by simp; omega
      rcases Nat.lt_trichotomy (i / 8) k with h1 | h1 | h1
      · rw [List.getD_append _ _ _ _ (by omega)]
        have : i < 8 * k := by omega
        simp [this]
      · rw [List.getD_append_right _ _ _ _ (by omega), hl, h1]
        have e1 : ¬ i < 8 * k := by omega
        have e2 : i - 8 * k = i % 8 := by omega
        rw [List.getD_eq_default _ _ (by omega)]
        simp only [Nat.sub_self, List.getD_cons_zero, e2]
        simp [e1, hi]
        omega
      · rw [List.getD_eq_default _ _ (by omega), List.getD_eq_default _ _ (by simp; omega)]
        have : (msg[ni + k]).getLsbD (i - 8 * k) = false := BitVec.getLsbD_of_ge _ _ (by omega)
        simp [this]
    · rw [List.range_succ]
      simp

/-! ## The padded message -/

theorem pad_length (m : List Byte) : (Spec.pad m).length = 8 * (m.length / 8 + 1) := by
  simp [Spec.pad]; omega

theorem pad_block (m : List Byte) (k : ℕ) (h : k < m.length / 8) :
    ((Spec.pad m).drop (8 * k)).take 8 = (m.drop (8 * k)).take 8 := by
  rw [Spec.pad, List.append_assoc, List.drop_append_of_le_length (by omega),
    List.take_append_of_le_length (by simp; omega)]

theorem pad_last (m : List Byte) :
    Spec.leWord (((Spec.pad m).drop (8 * (m.length / 8))).take 8) =
      BitVec.ofNat 64 m.length <<< 56 |||
        Spec.leWord ((m.drop (m.length - m.length % 8)).take (m.length % 8)) := by
  have hst : m.length - m.length % 8 = 8 * (m.length / 8) := by omega
  rw [hst, len_byte]
  have hlen : (m.drop (8 * (m.length / 8))).length = m.length % 8 := by simp; omega
  have e1 : ((Spec.pad m).drop (8 * (m.length / 8))).take 8 =
      m.drop (8 * (m.length / 8)) ++ (List.replicate (7 - m.length % 8) 0 ++
        [BitVec.ofNat 8 m.length]) := by
    rw [Spec.pad, List.append_assoc, List.drop_append_of_le_length (by omega), List.take_of_length_le]
    rw [List.length_append, hlen]; simp; omega
  have e2 : (m.drop (8 * (m.length / 8))).take (m.length % 8) = m.drop (8 * (m.length / 8)) := by
    apply List.take_of_length_le; omega
  rw [e1, e2]
  set t := m.drop (8 * (m.length / 8)) with ht
  set L := BitVec.ofNat 8 m.length with hL
  have hmod : m.length % 8 < 8 := Nat.mod_lt _ (by decide)
  rw [← hlen] at hmod ⊢
  clear_value t L
  apply BitVec.eq_of_getLsbD_eq
  intro i hi
  rw [BitVec.getLsbD_or, leWord_getLsbD _ i hi, leWord_getLsbD _ i hi]
  simp only [BitVec.getLsbD_shiftLeft, BitVec.getLsbD_setWidth]
  rcases Nat.lt_or_ge (i / 8) t.length with h1 | h1
  · rw [List.getD_append _ _ _ _ h1]
    have : i < 56 := by omega
    simp [this]
  · rw [List.getD_append_right _ _ _ _ h1, List.getD_eq_default t _ h1]
    rcases Nat.lt_or_ge (i / 8) 7 with h2 | h2
    · rw [List.getD_append _ _ _ _ (by simp; omega)]
      have : i < 56 := by omega
      rw [List.getD_eq_getElem _ _ (by simp; omega), List.getElem_replicate]
      simp [this]
    · have : i / 8 = 7 := by omega
      have e3 : ¬ i < 56 := by omega
      rw [this, List.getD_append_right _ _ _ _ (by simp)]
      have e4 : 7 - t.length - (List.replicate (7 - t.length) (0 : Byte)).length = 0 := by simp
      rw [e4]
      have e5 : i - 56 = i % 8 := by omega
      have e6 : i % 8 < 64 := by omega
      simp [e3, e5, e6, hi]

theorem absorb_eq (s : St) (m : Word) : absorb s m = Spec.compress s m := rfl

theorem absorb_loop (m : List Byte) (s : St) :
    (List.range (m.length / 8)).foldlM (fun (st : St × List ℕ) (i : ℕ) => do
      let (w, log) ← u8to64 m (8 * i) st.2
      some (absorb st.1 w, log)) (s, []) =
    some (((List.range (m.length / 8)).map
      fun k => Spec.leWord (((Spec.pad m).drop (8 * k)).take 8)).foldl Spec.compress s,
      List.range (8 * (m.length / 8))) := by
  have := foldlM_range_inv (fun (st : St × List ℕ) (i : ℕ) => do
      let (w, log) ← u8to64 m (8 * i) st.2
      some (absorb st.1 w, log))
    (fun k st => st = (((List.range k).map
      fun k => Spec.leWord (((Spec.pad m).drop (8 * k)).take 8)).foldl Spec.compress s,
      List.range (8 * k))) (m.length / 8) (s, []) (by simp) ?_
  · obtain ⟨st, e, rfl⟩ := this
    exact e
  · rintro i hi _ rfl
    refine ⟨_, ?_, rfl⟩
    simp only [u8to64_eq m (8 * i) (by omega), Option.bind_eq_bind, Option.bind_some,
      Option.some.injEq, Prod.mk.injEq]
    constructor
    · rw [List.range_succ, List.map_append, List.foldl_append, ← pad_block m i hi]
      rfl
    · rw [show 8 * (i + 1) = 8 * i + 8 by ring, List.range_add]
      rfl

/-- Both results of `siphash`. -/
theorem siphash_eq (msg key : List Byte) (hk : 16 ≤ key.length) (outlen : ℕ)
    (ho : outlen = 8 ∨ outlen = 16) :
    siphash msg key outlen = some
      (if outlen = 8 then
        Spec.leBytes (Spec.sip64 (Spec.leWord (key.take 8)) (Spec.leWord ((key.drop 8).take 8)) msg)
       else
        Spec.leBytes (Spec.sip128 (Spec.leWord (key.take 8)) (Spec.leWord ((key.drop 8).take 8)) msg).1
        ++ Spec.leBytes
          (Spec.sip128 (Spec.leWord (key.take 8)) (Spec.leWord ((key.drop 8).take 8)) msg).2,
       List.range (8 * (msg.length / 8)) ++
        (List.range (msg.length % 8)).reverse.map (8 * (msg.length / 8) + ·)) := by
  unfold siphash
  have hst : 8 * (msg.length / 8) / 8 = msg.length / 8 := by omega
  have hst2 : msg.length - msg.length % 8 = 8 * (msg.length / 8) := by omega
  have k0 := u8to64_eq key 0 (by omega) []
  have k1 := u8to64_eq key 8 (by omega) []
  rw [List.drop_zero] at k0
  have hl := absorb_loop msg
  simp only [Option.bind_eq_bind] at hl
  have ht := tail_eq msg (8 * (msg.length / 8)) (msg.length % 8)
    (BitVec.ofNat 64 msg.length <<< 56) (List.range (8 * (msg.length / 8))) (by omega) (by omega)
  have hp := pad_last msg
  rw [hst2] at hp
  simp only [Option.bind_eq_bind, k0, k1, Option.bind_some, hst, hl, hst2, ht, rounds4,
    u64to8_eq]
  simp only [absorb_eq, ← hp]
  have hw : ∀ s, Spec.compress (((List.range (msg.length / 8)).map
      fun k => Spec.leWord (((Spec.pad msg).drop (8 * k)).take 8)).foldl Spec.compress s)
      (Spec.leWord (((Spec.pad msg).drop (8 * (msg.length / 8))).take 8)) =
      (Spec.words msg).foldl Spec.compress s := by
    intro s
    rw [Spec.words, List.range_succ, List.map_append, List.foldl_append]; rfl
  have hi : ∀ k0 k1 : Word, Spec.init k0 k1 = ⟨0x736f6d6570736575#64 ^^^ k0,
      0x646f72616e646f6d#64 ^^^ k1, 0x6c7967656e657261#64 ^^^ k0, 0x7465646279746573#64 ^^^ k1⟩ := by
    intro k0 k1
    rw [Spec.init]
    congr 1 <;> exact BitVec.xor_comm _ _
  simp only [hw]
  rcases ho with rfl | rfl
  · simp only [if_true, show ¬ (8 = 16) by decide, if_false]
    rw [Spec.sip64, hi]; rfl
  · simp only [if_true, show ¬ (16 = 8) by decide, if_false]
    rw [Spec.sip128, hi]; rfl

/-- Distinct messages are absorbed as distinct word sequences. -/
theorem words_inj : Function.Injective Spec.words := by
  intro a b h
  have hn : a.length / 8 = b.length / 8 := by
    have := congrArg List.length h
    simpa [Spec.words] using this
  have hp : Spec.pad a = Spec.pad b := by
    apply List.ext_getElem (by rw [pad_length, pad_length, hn])
    intro i h1 h2
    rw [pad_length] at h1 h2
    have hk : i / 8 < a.length / 8 + 1 := by omega
    have e : (Spec.words a)[i / 8]? = (Spec.words b)[i / 8]? := by rw [h]
    simp only [Spec.words, List.getElem?_map, ← hn] at e
    rw [List.getElem?_range hk] at e
    simp only [Option.map_some, Option.some.injEq] at e
    have e' := leWord_inj (by simp [pad_length]; omega) (by simp [pad_length]; omega) e
    have e2 := congrArg (fun l => l[i % 8]?) e'
    simp only [List.getElem?_take, List.getElem?_drop, show i % 8 < 8 by omega, if_true,
      show 8 * (i / 8) + i % 8 = i by omega] at e2
    rw [List.getElem?_eq_getElem (by rw [pad_length]; omega),
      List.getElem?_eq_getElem (by rw [pad_length]; omega)] at e2
    simpa using e2
  have hlast : BitVec.ofNat 8 a.length = BitVec.ofNat 8 b.length := by
    have := congrArg List.getLast? hp
    simpa [Spec.pad] using this
  have hlen : a.length = b.length := by
    have := congrArg BitVec.toNat hlast
    simp only [BitVec.toNat_ofNat] at this
    omega
  have := congrArg (List.take a.length) hp
  rw [Spec.pad, Spec.pad, List.append_assoc, List.append_assoc, List.take_left] at this
  rw [hlen, List.take_left] at this
  exact this

end Geomc.Hash
