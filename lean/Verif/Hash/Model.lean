import Verif.Common
import Mathlib.Data.List.Basic

/-!
# Model of `geomc/Hash.h` and `geomc/function/functiondetail/SipHash.cpp`

Hash words are bit vectors.  The leaf digests of element types (`std::hash`, identity) are parameters:
what is modelled is how geomc combines them.  `std::type_index` nonces are parameters too.
-/

namespace Geomc.Hash

/-- `hash_combine` for 128-bit words, geomc/Hash.h:211-218. -/
def combine128 (h0 h1 : BitVec 128) : BitVec 128 :=
  h0 ^^^ (h1 + 0x9e3779b97f4a7c15f39cc0605cedc834#128 + (h0 <<< 24) + (h0 >>> 8))

/-- `hash_combine` for 64-bit words, geomc/Hash.h:219-221. -/
def combine64 (h0 h1 : BitVec 64) : BitVec 64 :=
  h0 ^^^ (h1 + 0x9e3779b97f4a7c15#64 + (h0 <<< 12) + (h0 >>> 4))

/-- `hash_combine` for 32-bit words, geomc/Hash.h:222-229. -/
def combine32 (h0 h1 : BitVec 32) : BitVec 32 :=
  h0 ^^^ (h1 + 0x9e3779b9#32 + (h0 <<< 6) + (h0 >>> 2))

/-- `hash_combine` for 16-bit words, geomc/Hash.h:230-233.  The operands are promoted: the sum is
computed in 32-bit unsigned arithmetic and truncated by `^=`. -/
def combine16 (h0 h1 : BitVec 16) : BitVec 16 :=
  h0 ^^^ (h1.setWidth 32 + 0x9e37#32 + (h0.setWidth 32 <<< 3) + (h0.setWidth 32 >>> 1)).setWidth 16

/-- `hash_combine_many`, geomc/Hash.h:244-252: `combine(h, combine_many(rest...))`. -/
def combineMany {H : Type} (combine : H → H → H) : H → List H → H
  | h, [] => h
  | h, h' :: hs => combine h (combineMany combine h' hs)

/-- `hash_many(nonce, objs...)`, geomc/Hash.h:263-266, `digest` being `geom::hash<T,H>`; also the
tuple digest, geomc/Hash.h:186-198, with its fixed nonce. -/
def hashMany {H T : Type} (combine : H → H → H) (digest : T → H) (nonce : H) (objs : List T) : H :=
  combineMany combine nonce (objs.map digest)

/-- `hash_array(nonce, objs, count)`, geomc/Hash.h:254-261. -/
def hashArray {H T : Type} (combine : H → H → H) (digest : T → H) (nonce : H) (objs : List T) : H :=
  objs.foldl (fun h o => combine h (digest o)) nonce

/-- `Digest<Dual<T>,H>`, geomc/function/functiondetail/DualFunctions.h:250-262. -/
def digestDual {H T : Type} (combine : H → H → H) (digest : T → H) (x dx : T) : H :=
  combine (digest x) (digest dx)

/-! ## SipHash -/

abbrev Byte := BitVec 8
abbrev Word := BitVec 64

/-- The four state words `v0..v3`. -/
@[ext] structure St where
  v0 : Word
  v1 : Word
  v2 : Word
  v3 : Word
  deriving DecidableEq

/-- A read of message byte `i`: undefined outside the message.  The log collects the addresses. -/
def rd (msg : List Byte) (i : ℕ) (log : List ℕ) : Option (Byte × List ℕ) :=
  msg[i]?.map fun b => (b, log ++ [i])

/-- `u8to64`, SipHash.cpp:17-24. -/
def u8to64 (msg : List Byte) (p : ℕ) (log : List ℕ) : Option (Word × List ℕ) := do
  let (b0, log) ← rd msg p log
  let (b1, log) ← rd msg (p + 1) log
  let (b2, log) ← rd msg (p + 2) log
  let (b3, log) ← rd msg (p + 3) log
  let (b4, log) ← rd msg (p + 4) log
  let (b5, log) ← rd msg (p + 5) log
  let (b6, log) ← rd msg (p + 6) log
  let (b7, log) ← rd msg (p + 7) log
  let v : Word := b0.setWidth 64
  let v := v ||| (b1.setWidth 64 <<< 8 ||| b2.setWidth 64 <<< 16)
  let v := v ||| (b3.setWidth 64 <<< 24 ||| b4.setWidth 64 <<< 32)
  let v := v ||| (b5.setWidth 64 <<< 40 ||| b6.setWidth 64 <<< 48)
  let v := v ||| (b7.setWidth 64 <<< 56)
  some (v, log)

/-- `u32to8`, SipHash.cpp:5-10. -/
def u32to8 (v : BitVec 32) : List Byte :=
  [v.setWidth 8, (v >>> 8).setWidth 8, (v >>> 16).setWidth 8, (v >>> 24).setWidth 8]

/-- `u64to8`, SipHash.cpp:12-15. -/
def u64to8 (v : Word) : List Byte := u32to8 (v.setWidth 32) ++ u32to8 ((v >>> 32).setWidth 32)

/-- `sipround`, SipHash.cpp:26-41. -/
def sipround (s : St) : St :=
  let ⟨v0, v1, v2, v3⟩ := s
  let v0 := v0 + v1
  let v1 := v1.rotateLeft 13
  let v1 := v1 ^^^ v0
  let v0 := v0.rotateLeft 32
  let v2 := v2 + v3
  let v3 := v3.rotateLeft 16
  let v3 := v3 ^^^ v2
  let v0 := v0 + v3
  let v3 := v3.rotateLeft 21
  let v3 := v3 ^^^ v0
  let v2 := v2 + v1
  let v1 := v1.rotateLeft 17
  let v1 := v1 ^^^ v2
  let v2 := v2.rotateLeft 32
  ⟨v0, v1, v2, v3⟩

/-- `for (i = 0; i < n; ++i) sipround(...)`. -/
def rounds (n : ℕ) (s : St) : St := (List.range n).foldl (fun s _ => sipround s) s

/-- Body of the block loop, SipHash.cpp:90-97. -/
def absorb (s : St) (m : Word) : St :=
  let s := { s with v3 := s.v3 ^^^ m }
  let s := rounds 2 s
  { s with v0 := s.v0 ^^^ m }

/-- The `switch (left)` with its fall-throughs, SipHash.cpp:99-109, entered at `case left`. -/
def tail (msg : List Byte) (ni : ℕ) : ℕ → Word → List ℕ → Option (Word × List ℕ)
  | 0, b, log => some (b, log)
  | k + 1, b, log => do
    let (x, log) ← rd msg (ni + k) log
    tail msg ni k (b ||| (x.setWidth 64 <<< (8 * k))) log

/-- `siphash(in, inlen, k, out, outlen)`, SipHash.cpp:54-127, returning the output bytes and the log
of message addresses read; the key is read from its 16 bytes. -/
def siphash (msg key : List Byte) (outlen : ℕ) : Option (List Byte × List ℕ) := do
  let inlen := msg.length
  let (k0, _) ← u8to64 key 0 []
  let (k1, _) ← u8to64 key 8 []
  let stop := inlen - inlen % 8
  let left := inlen % 8
  let b : Word := BitVec.ofNat 64 inlen <<< 56
  let s : St := ⟨0x736f6d6570736575#64 ^^^ k0, 0x646f72616e646f6d#64 ^^^ k1,
    0x6c7967656e657261#64 ^^^ k0, 0x7465646279746573#64 ^^^ k1⟩
  let s := if outlen = 16 then { s with v1 := s.v1 ^^^ 0xee#64 } else s
  let (s, log) ← (List.range (stop / 8)).foldlM (fun (st : St × List ℕ) (i : ℕ) => do
      let (m, log) ← u8to64 msg (8 * i) st.2
      some (absorb st.1 m, log)) (s, [])
  let (b, log) ← tail msg stop left b log
  let s := absorb s b
  let s := if outlen = 16 then { s with v2 := s.v2 ^^^ 0xee#64 }
    else { s with v2 := s.v2 ^^^ 0xff#64 }
  let s := rounds 4 s
  let out := u64to8 (s.v0 ^^^ s.v1 ^^^ s.v2 ^^^ s.v3)
  if outlen = 8 then some (out, log)
  else
    let s := { s with v1 := s.v1 ^^^ 0xdd#64 }
    let s := rounds 4 s
    some (out ++ u64to8 (s.v0 ^^^ s.v1 ^^^ s.v2 ^^^ s.v3), log)

end Geomc.Hash
