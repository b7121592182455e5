import Verif.Hash.Model

/-!
# SipHash-2-4 as published (Aumasson & Bernstein)

Written from the paper and independent of the C++ control flow: the message is padded with zero bytes
to seven modulo eight, the length modulo 256 is appended, and the result is cut into little-endian
64-bit words which are absorbed one after the other.
-/

namespace Geomc.Hash.Spec

open Geomc.Hash (Byte Word St)

/-- Little-endian value of a list of bytes. -/
def leWord : List Byte → Word
  | [] => 0
  | b :: bs => (leWord bs <<< 8) ||| b.setWidth 64

/-- The padded message. -/
def pad (m : List Byte) : List Byte :=
  m ++ List.replicate (7 - m.length % 8) 0 ++ [BitVec.ofNat 8 m.length]

/-- The words absorbed. -/
def words (m : List Byte) : List Word :=
  (List.range (m.length / 8 + 1)).map fun k => leWord (((pad m).drop (8 * k)).take 8)

/-- One half of SipRound: `(a, b, c, d)` mixed as `a += b; c += d; b, d` rotated and xored. -/
def half (a b c d : Word) (rb rd : ℕ) : Word × Word × Word × Word :=
  (BitVec.rotateLeft (a + b) 32, BitVec.rotateLeft b rb ^^^ (a + b), c + d,
    BitVec.rotateLeft d rd ^^^ (c + d))

/-- SipRound: the ARX network of figure 2.1 of the paper, as two layers. -/
def round (s : St) : St :=
  let (a, b, c, d) := half s.v0 s.v1 s.v2 s.v3 13 16
  let (c, b, a, d) := half c b a d 17 21
  ⟨a, b, c, d⟩

/-- Compression with `c = 2` rounds. -/
def compress (s : St) (m : Word) : St :=
  let s := round (round { s with v3 := s.v3 ^^^ m })
  { s with v0 := s.v0 ^^^ m }

/-- Xor of the four words. -/
def fold4 (s : St) : Word := s.v0 ^^^ s.v1 ^^^ s.v2 ^^^ s.v3

/-- `d = 4` finalisation rounds. -/
def round4 (s : St) : St := round (round (round (round s)))

/-- Initial state. -/
def init (k0 k1 : Word) : St :=
  ⟨k0 ^^^ 0x736f6d6570736575#64, k1 ^^^ 0x646f72616e646f6d#64,
   k0 ^^^ 0x6c7967656e657261#64, k1 ^^^ 0x7465646279746573#64⟩

/-- 64-bit SipHash-2-4. -/
def sip64 (k0 k1 : Word) (m : List Byte) : Word :=
  let s := (words m).foldl compress (init k0 k1)
  fold4 (round4 { s with v2 := s.v2 ^^^ 0xff#64 })

/-- 128-bit SipHash-2-4 (low word, high word). -/
def sip128 (k0 k1 : Word) (m : List Byte) : Word × Word :=
  let s := init k0 k1
  let s := (words m).foldl compress { s with v1 := s.v1 ^^^ 0xee#64 }
  let s := round4 { s with v2 := s.v2 ^^^ 0xee#64 }
  (fold4 s, fold4 (round4 { s with v1 := s.v1 ^^^ 0xdd#64 }))

/-- Little-endian bytes of a word. -/
def leBytes (w : Word) : List Byte := (List.range 8).map fun i => (w >>> (8 * i)).setWidth 8

end Geomc.Hash.Spec
