import Verif.Common
import Mathlib.Data.Rat.Defs

/-!
# Model of `geomc/random/`

`Random.cpp`, `LCRand.{h,cpp}`, `MTRand.cpp`, `Xorshiro.h` and `permute` from `RandomTools.h`.
Generator words are bit vectors.  The generic part of `Random` draws 32-bit words from an arbitrary
stream, given as a list: `none` there means the stream supplied was too short.
-/

namespace Geomc.Random

/-! ## Bounded integers -/

/-- What one pass of the rejection loop does. -/
inductive Draw (w : ℕ) where
  | ub                       -- `bits % 0`
  | reject
  | accept (v : BitVec w)
  deriving DecidableEq

/-- Body and condition of the loop in `rand<unsigned>(hi)`, geomc/random/Random.cpp:189-200 (`w = 32`),
and of its 64-bit versions 212-223, 235-246 (`w = 64`). -/
def draw {w : ℕ} (hi bits : BitVec w) : Draw w :=
  if hi = 0 then .ub
  else
    let val := bits % hi
    let lo := bits - val
    if (lo &&& (1#w <<< (w - 1))) &&& ~~~(lo + (hi - 1)) = 0 then .accept val else .reject

/-- `rand<unsigned>(hi)`, geomc/random/Random.cpp:189-200, on a stream of words: the value and the
rest of the stream; `none` if undefined or if the stream has no accepted word. -/
def randBelow {w : ℕ} (hi : BitVec w) : List (BitVec w) → Option (BitVec w × List (BitVec w))
  | [] => none
  | bits :: ws =>
    match draw hi bits with
    | .ub => none
    | .reject => randBelow hi ws
    | .accept v => some (v, ws)

/-- Range check of a signed integer of `w` bits; `none` is signed overflow. -/
def chkInt (w : ℕ) (x : ℤ) : Option ℤ := if -2 ^ (w - 1) ≤ x ∧ x < 2 ^ (w - 1) then some x else none

/-- `rand<int>(hi)`, geomc/random/Random.cpp:203-209 (`w = 32`), and `rand<long>(hi)`, `rand<long long>(hi)`, 226-232 and 249-255
(`w = 64`).  The unsigned result is converted back (modulo 2^w). -/
def randInt {w : ℕ} (hi : ℤ) (ws : List (BitVec w)) : Option (ℤ × List (BitVec w)) :=
  if hi < 0 then do
    let m ← chkInt w (-hi)
    let (v, ws) ← randBelow (BitVec.ofInt w m) ws
    some ((-v).toInt, ws)
  else do
    let (v, ws) ← randBelow (BitVec.ofInt w hi) ws
    some (v.toInt, ws)

/-- `rand<int>(lo, hi)`, geomc/random/Random.cpp:275-278 (`w = 32`), and `rand<long long>(lo, hi)`, 281-284 (`w = 64`). -/
def randIntRange {w : ℕ} (lo hi : ℤ) (ws : List (BitVec w)) : Option (ℤ × List (BitVec w)) := do
  let lo1 := min hi lo
  let d ← chkInt w (max hi lo - lo1)
  let (v, ws) ← randInt d ws
  let r ← chkInt w (v + lo1)
  some (r, ws)

/-- `rand<unsigned long long>()`, geomc/random/Random.cpp:91-98: two 32-bit words, high first. -/
def word64 (a b : BitVec 32) : BitVec 64 :=
  (((0#64 <<< 32) ||| a.setWidth 64) <<< 32) ||| b.setWidth 64

/-! ## Bits and floats -/

/-- `_bitpool`, `_bitsleft` and the words still to come from `rand32()`. -/
structure Pool where
  pool : BitVec 32
  left : ℕ
  words : List (BitVec 32)

/-- `Random::Random()`, geomc/random/Random.cpp:32-33. -/
def Pool.fresh (ws : List (BitVec 32)) : Pool := ⟨0, 0, ws⟩

/-- `rand32()`. -/
def Pool.word (p : Pool) : Option (BitVec 32 × Pool) :=
  match p.words with
  | [] => none
  | w :: ws => some (w, { p with words := ws })

/-- `rand<bool>()`, geomc/random/Random.cpp:44-53. -/
def Pool.bool (p : Pool) : Option (Bool × Pool) := do
  let p ← if p.left = 0 then do
      let (w, p) ← p.word
      some { p with pool := w, left := 32 }
    else some p
  some (p.pool.getLsbD 0, { p with pool := p.pool >>> 1, left := p.left - 1 })

/-- The exponent loop `for (exp = hi_exp - 1; exp > lo_exp; exp--) if (rand<bool>()) break;` with
`lo_exp = 0`, geomc/random/Random.cpp:141-143, 170-172. -/
def expLoop : ℕ → Pool → Option (ℕ × Pool)
  | 0, p => some (0, p)
  | e + 1, p => do
    let (b, p) ← p.bool
    if b then some (e + 1, p) else expLoop e p

/-- `if (mant == 0 && rand<bool>()) exp++;`, geomc/random/Random.cpp:147, 177. -/
def bump (mantZero : Bool) (exp : ℕ) (p : Pool) : Option (ℕ × Pool) :=
  if mantZero then do
    let (b, p) ← p.bool
    some (if b then exp + 1 else exp, p)
  else some (exp, p)

/-- `rand<float>()`, geomc/random/Random.cpp:126-152: the 32 bits of the result.  The exponent field
of `1.0f` is 127. -/
def randFloat (p : Pool) : Option (BitVec 32 × Pool) := do
  let (exp, p) ← expLoop (127 - 1) p
  let (w, p) ← p.word
  let mant := (w &&& 0xFFFFFE00#32) >>> 9
  let (exp, p) ← bump (mant = 0) exp p
  some ((BitVec.ofNat 32 exp <<< 23) ||| mant, p)

/-- `rand<double>()`, geomc/random/Random.cpp:155-182.  The exponent field of `1.0` is 1023. -/
def randDouble (p : Pool) : Option (BitVec 64 × Pool) := do
  let (exp, p) ← expLoop (1023 - 1) p
  let (a, p) ← p.word
  let (b, p) ← p.word
  let mant := (((a.setWidth 64 <<< 32) ||| b.setWidth 64) &&& 0xFFFFFFFFFFFFF000#64) >>> 12
  let (exp, p) ← bump (mant = 0) exp p
  some ((BitVec.ofNat 64 exp <<< 52) ||| mant, p)

/-! ## `permute` -/

/-- The shuffle loop of `permute`, geomc/random/RandomTools.h:58-65 (array) and 76-83 (vector), with
`c i` the value of `rng.rand(len - i)` at step `i`; an index outside the array is undefined. -/
def permute {α : Type} (len : ℕ) (c : ℕ → ℕ) (objs : ℕ → α) : Option (ℕ → α) :=
  (List.range len).foldlM (fun (objs : ℕ → α) (i : ℕ) =>
    let swapIdx := c i + i
    if swapIdx < len then
      let tmp := objs swapIdx
      let objs := Function.update objs swapIdx (objs i)
      some (Function.update objs i tmp)
    else none) objs

/-! ## Generators -/

/-- `LCRand::rand64`, geomc/random/LCRand.h:48-53: the new state, which is also the output. -/
def lcStep (s : BitVec 64) : BitVec 64 := 6364136223846793005#64 * s + 1442695040888963407#64

/-- `LCRand::rand32`, geomc/random/LCRand.cpp:21-23. -/
def lcRand32 (s : BitVec 64) : BitVec 32 × BitVec 64 := ((lcStep s >>> 32).setWidth 32, lcStep s)

/-- An `LCRand` with the bit pool of its base class, geomc/random/Random.h `_bitpool`, `_bitsleft`. -/
structure LCGen where
  state : BitVec 64
  pool : BitVec 32
  left : ℕ

/-- `LCRand(seed)`, geomc/random/LCRand.cpp:17, and the base constructor Random.cpp:32-33. -/
def LCGen.new (seed : BitVec 64) : LCGen := ⟨seed, 0, 0⟩

/-- `LCRand::rseed`, geomc/random/LCRand.cpp:25-27: only the generator word is replaced. -/
def LCGen.rseed (g : LCGen) (seed : BitVec 64) : LCGen := { g with state := seed }

/-- `rand<bool>()` on an `LCRand`, geomc/random/Random.cpp:44-53. -/
def LCGen.bool (g : LCGen) : Bool × LCGen :=
  let g := if g.left = 0 then
      let (w, s) := lcRand32 g.state
      { g with state := s, pool := w, left := 32 }
    else g
  (g.pool.getLsbD 0, { g with pool := g.pool >>> 1, left := g.left - 1 })

/-- `splitmix64`, geomc/random/Xorshiro.h:10-15, returning the output and the new state. -/
def splitmix64 (s : BitVec 64) : BitVec 64 × BitVec 64 :=
  let s := s + 0x9E3779B97f4A7C15#64
  let x := s
  let x := (x ^^^ (x >>> 30)) * 0xBF58476D1CE4E5B9#64
  let x := (x ^^^ (x >>> 27)) * 0x94D049BB133111EB#64
  (x ^^^ (x >>> 31), s)

/-- State of `XoshiroRand`. -/
@[ext] structure Xo where
  s0 : BitVec 64
  s1 : BitVec 64
  s2 : BitVec 64
  s3 : BitVec 64
  deriving DecidableEq

/-- `XoshiroRand::rseed`, geomc/random/Xorshiro.h:36-42. -/
def Xo.rseed (seed : BitVec 64) : Xo :=
  let (a, x) := splitmix64 seed
  let (b, x) := splitmix64 x
  let (c, x) := splitmix64 x
  let (d, _) := splitmix64 x
  ⟨a, b, c, d⟩

/-- `XoshiroRand::seed(F&&)`, geomc/random/Xorshiro.h:44-55, with the four values returned by
`entropy()`. -/
def Xo.seedF (e0 e1 e2 e3 : BitVec 64) : Xo :=
  ⟨(splitmix64 e0).1, (splitmix64 e1).1, (splitmix64 e2).1, (splitmix64 e3).1⟩

/-- `XoshiroRand::seed(const uint64_t[4])`, geomc/random/Xorshiro.h:57-62. -/
def Xo.seedArray (e0 e1 e2 e3 : BitVec 64) : Xo := ⟨e0, e1, e2, e3⟩

/-- `XoshiroRand::rand64`, geomc/random/Xorshiro.h:64-78. -/
def Xo.rand64 (s : Xo) : BitVec 64 × Xo :=
  let ⟨s0, s1, s2, s3⟩ := s
  let out := (s0 + s3).rotateLeft 23 + s0
  let t := s1 <<< 17
  let s2 := s2 ^^^ s0
  let s3 := s3 ^^^ s1
  let s1 := s1 ^^^ s2
  let s0 := s0 ^^^ s3
  let s2 := s2 ^^^ t
  let s3 := s3.rotateLeft 45
  (out, ⟨s0, s1, s2, s3⟩)

/-- State of `MTRand`; `index` is a byte offset. -/
structure MT where
  buf : ℕ → BitVec 32
  index : ℕ

/-- A read of the 624-entry table. -/
def mtGet (b : ℕ → BitVec 32) (i : ℕ) : Option (BitVec 32) := if i < 624 then some (b i) else none

/-- A write of the 624-entry table. -/
def mtSet (b : ℕ → BitVec 32) (i : ℕ) (v : BitVec 32) : Option (ℕ → BitVec 32) :=
  if i < 624 then some (Function.update b i v) else none

/-- `TWIST(b,i,j)`, geomc/random/MTRand.cpp:27. -/
def twist (x y : BitVec 32) : BitVec 32 := (x &&& 0x80000000#32) ||| (y &&& 0x7FFFFFFF#32)

/-- `(s >> 1) ^ MAGIC(s)`, geomc/random/MTRand.cpp:28, 54, 58, 62. -/
def mix (s : BitVec 32) : BitVec 32 := (s >>> 1) ^^^ ((s &&& 1#32) * 0x9908B0DF#32)

/-- One assignment `b[i] = b[k] ^ (s >> 1) ^ MAGIC(s)` with `s = TWIST(b,i,j)`,
geomc/random/MTRand.cpp:53-54, 57-58, 61-62. -/
def mtCell (b : ℕ → BitVec 32) (i j k : ℕ) : Option (ℕ → BitVec 32) := do
  let x ← mtGet b i
  let y ← mtGet b j
  let z ← mtGet b k
  mtSet b i (z ^^^ mix (twist x y))

/-- The regeneration loops, geomc/random/MTRand.cpp:49-62 (`MT_IB = 227`). -/
def mtRefill (b : ℕ → BitVec 32) : Option (ℕ → BitVec 32) := do
  let b ← (List.range 227).foldlM (fun b i => mtCell b i (i + 1) (i + 397)) b
  let b ← (List.range (623 - 227)).foldlM
    (fun b k => mtCell b (227 + k) (227 + k + 1) (227 + k - 227)) b
  mtCell b 623 0 396

/-- `MTRand::rand32`, geomc/random/MTRand.cpp:42-66.  The byte offset must be aligned and inside the
table. -/
def MT.rand32 (m : MT) : Option (BitVec 32 × MT) := do
  let (b, idx) ← if m.index = 624 * 4 then do
      let b ← mtRefill m.buf
      some (b, 0)
    else some (m.buf, m.index)
  let v ← if idx % 4 = 0 then mtGet b (idx / 4) else none
  some (v, ⟨b, idx + 4⟩)

/-- `MTRand::rseed`, geomc/random/MTRand.cpp:68-74. -/
def MT.rseed (seed : BitVec 64) : Option MT := do
  let st ← (List.range 624).foldlM (fun (st : (ℕ → BitVec 32) × BitVec 64) (i : ℕ) => do
      let (v, s) := lcRand32 st.2
      let b ← mtSet st.1 i v
      some (b, s)) ((fun _ => 0), seed)
  some ⟨st.1, 0⟩

/-- `n` draws. -/
def MT.run (m : MT) : ℕ → Option (List (BitVec 32) × MT)
  | 0 => some ([], m)
  | n + 1 => do
    let (xs, m) ← m.run n
    let (x, m) ← m.rand32
    some (xs ++ [x], m)

end Geomc.Random
