import Verif.Util.Model
import Mathlib.Algebra.BigOperators.Group.Finset.Basic
import Mathlib.Algebra.Order.Floor.Ring
import Mathlib.Data.Real.Archimedean

/-!
# Perlin noise

Model of geomc/function/PerlinNoise.h.  The scratch arrays of `2^N` entries are functions on `ℕ` updated in
place in the order of the code.  The lattice gradients are an arbitrary function `grad` of the grid point in
`eval` and `gradient`; `gridIndex` models how the code picks one of its 256 gradients.
-/

namespace Geomc.Perlin

open Util (mix)

variable {K : Type} [Field K]

/-- `fade`, PerlinNoise.h:225-227. -/
def fade (t : K) : K := t * t * t * (t * (t * 6 - 15) + 10)

/-- `dfade_dt`, PerlinNoise.h:229-232. -/
def dfade (t : K) : K :=
  let w := t - 1
  30 * w * w * t * t

/-- `corner(i)`, PerlinNoise.h:217-223. -/
def corner (N : ℕ) (c : ℕ) : Fin N → ℤ := fun axis => if c &&& (1 <<< (axis : ℕ)) ≠ 0 then 1 else 0

/-- `dot`. -/
def dot {N : ℕ} (a b : Fin N → K) : K := ∑ i, a i * b i

/-- One pass of the interpolation loop over `pairs` pairs, PerlinNoise.h:105-107, in place. -/
def pass (t : K) (pairs : ℕ) (f : ℕ → K) : ℕ → K :=
  (List.range pairs).foldl (fun f pair => Function.update f pair (mix t (f (pair * 2)) (f (pair * 2 + 1)))) f

/-- The outer loop after `k` axes, PerlinNoise.h:102-108. -/
def passes {N : ℕ} (x : Fin N → K) (f : ℕ → K) : ℕ → ℕ → K
  | 0 => f
  | k + 1 => if h : k < N then pass (fade (x ⟨k, h⟩)) (2 ^ (N - k - 1)) (passes x f k) else passes x f k

/-- The corner planes, PerlinNoise.h:91-95. -/
def planes {N : ℕ} (grad : (Fin N → ℤ) → Fin N → K) (p0 : Fin N → ℤ) (m : Fin N → K) (c : ℕ) : K :=
  dot (fun i => m i - ((corner N c i : ℤ) : K)) (grad (fun i => p0 i + corner N c i))

/-- The state of `gradient`'s arrays: value and gradient per entry. -/
abbrev St (N : ℕ) (K : Type) := ℕ → K × (Fin N → K)

/-- The body of `gradient`'s inner loop, PerlinNoise.h:155-176; `w` starts as the zero vector. -/
def gradBody {N : ℕ} (axis : Fin N) (t dt : K) (s : St N K) (pair : ℕ) : St N K :=
  let k := pair * 2
  let a := (s k).1
  let b := (s (k + 1)).1
  let da := (s k).2
  let db := (s (k + 1)).2
  let w : Fin N → K := fun _ => 0
  let w := Function.update w axis (w axis + (b - a) * dt)
  let w := fun i => w i + (1 - t) * da i
  let w := fun i => w i + t * db i
  Function.update s pair (mix t a b, w)

def gradPass {N : ℕ} (axis : Fin N) (t dt : K) (pairs : ℕ) (s : St N K) : St N K :=
  (List.range pairs).foldl (gradBody axis t dt) s

def gradPasses {N : ℕ} (x : Fin N → K) (s : St N K) : ℕ → St N K
  | 0 => s
  | k + 1 => if h : k < N then
      gradPass ⟨k, h⟩ (fade (x ⟨k, h⟩)) (dfade (x ⟨k, h⟩)) (2 ^ (N - k - 1)) (gradPasses x s k)
    else gradPasses x s k

def gradPlanes {N : ℕ} (grad : (Fin N → ℤ) → Fin N → K) (p0 : Fin N → ℤ) (m : Fin N → K) : St N K := fun c =>
  let g := grad (fun i => p0 i + corner N c i)
  (dot (fun i => m i - ((corner N c i : ℤ) : K)) g, g)

variable [LinearOrder K] [FloorRing K]

/-- `eval(pt)`, PerlinNoise.h:81-111. -/
def eval {N : ℕ} (grad : (Fin N → ℤ) → Fin N → K) (pt : Fin N → K) : K :=
  let p0 : Fin N → ℤ := fun i => ⌊pt i⌋
  let m : Fin N → K := fun i => pt i - ((⌊pt i⌋ : ℤ) : K)
  passes m (planes grad p0 m) N 0

/-- `gradient(pt)`, PerlinNoise.h:119-181.  In one dimension `w` is a plain number which is read before it is
written: undefined. -/
def gradient {N : ℕ} (grad : (Fin N → ℤ) → Fin N → K) (pt : Fin N → K) : Option (K × (Fin N → K)) :=
  if N = 1 then none
  else
    let p0 : Fin N → ℤ := fun i => ⌊pt i⌋
    let m : Fin N → K := fun i => pt i - ((⌊pt i⌋ : ℤ) : K)
    some (gradPasses m (gradPlanes grad p0 m) N 0)

/-- One step of the scramble, PerlinNoise.h:190-191: signed 64 bit arithmetic, undefined on overflow. -/
def scramble (idx k : ℤ) : Option ℤ := do
  let s ← Util.chk 64 (k + idx)
  let p ← Util.chk 64 (6364136223846793005 * s)
  Util.chk 64 (p + 1442695040888963407)

/-- The gradient table index of a grid point, PerlinNoise.h:185-193. -/
def gridIndex (pt : List ℤ) : Option ℤ := do
  let idx ← pt.foldlM scramble 0
  Util.positiveMod 64 idx 256

end Geomc.Perlin
