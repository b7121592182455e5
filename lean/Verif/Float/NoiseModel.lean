import Verif.Float.VecModel
import Verif.Perlin.Model

/-! # Model of Perlin noise in floating point

Every operation is the exact result rounded by `rnd`, as in `Verif.Float.Model`; `std::floor` and the conversions of small whole
numbers are exact.  As in `Verif.Perlin.Model` the gradients are an arbitrary function of the grid point. -/

namespace Geomc.Flt

variable {K : Type} [Field K] {N : ℕ}

/-- `fade`, geomc/function/PerlinNoise.h:225-227. -/
def fadeF (rnd : K → K) (t : K) : K := rnd (rnd (rnd (t * t) * t) * rnd (rnd (t * rnd (rnd (t * 6) - 15)) + 10))

/-- `dfade_dt`, PerlinNoise.h:229-232. -/
def dfadeF (rnd : K → K) (t : K) : K :=
  let w := rnd (t - 1)
  rnd (rnd (rnd (rnd (30 * w) * w) * t) * t)

/-- One pass of the interpolation loop, PerlinNoise.h:105-107, in place. -/
def noisePass (rnd : K → K) (t : K) (pairs : ℕ) (f : ℕ → K) : ℕ → K :=
  (List.range pairs).foldl (fun f pair => Function.update f pair (mix rnd t (f (pair * 2)) (f (pair * 2 + 1)))) f

/-- The outer loop after `k` axes, PerlinNoise.h:102-108. -/
def noisePasses (rnd : K → K) (x : Fin N → K) (f : ℕ → K) : ℕ → ℕ → K
  | 0 => f
  | k + 1 => if h : k < N then noisePass rnd (fadeF rnd (x ⟨k, h⟩)) (2 ^ (N - k - 1)) (noisePasses rnd x f k) else noisePasses rnd x f k

/-- The corner planes, PerlinNoise.h:91-95. -/
def noisePlanes (rnd : K → K) (grad : (Fin N → ℤ) → Fin N → K) (p0 : Fin N → ℤ) (m : Fin N → K) (c : ℕ) : K :=
  dot rnd (fun i => rnd (m i - ((Perlin.corner N c i : ℤ) : K))) (grad fun i => p0 i + Perlin.corner N c i)

/-- The body of the inner loop of `gradient`, PerlinNoise.h:155-176. -/
def slopeBody (rnd : K → K) (axis : Fin N) (t dt : K) (s : Perlin.St N K) (pair : ℕ) : Perlin.St N K :=
  let k := pair * 2
  let a := (s k).1
  let b := (s (k + 1)).1
  let da := (s k).2
  let db := (s (k + 1)).2
  let w : Fin N → K := fun _ => 0
  let w := Function.update w axis (rnd (w axis + rnd (rnd (b - a) * dt)))
  let w := fun i => rnd (w i + rnd (rnd (1 - t) * da i))
  let w := fun i => rnd (w i + rnd (t * db i))
  Function.update s pair (mix rnd t a b, w)

/-- One pass of it, PerlinNoise.h:154-177. -/
def slopePass (rnd : K → K) (axis : Fin N) (t dt : K) (pairs : ℕ) (s : Perlin.St N K) : Perlin.St N K :=
  (List.range pairs).foldl (slopeBody rnd axis t dt) s

/-- All passes, PerlinNoise.h:146-178. -/
def slopePasses (rnd : K → K) (x : Fin N → K) (s : Perlin.St N K) : ℕ → Perlin.St N K
  | 0 => s
  | k + 1 => if h : k < N then
      slopePass rnd ⟨k, h⟩ (fadeF rnd (x ⟨k, h⟩)) (dfadeF rnd (x ⟨k, h⟩)) (2 ^ (N - k - 1)) (slopePasses rnd x s k)
    else slopePasses rnd x s k

variable [LinearOrder K] [FloorRing K]

/-- The position within the cell, PerlinNoise.h:86-88. -/
def cellPos (rnd : K → K) (pt : Fin N → K) (i : Fin N) : K := rnd (pt i - ((⌊pt i⌋ : ℤ) : K))

/-- `eval(pt)`, PerlinNoise.h:81-111. -/
def noiseF (rnd : K → K) (grad : (Fin N → ℤ) → Fin N → K) (pt : Fin N → K) : K :=
  noisePasses rnd (cellPos rnd pt) (noisePlanes rnd grad (fun i => ⌊pt i⌋) (cellPos rnd pt)) N 0

/-- `gradient(pt)`, PerlinNoise.h:119-181; undefined in one dimension as in `Verif.Perlin.Model`. -/
def noiseSlopeF (rnd : K → K) (grad : (Fin N → ℤ) → Fin N → K) (pt : Fin N → K) : Option (K × (Fin N → K)) :=
  if N = 1 then none
  else
    let p0 : Fin N → ℤ := fun i => ⌊pt i⌋
    some (slopePasses rnd (cellPos rnd pt) (fun c => (noisePlanes rnd grad p0 (cellPos rnd pt) c, grad fun i => p0 i + Perlin.corner N c i)) N 0)

end Geomc.Flt
