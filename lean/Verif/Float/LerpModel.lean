import Verif.Float.VecModel

/-! # Model of interpolation and of remainders in floating point

Every operation is the exact result rounded by `rnd`, as in `Verif.Float.Model`. -/

namespace Geomc.Flt

variable {K : Type} [Field K] {n : ℕ}

/-- `interp_linear`, geomc/function/Utils.h:114-125.  `p` is the sample table as a function of the offset, `p + blocksize` the shifted
table. -/
def interpLinear (rnd : K → K) (s : ℕ → K) : ℕ → (ℕ → K) → K
  | 0, p => mix rnd (s 0) (p 0) (p 1)
  | 1, p => mix rnd (s 0) (p 0) (p 1)
  | n + 2, p => mix rnd (s (n + 1)) (interpLinear rnd s (n + 1) p) (interpLinear rnd s (n + 1) fun i => p (2 ^ (n + 1) + i))

/-- `Vec::mix`, geomc/linalg/vecdetail/VecBase.h:667-674: without the compensation of `mix`. -/
def vecMix (rnd : K → K) (u v : Fin n → K) (t : K) : Fin n → K :=
  let xim := rnd (1 - t)
  fun i => rnd (rnd (xim * u i) + rnd (t * v i))

/-- One dimensional `interp_cubic`, Utils.h:134-140.  The literals are of type `double`, so that an operation with one of them is done
with that precision, `wide`; differences of samples have the precision of the samples, `rnd`, as has the result.  The two are the same
for samples of type `double`. -/
def interpCubic1 (rnd wide : K → K) (s : K) (p0 p1 p2 p3 : K) : K :=
  let c1 := rnd (p2 - p0)
  let c2 := wide (wide (wide (wide (2 * p0) - wide (5 * p1)) + wide (4 * p2)) - p3)
  let c3 := wide (wide (wide (3 * rnd (p1 - p2)) + p3) - p0)
  rnd (wide (p1 + wide (wide (1 / 2 * s) * wide (c1 + wide (s * wide (c2 + wide (s * c3)))))))

/-- `interp_cubic` over `dim` axes, Utils.h:150-164. -/
def interpCubic (rnd wide : K → K) (s : ℕ → K) : ℕ → (ℕ → K) → K
  | 0, p => interpCubic1 rnd wide (s 0) (p 0) (p 1) (p 2) (p 3)
  | 1, p => interpCubic1 rnd wide (s 0) (p 0) (p 1) (p 2) (p 3)
  | n + 2, p =>
    let b := 2 ^ (2 * (n + 1))
    interpCubic1 rnd wide (s (n + 1)) (interpCubic rnd wide s (n + 1) p) (interpCubic rnd wide s (n + 1) fun i => p (b + i))
      (interpCubic rnd wide s (n + 1) fun i => p (2 * b + i)) (interpCubic rnd wide s (n + 1) fun i => p (3 * b + i))

variable [LinearOrder K] [FloorRing K]

/-- `positive_mod` for floating-point types, Utils.h:28-32.  `std::floor` is exact. -/
def positiveMod (rnd : K → K) (a b : K) : K := rnd (a - rnd (b * (⌊rnd (a / b)⌋ : ℤ)))

/-- `angle_to`, Utils.h:199-214; `turn` is the rounded full turn. -/
def angleTo (rnd : K → K) (turn r0 r1 : K) : K :=
  let a0 := positiveMod rnd r0 turn
  let a1 := positiveMod rnd r1 turn
  let da := rnd (a1 - a0)
  let db := rnd (a1 - rnd (a0 + turn))
  let dc := rnd (a1 - rnd (a0 - turn))
  let err := if |da| < |db| then da else db
  if |err| < |dc| then err else dc

end Geomc.Flt
