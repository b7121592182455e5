import Mathlib.Data.List.FinRange
import Mathlib.Algebra.Order.Floor.Ring
import Mathlib.Algebra.Order.Round
import Verif.Duals.Model

/-!
# Vectors

geomc/linalg/vecdetail/VecBase.h, Vec2.h, Vec3.h.  A `Vec<T,N>` is a function `Fin N → K`; arithmetic is exact.  Loops
over the components run in index order.  Square roots and trigonometric values are parameters where the
theorems do not need the real numbers.  A division by zero gives `none`.
-/

namespace Geomc.Vec

open Geomc.Duals (sumOfProducts diffOfProducts)

variable {K : Type} {n : ℕ}

/-- `std::min` and `std::max`. -/
def stdMin [LT K] [DecidableLT K] (a b : K) : K := if b < a then b else a
def stdMax [LT K] [DecidableLT K] (a b : K) : K := if a < b then b else a

section Field
variable [Field K]

/-- `dot`, geomc/linalg/vecdetail/VecBase.h:553-559. -/
def dot (u v : Fin n → K) : K := (List.finRange n).foldl (fun sum i => u i * v i + sum) 0

/-- `mag2`, geomc/linalg/vecdetail/VecBase.h:573-580. -/
def mag2 (u : Fin n → K) : K := (List.finRange n).foldl (fun sum i => u i * u i + sum) 0

/-- `dist2`, geomc/linalg/vecdetail/VecBase.h:595-597. -/
def dist2 (u v : Fin n → K) : K := mag2 (fun i => u i - v i)

/-- `project_on`, geomc/linalg/vecdetail/VecBase.h:630-633. -/
def projectOn [DecidableEq K] (u axis : Fin n → K) : Fin n → K :=
  let m2 := mag2 axis
  if m2 ≠ 0 then fun i => axis i * dot u axis / m2 else axis

/-- `fraction_on`, geomc/linalg/vecdetail/VecBase.h:640-642. -/
def fractionOn [DecidableEq K] (u axis : Fin n → K) : Option K :=
  let m2 := mag2 axis
  if m2 = 0 then none else some (dot u axis / m2)

/-- `unit`, geomc/linalg/vecdetail/VecBase.h:538-545, with `mag` at :565-567. -/
def unit [DecidableEq K] (sqrt : K → K) (u : Fin n → K) : Option (Fin n → K) :=
  let m := sqrt (mag2 u)
  if m = 0 then none else some (fun i => u i / m)

/-- `with_length`, geomc/linalg/vecdetail/VecBase.h:649-657. -/
def withLength [DecidableEq K] (sqrt : K → K) (u : Fin n → K) (mag : K) : Fin n → K :=
  let m2 := mag2 u
  if m2 = 0 then fun _ => 0 else fun i => mag * u i / sqrt m2

/-- `reflect_about`, geomc/linalg/vecdetail/VecBase.h:605-608; it calls `neg()`, which no class has, so it does not
compile as written; modelled with the unary minus. -/
def reflectAbout [DecidableEq K] (sqrt : K → K) (u normal : Fin n → K) : Option (Fin n → K) :=
  (unit sqrt normal).map fun k => fun i => -u i + k i * 2 * dot u k

/-- `bounce_on`, geomc/linalg/vecdetail/VecBase.h:621-623. -/
def bounceOn [DecidableEq K] (sqrt : K → K) (u normal : Fin n → K) : Option (Fin n → K) :=
  (reflectAbout sqrt u normal).map fun r => fun i => -r i

/-- `mix`, geomc/linalg/vecdetail/VecBase.h:667-674. -/
def mix (u v : Fin n → K) (t : K) : Fin n → K :=
  let xim := 1 - t
  fun i => xim * u i + t * v i

/-- `resized`, geomc/linalg/vecdetail/VecBase.h:840-846 (the fresh vector is zero). -/
def resized (m : ℕ) (u : Fin n → K) : Fin m → K := fun i => if h : (i : ℕ) < n then u ⟨i, h⟩ else 0

/-- `is_zero`, geomc/linalg/vecdetail/VecBase.h:851-856. -/
def isZero [DecidableEq K] (u : Fin n → K) : Bool := (List.finRange n).all fun i => u i = 0

/-- `operator==`, geomc/linalg/vecdetail/VecBase.h:395-400. -/
def eq [DecidableEq K] (u v : Fin n → K) : Bool := (List.finRange n).all fun i => v i = u i

/-- `left_perpendicular` and `right_perpendicular`, geomc/linalg/vecdetail/Vec2.h:118-128. -/
def leftPerp (u : Fin 2 → K) : Fin 2 → K := ![-u 1, u 0]
def rightPerp (u : Fin 2 → K) : Fin 2 → K := ![u 1, -u 0]

/-- `rotated`, geomc/linalg/vecdetail/Vec2.h:134-139, given the cosine and sine of the angle.  (`rotate(center, radians)`
at :147-149 calls a function that does not exist and cannot be compiled.) -/
def rotated (c s : K) (u : Fin 2 → K) : Fin 2 → K := ![c * u 0 - s * u 1, s * u 0 + c * u 1]

/-- `cross`, geomc/linalg/vecdetail/Vec3.h:206-218. -/
def cross (a b : Fin 3 → K) : Fin 3 → K :=
  ![diffOfProducts (a 1) (b 2) (a 2) (b 1), diffOfProducts (a 2) (b 0) (a 0) (b 2),
    diffOfProducts (a 0) (b 1) (a 1) (b 0)]

/-- `triangle_normal`, geomc/linalg/vecdetail/Vec3.h:25-28. -/
def triangleNormal [DecidableEq K] (sqrt : K → K) (p₁ p₂ p₃ : Fin 3 → K) : Option (Fin 3 → K) :=
  unit sqrt (cross (fun i => p₂ i - p₁ i) (fun i => p₃ i - p₁ i))

/-- `rotate(u, v, w, radians)`, geomc/linalg/vecdetail/Vec3.h:264-301, given cosine and sine. -/
def rotate [DecidableEq K] (sqrt : K → K) (c s : K) (axis p : Fin 3 → K) : Option (Fin 3 → K) :=
  let (u, v, w) := (axis 0, axis 1, axis 2)
  let (x, y, z) := (p 0, p 1, p 2)
  let u2 := u * u
  let v2 := v * v
  let w2 := w * w
  let uxvywz := sumOfProducts u x v y + w * z
  let uvw2 := u2 + v2 + w2
  let rsin := sqrt uvw2 * s
  let p0 := sumOfProducts v y w z
  let p1 := sumOfProducts u x w z
  let p2 := sumOfProducts u z v y
  let q0 := diffOfProducts v z w y
  let q1 := diffOfProducts w x u z
  let q2 := diffOfProducts u y v x
  let s0 := diffOfProducts x (v2 + w2) u p0
  let s1 := diffOfProducts y (u2 + w2) v p1
  let s2 := diffOfProducts z (u2 + v2) w p2
  let t0 := sumOfProducts u uxvywz s0 c
  let t1 := sumOfProducts v uxvywz s1 c
  let t2 := sumOfProducts w uxvywz s2 c
  if uvw2 = 0 then none
  else some ![(t0 + rsin * q0) / uvw2, (t1 + rsin * q1) / uvw2, (t2 + rsin * q2) / uvw2]

/-- `rotate(u, v, w, a, b, c, radians)`, geomc/linalg/vecdetail/Vec3.h:311-336, given cosine and sine. -/
def rotateAbout (cc ss : K) (axis center p : Fin 3 → K) : Fin 3 → K :=
  let (u, v, w) := (axis 0, axis 1, axis 2)
  let (a, b, c) := (center 0, center 1, center 2)
  let (x, y, z) := (p 0, p 1, p 2)
  let oneMcos := 1 - cc
  let u2 := u * u
  let v2 := v * v
  let w2 := w * w
  let uxvywz := diffOfProducts u x v y - w * z
  let p0 := sumOfProducts b v c w
  let p1 := sumOfProducts a u c w
  let p2 := sumOfProducts a u b v
  let q0 := diffOfProducts a (v2 + w2) u (p0 - uxvywz)
  let q1 := diffOfProducts b (u2 + w2) v (p1 - uxvywz)
  let q2 := diffOfProducts c (u2 + v2) w (p2 - uxvywz)
  ![q0 * oneMcos + x * cc + (-c * v + b * w - w * y + v * z) * ss,
    q1 * oneMcos + y * cc + (c * u - a * w + w * x - u * z) * ss,
    q2 * oneMcos + z * cc + (-b * u + a * v - v * x + u * y) * ss]

/-- `align`, geomc/linalg/vecdetail/Vec3.h:341-351. -/
def align [DecidableEq K] (src tgt v : Fin 3 → K) : Option (Fin 3 → K) :=
  let q := cross src tgt
  let c := dot src tgt
  if 1 + c = 0 then none
  else
    let k := 1 / (1 + c)
    some ![
      (q 0 * q 0 * k + c) * v 0 + (q 1 * q 0 * k - q 2) * v 1 + (q 2 * q 0 * k + q 1) * v 2,
      (q 0 * q 1 * k + q 2) * v 0 + (q 1 * q 1 * k + c) * v 1 + (q 2 * q 1 * k - q 0) * v 2,
      (q 0 * q 2 * k - q 1) * v 0 + (q 1 * q 2 * k + q 0) * v 1 + (q 2 * q 2 * k + c) * v 2]

/-- `Ray::at_multiple`, geomc/linalg/Ray.h:73-75. -/
def rayAt (o d : Fin n → K) (s : K) : Fin n → K := fun i => o i + d i * s

/-- `Ray::at_distance`, geomc/linalg/Ray.h:68-70. -/
def rayAtDistance [DecidableEq K] (sqrt : K → K) (o d : Fin n → K) (s : K) : Option (Fin n → K) :=
  (unit sqrt d).map fun k => fun i => o i + k i * s

/-- `Ray::project`, geomc/linalg/Ray.h:81-83. -/
def rayProject [DecidableEq K] (o d p : Fin n → K) : Fin n → K :=
  fun i => projectOn (fun i => p i - o i) d i + o i

/-- `Ray::dist2`, geomc/linalg/Ray.h:91-96.  (`sdf` at :86-88 calls it without an argument and cannot be compiled.) -/
def rayDist2 [DecidableEq K] (o d p : Fin n → K) : K :=
  let b : Fin n → K := fun i => p i - o i
  let b2 := mag2 b
  let e := dot d b
  if b2 = 0 then 0 else b2 - e * e / b2

end Field

section Order
variable [LinearOrder K]

/-- Componentwise `min`, `max`, `clamp`, geomc/linalg/vecdetail/VecBase.h:734-752, :786-792. -/
def vmin (u v : Fin n → K) : Fin n → K := fun i => stdMin (u i) (v i)
def vmax (u v : Fin n → K) : Fin n → K := fun i => stdMax (u i) (v i)
def clamp (u lo hi : Fin n → K) : Fin n → K := fun i => stdMin (stdMax (u i) (lo i)) (hi i)

/-- `min()`, `max()` over the components, geomc/linalg/vecdetail/VecBase.h:758-777. -/
def minElem (u : Fin (n + 1) → K) : K := (List.finRange n).foldl (fun x i => stdMin (u i.succ) x) (u 0)
def maxElem (u : Fin (n + 1) → K) : K := (List.finRange n).foldl (fun x i => stdMax (u i.succ) x) (u 0)

variable [Field K]

/-- `argmax`, geomc/linalg/vecdetail/VecBase.h:806-817; the state is `(biggest, k)`. -/
def argmax (u : Fin (n + 1) → K) : Fin (n + 1) :=
  ((List.finRange n).foldl (fun (s : K × Fin (n + 1)) i =>
    let x := |u i.succ|
    if s.1 < x then (x, i.succ) else s) (|u 0|, 0)).2

/-- `argmin`, geomc/linalg/vecdetail/VecBase.h:820-831. -/
def argmin (u : Fin (n + 1) → K) : Fin (n + 1) :=
  ((List.finRange n).foldl (fun (s : K × Fin (n + 1)) i =>
    let x := |u i.succ|
    if x < s.1 then (x, i.succ) else s) (|u 0|, 0)).2

end Order

noncomputable section Real

/-- `angle`, geomc/linalg/vecdetail/Vec2.h:174-178. -/
def angle (u : Fin 2 → ℝ) : ℝ :=
  let theta := Complex.arg ⟨u 0, u 1⟩
  if theta < 0 then theta + 2 * Real.pi else theta

/-- `to_polar`, geomc/linalg/vecdetail/Vec2.h:155-157. -/
def toPolar (u : Fin 2 → ℝ) : Fin 2 → ℝ := ![Real.sqrt (mag2 u), angle u]

/-- `from_polar`, geomc/linalg/vecdetail/Vec2.h:163-168. -/
def fromPolar (u : Fin 2 → ℝ) : Fin 2 → ℝ := ![u 1 * Real.cos (u 0), u 1 * Real.sin (u 0)]

/-- `to_spherical`, geomc/linalg/vecdetail/Vec3.h:228-236. -/
def toSpherical (u : Fin 3 → ℝ) : Option (Fin 3 → ℝ) :=
  let r := Real.sqrt (mag2 u)
  if r = 0 then none else some ![r, Real.arccos (u 2 / r), Complex.arg ⟨u 0, u 1⟩]

/-- `from_spherical`, geomc/linalg/vecdetail/Vec3.h:246-253. -/
def fromSpherical (r elev azi : ℝ) : Fin 3 → ℝ :=
  let rsinelev := r * Real.sin elev
  ![rsinelev * Real.cos azi, rsinelev * Real.sin azi, r * Real.cos elev]

/-- `angle_to`, geomc/linalg/vecdetail/VecBase.h:681-685. -/
def angleTo (u v : Fin n → ℝ) : Option ℝ := do
  let v ← unit Real.sqrt v
  let u ← unit Real.sqrt u
  let c := dot v u
  let c := stdMin 1 (stdMax c (-1))
  return Real.arccos c

end Real

end Geomc.Vec
