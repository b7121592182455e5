import Mathlib.Analysis.SpecialFunctions.Pow.Real
import Verif.Vec.Model

/-!
# Random vectors

geomc/random/RandomTools.h.  The generator is a list of the values that `rand<T>()` returns, real numbers in `[0, 1]` (C15); a
sampler takes values from its front.  It has no result if the values run out (the loop of a rejection sampler has not ended) or if
it divides by zero.
-/

namespace Geomc.Sampler

open Geomc.Vec

/-- A sampler: from the values of the generator to the sample and the values left. -/
abbrev Smp (A : Type) := List ℝ → Option (A × List ℝ)

/-- `rand<T>()`. -/
def rand : Smp ℝ
  | [] => none
  | u :: s => some (u, s)

/-- `rand<T>(lo, hi)`, geomc/random/Random.cpp:288-295. -/
def randIn (lo hi : ℝ) : Smp ℝ := fun s => do
  let (u, s) ← rand s
  some ((hi - lo) * u + lo, s)

/-- `rand<T>(hi)`, geomc/random/Random.cpp:259-266. -/
def randTo (hi : ℝ) : Smp ℝ := fun s => do
  let (u, s) ← rand s
  some (hi * u, s)

/-- The loop over the coordinates in `box(lo, hi)`, geomc/random/RandomTools.h:217-225 (the same for the other forms of `box`,
:198-205, :232-239, :309-317, :386-390). -/
noncomputable def box {n : ℕ} (lo hi : Fin n → ℝ) : Smp (Fin n → ℝ) := fun s =>
  if n ≤ s.length then some (fun i => (hi i - lo i) * s.getD i 0 + lo i, s.drop n) else none

/-- `solidball()`, geomc/random/RandomTools.h:160-169; also the loop of `unit()`. -/
noncomputable def ballLoop (n : ℕ) : (fuel : ℕ) → Smp (Fin n → ℝ)
  | 0, _ => none
  | f + 1, s => do
    let (v, s) ← box (fun _ => -1) (fun _ => 1) s
    if mag2 v > 1 then ballLoop n f s else some (v, s)

noncomputable def solidball (n : ℕ) : Smp (Fin n → ℝ) := fun s => ballLoop n (s.length + 1) s

/-- `unit()`, geomc/random/RandomTools.h:131-142. -/
noncomputable def unitVec (n : ℕ) : Smp (Fin n → ℝ) := fun s => do
  let (v, s) ← solidball n s
  let u ← unit Real.sqrt v
  some (u, s)

/-- `unit(radius)`, geomc/random/RandomTools.h:150-153. -/
noncomputable def unitR (n : ℕ) (radius : ℝ) : Smp (Fin n → ℝ) := fun s => do
  let (v, s) ← unitVec n s
  some (fun i => v i * radius, s)

/-- `solidball(radius)`, geomc/random/RandomTools.h:177-181. -/
noncomputable def solidballR (n : ℕ) (radius : ℝ) : Smp (Fin n → ℝ) := fun s => do
  let (u, s) ← rand s
  let r := u ^ (1 / (n : ℝ))
  let (v, s) ← solidball n s
  some (fun i => v i * r * radius, s)

/-- `shell`, geomc/random/RandomTools.h:192-196. -/
noncomputable def shell (n : ℕ) (minr maxr : ℝ) : Smp (Fin n → ℝ) := fun s => do
  if maxr = 0 then none else
  let (u, s) ← randIn (minr / maxr) 1 s
  let radius := u ^ (1 / (n : ℝ))
  let (v, s) ← unitVec n s
  some (fun i => v i * radius * maxr, s)

/-- `cap(half_angle)`, geomc/random/RandomTools.h:254-263. -/
noncomputable def cap (half : ℝ) : Smp (Fin 3 → ℝ) := fun s => do
  let (h, s) ← randIn (Real.cos half) 1 s
  let r := Real.sqrt (1 - h * h)
  let (theta, s) ← randTo (2 * Real.pi) s
  some (![r * Real.cos theta, r * Real.sin theta, h], s)

/-- The turn that takes the z-axis to `dir`, geomc/random/RandomTools.h:275-277, 302-306. -/
noncomputable def turn (dir v : Fin 3 → ℝ) : Option (Fin 3 → ℝ) :=
  let axis := cross ![0, 0, 1] dir
  if isZero axis then some v else
  let m := Real.sqrt (mag2 dir)
  if m = 0 then none else
  let a := Real.arccos (dir 2 / m)
  rotate Real.sqrt (Real.cos a) (Real.sin a) axis v

/-- `cap(dir, half_angle)`, geomc/random/RandomTools.h:273-278. -/
noncomputable def capDir (dir : Fin 3 → ℝ) (half : ℝ) : Smp (Fin 3 → ℝ) := fun s => do
  let (v, s) ← cap half s
  let w ← turn dir v
  some (w, s)

/-- `solidcap`, geomc/random/RandomTools.h:289-293. -/
noncomputable def solidcap (dir : Fin 3 → ℝ) (half minr maxr : ℝ) : Smp (Fin 3 → ℝ) := fun s => do
  if maxr = 0 then none else
  let (u, s) ← randIn (minr / maxr) 1 s
  let r := maxr * u ^ (1 / 3 : ℝ)
  let (v, s) ← capDir dir half s
  some (fun i => r * v i, s)

/-- `disk(radius)`, geomc/random/RandomTools.h:338-340 (and `disk()`, :327-329, with radius one). -/
noncomputable def disk (radius : ℝ) : Smp (Fin 2 → ℝ) := fun s => do
  let (v, s) ← solidball 2 s
  some (fun i => v i * radius, s)

/-- `oriented_disk`, geomc/random/RandomTools.h:300-307. -/
noncomputable def orientedDisk (normal : Fin 3 → ℝ) (radius : ℝ) : Smp (Fin 3 → ℝ) := fun s => do
  let (v, s) ← disk radius s
  let w ← turn normal (resized 3 v)
  some (w, s)

/-- `arc`, geomc/random/RandomTools.h:355-358. -/
noncomputable def arc (lo hi : ℝ) : Smp (Fin 2 → ℝ) := fun s => do
  let (a, s) ← randIn lo hi s
  some (![Real.cos a, Real.sin a], s)

/-- `solidarc`, geomc/random/RandomTools.h:376-381. -/
noncomputable def solidarc (lo hi minr maxr : ℝ) : Smp (Fin 2 → ℝ) := fun s => do
  let (a, s) ← randIn lo hi s
  if maxr = 0 then none else
  let (u, s) ← randIn (minr / maxr) 1 s
  let len := maxr * Real.sqrt u
  some (fromPolar ![len, a], s)

end Geomc.Sampler
