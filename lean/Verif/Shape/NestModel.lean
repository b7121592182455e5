import Verif.Shape.OrientedModel

/-!
# Shapes nested to any depth

The wrappers `Extruded`, `Frustum`, `Dilated` and `Oriented` are templates over the wrapped shape, which can itself be a wrapper.  A
`Nest` is such a type together with its object; its queries are those of the wrappers (WrapModel, OrientedModel) handed the answers of
the wrapped shape, `none` if one of these is undefined.
-/

namespace Geomc.Shape

open Geomc.Vec Geomc.Rect Geomc.Affine

variable {K : Type} {n : ℕ}

/-- Nested shapes: Rect.h, Sphere.h, Capsule.h; Extruded.h:42-61, Frustum.h:47-66, Dilated.h:29-44, Oriented.h:49-63. -/
inductive Nest (K : Type) : ℕ → Type
  | box {n : ℕ} (b : Box K n) : Nest K n
  | ball {n : ℕ} (s : Ball K n) : Nest K n
  | capsule {n : ℕ} (c : Tube K n) : Nest K n
  | extrude {n : ℕ} (base : Nest K (n + 1)) (h : Height K) : Nest K (n + 2)
  | frustum {n : ℕ} (base : Nest K (n + 1)) (h : Height K) : Nest K (n + 2)
  | dilate {n : ℕ} (s : Nest K n) (r : K) : Nest K n
  | orient {n : ℕ} (s : Nest K n) (x : XF K n) : Nest K n

variable [Field K] [LinearOrder K]

/-- `convex_support`: each wrapper calls that of the wrapped shape once; Extruded.h:150-165, Frustum.h:200-219, Dilated.h:93-96,
Oriented.h:75-79. -/
def Nest.support (sqrt : K → K) : {n : ℕ} → Nest K n → (Fin n → K) → Option (Fin n → K)
  | _, .box b, d => some (b.support d)
  | _, .ball s, d => s.support sqrt d
  | _, .capsule c, d => some (c.capSupport sqrt d)
  | _, .extrude base h, d => (base.support sqrt (orFirst (Fin.init d))).map fun q => extSupport (fun _ => q) h d
  | _, .frustum base h, d =>
    (base.support sqrt (orFirst fun i => (if h.clipped.lo < 0 then -1 else 1) * Fin.init d i)).map fun q =>
      fruSupport (fun _ => q) h d
  | _, .dilate s r, d => (s.support sqrt d).bind fun q => dilSupport sqrt (fun _ => q) r d
  | _, .orient s x, d => (s.support sqrt (x.applyInverseNormal d)).map fun q => oriSupport (fun _ => q) x d

/-- `bounds`: Extruded.h:167-169, Frustum.h:221-227, Dilated.h:98-100, Oriented.h:81-99. -/
def Nest.bounds (sqrt : K → K) : {n : ℕ} → Nest K n → Option (Box K n)
  | _, .box b => some b
  | _, .ball s => some s.bounds
  | _, .capsule c => some c.capBounds
  | _, .extrude base h => (base.bounds sqrt).map fun b => extBounds b h
  | _, .frustum base h => (base.bounds sqrt).map fun b => fruBounds b h
  | _, .dilate s r => (s.bounds sqrt).map fun b => dilBounds b r
  | _, .orient s x =>
    if ∀ i, (s.support sqrt (matRow x i)).isSome ∧ (s.support sqrt (-matRow x i)).isSome then
      some (oriBounds (fun d => (s.support sqrt d).getD 0) x)
    else none

/-- `sdf`: Sphere.h:85-87, Capsule.h:85-90, Extruded.h:72-92, Dilated.h:84-86.  `Frustum` and `Oriented` have none, and that of `Rect`
is left out (it is wrong, C47). -/
def Nest.sdf (sqrt : K → K) : {n : ℕ} → Nest K n → (Fin n → K) → Option K
  | _, .ball s, p => some (s.sdf sqrt p)
  | _, .capsule c, p => c.capSdf sqrt p
  | _, .extrude base h, p => (base.sdf sqrt (Fin.init p)).map fun s => extSdf sqrt (fun _ => s) h p
  | _, .dilate s r, p => (s.sdf sqrt p).map fun s => dilSdf (fun _ => s) r p
  | _, _, _ => none

/-- `contains`: Rect.h:267-276, Sphere.h, Capsule.h:57-59, Extruded.h:67-70, Frustum.h:88-93, Dilated.h:79-81, Oriented.h:70-73.
An answer of the wrapped shape that is not asked for may be undefined. -/
def Nest.contains (sqrt : K → K) : {n : ℕ} → Nest K n → (Fin n → K) → Option Bool
  | _, .box b, p => some (b.contains p)
  | _, .ball s, p => some (s.contains p)
  | _, .capsule c, p => c.capContains sqrt p
  | m + 2, .extrude base h, p =>
    if h.contains (p (Fin.last (m + 1))) then (base.contains sqrt (Fin.init p)).map fun b => extContains (fun _ => b) h p else some false
  | m + 2, .frustum base h, p =>
    if !h.clipped.contains (p (Fin.last (m + 1))) ∨ p (Fin.last (m + 1)) = 0 then some (fruContains (fun _ => false) h p)
    else (base.contains sqrt (Fin.init fun i => p i / p (Fin.last (m + 1)))).map fun b => fruContains (fun _ => b) h p
  | _, .dilate s r, p => (s.sdf sqrt p).map fun s => dilContains (fun _ => s) r p
  | _, .orient s x, p => (s.contains sqrt (x.applyInverse p)).map fun b => oriContains (fun _ => b) x p

end Geomc.Shape
