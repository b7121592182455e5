import Verif.Shape.Model

/-!
# Shapes made from shapes: geomc/shape/Dilated.h, Extruded.h, Frustum.h, and the defaults of Shape.h

A wrapped shape is given by the results of its queries, as functions.  Where a query of a wrapped shape can be undefined the
statements only assume it right on the arguments that the wrapper passes.  A point of the wrapper of `Extruded` and `Frustum` is
`Fin (n + 1) → K`; `resized<N-1>()` is `Fin.init` and appending a height is `Fin.snoc`.
-/

namespace Geomc.Shape

open Geomc.Vec Geomc.Rect

variable {K : Type} {n : ℕ} [Field K] [LinearOrder K]

/-! ### Defaults, geomc/shape/Shape.h -/

/-- `Convex::bounds`, Shape.h:137-152. -/
def defaultBounds (support : (Fin n → K) → Fin n → K) : Box K n :=
  ⟨fun i => support (Pi.single i (-1)) i, fun i => support (Pi.single i 1) i⟩

/-- `SdfEvaluable::contains`, Shape.h:215-218. -/
def defaultContains (sdf : (Fin n → K) → K) (p : Fin n → K) : Bool := decide (sdf p ≤ 0)

/-- `Projectable::sdf`, Shape.h:246-253. -/
def defaultSdf (sqrt : K → K) (contains : (Fin n → K) → Bool) (project : (Fin n → K) → Fin n → K) (p : Fin n → K) : K :=
  (if contains p then -1 else 1) * sqrt (mag2 (project p - p))

/-- `Projectable::normal`, Shape.h:263-267. -/
def defaultNormal (sqrt : K → K) (contains : (Fin n → K) → Bool) (project : (Fin n → K) → Fin n → K) (p : Fin n → K) :
    Option (Fin n → K) :=
  (unit sqrt (p - project p)).map fun u i => (if contains p then -1 else 1) * u i

/-- `Projectable::clip`, Shape.h:275-278. -/
def defaultClip (contains : (Fin n → K) → Bool) (project : (Fin n → K) → Fin n → K) (p : Fin n → K) : Fin n → K :=
  if contains p then p else project p

/-! ### Dilated -/

/-- `Dilated::sdf`, Dilated.h:84-86. -/
def dilSdf (sdf : (Fin n → K) → K) (r : K) (p : Fin n → K) : K := sdf p - r

/-- `Dilated::contains`, Dilated.h:79-81. -/
def dilContains (sdf : (Fin n → K) → K) (r : K) (p : Fin n → K) : Bool := decide (dilSdf sdf r p < 0)

/-- `Dilated::convex_support`, Dilated.h:93-96. -/
def dilSupport (sqrt : K → K) (support : (Fin n → K) → Fin n → K) (r : K) (d : Fin n → K) : Option (Fin n → K) :=
  (unit sqrt d).map fun u i => support d i + u i * r

/-- `Dilated::bounds`, Dilated.h:98-100. -/
def dilBounds (b : Box K n) (r : K) : Box K n := b.dilated fun _ => r

/-- `Dilated::project`, Dilated.h:103-113. -/
def dilProject (sqrt : K → K) (contains : (Fin n → K) → Bool) (project : (Fin n → K) → Fin n → K) (r : K) (p : Fin n → K) :
    Option (Fin n → K) :=
  let q := project p
  (unit sqrt (q - p)).map fun dp i => if contains p then q i + r * dp i else q i - r * dp i

/-- `roundrect`, Dilated.h:177-180: the shrunk box and the radius.  `m` is the result of `rect.dimensions().min()`. -/
def roundrect (b : Box K n) (m radius : K) : Box K n × K :=
  let r := stdMin radius (m / 2)
  (b.dilated fun _ => -r, r)

/-! ### Extruded -/

/-- A height range. -/
structure Height (K : Type) where
  lo : K
  hi : K

/-- `Rect<T,1>::contains`. -/
def Height.contains (h : Height K) (x : K) : Bool := decide (h.lo ≤ x) && decide (x ≤ h.hi)
/-- `Rect<T,1>::clip`. -/
def Height.clip (h : Height K) (x : K) : K := stdMin h.hi (stdMax h.lo x)

/-- The three-argument constructor, Extruded.h:59-61 and Frustum.h:64-66. -/
def Height.ofEnds (h0 h1 : K) : Height K := ⟨stdMin h0 h1, stdMax h0 h1⟩

/-- `Extruded::contains`, Extruded.h:67-70. -/
def extContains (contains : (Fin n → K) → Bool) (h : Height K) (p : Fin (n + 1) → K) : Bool :=
  if h.contains (p (Fin.last n)) then contains (Fin.init p) else false

/-- `Extruded::sdf`, Extruded.h:72-92. -/
def extSdf (sqrt : K → K) (sdf : (Fin n → K) → K) (height : Height K) (p : Fin (n + 1) → K) : K :=
  let h := p (Fin.last n)
  let base := sdf (Fin.init p)
  let slab := stdMax (h - height.hi) (height.lo - h)
  if height.contains h then stdMax base slab
  else if base < 0 then slab
  else sqrt (base * base + slab * slab)

/-- `Extruded::project`, Extruded.h:131-148. -/
def extProject (contains : (Fin n → K) → Bool) (project : (Fin n → K) → Fin n → K) (height : Height K) (p : Fin (n + 1) → K) :
    Fin (n + 1) → K :=
  let h := p (Fin.last n)
  let hCap := if |h - height.lo| < |h - height.hi| then height.lo else height.hi
  let pBase : Fin n → K := Fin.init p
  let pProj := project pBase
  let wall : Fin (n + 1) → K := Fin.snoc (α := fun _ => K) pProj (height.clip h)
  let cap : Fin (n + 1) → K :=
    if contains pBase then Fin.snoc (α := fun _ => K) pBase hCap else Fin.snoc (α := fun _ => K) pProj hCap
  if mag2 (p - wall) < mag2 (p - cap) then wall else cap

/-- A direction in the base plane, replaced by the first axis if zero: Extruded.h:153-159, Frustum.h:205-206. -/
def orFirst (d : Fin (n + 1) → K) : Fin (n + 1) → K := if d = 0 then Pi.single 0 1 else d

/-- `Extruded::convex_support`, Extruded.h:150-165. -/
def extSupport (support : (Fin (n + 1) → K) → Fin (n + 1) → K) (height : Height K) (d : Fin (n + 2) → K) : Fin (n + 2) → K :=
  let p0 := support (orFirst (Fin.init d))
  Fin.snoc (α := fun _ => K) p0 (if 0 < d (Fin.last (n + 1)) then height.hi else height.lo)

/-- `Extruded::bounds`, Extruded.h:167-169. -/
def extBounds (b : Box K n) (height : Height K) : Box K (n + 1) := b.prod (⟨fun _ => height.lo, fun _ => height.hi⟩ : Box K 1)

/-- The empty interval, `Rect<T,1>::empty`. -/
def void : Ext K × Ext K := (((⊤ : WithTop K) : Ext K), ⊥)

/-- `Extruded::intersect(Ray)`, Extruded.h:172-195. -/
def extRay (contains : (Fin n → K) → Bool) (ray : (Fin n → K) → (Fin n → K) → Ext K × Ext K) (height : Height K)
    (o v : Fin (n + 1) → K) : Ext K × Ext K :=
  let ob : Fin n → K := Fin.init o
  let vb : Fin n → K := Fin.init v
  let interval := if vb = 0 then (if contains ob then full else void) else ray ob vb
  let h := o (Fin.last n)
  let dH := v (Fin.last n)
  if dH = 0 then (if height.contains h then interval else void)
  else meet interval (ival ((height.lo - h) / dH) ((height.hi - h) / dH))

/-! ### Frustum -/

/-- `Frustum::clipped_height`, Frustum.h:229-232. -/
def Height.clipped (h : Height K) : Height K := ⟨if h.lo < 0 ∧ 0 < h.hi then 0 else h.lo, h.hi⟩

/-- `Frustum::contains`, Frustum.h:88-93. -/
def fruContains (contains : (Fin n → K) → Bool) (height : Height K) (p : Fin (n + 1) → K) : Bool :=
  let h := p (Fin.last n)
  if !height.clipped.contains h then false
  else if h = 0 then decide (p = 0)
  else contains (Fin.init fun i => p i / h)

/-- `Frustum::convex_support`, Frustum.h:200-219. -/
def fruSupport (support : (Fin (n + 1) → K) → Fin (n + 1) → K) (height : Height K) (d : Fin (n + 2) → K) : Fin (n + 2) → K :=
  let h := height.clipped
  let sign : K := if h.lo < 0 then -1 else 1
  let p : Fin (n + 2) → K := Fin.snoc (α := fun _ => K) (support (orFirst (fun i => sign * Fin.init d i))) 1
  let z := if 0 < dot p d then h.hi else h.lo
  fun i => z * p i

/-- `Frustum::bounds`, Frustum.h:221-227. -/
def fruBounds (b : Box K n) (height : Height K) : Box K (n + 1) :=
  let h := height.clipped
  ((b.scale fun _ => h.lo).union (b.scale fun _ => h.hi)).prod (⟨fun _ => h.lo, fun _ => h.hi⟩ : Box K 1)

/-- The number of a finite end of an interval. -/
def finiteEnd : Ext K → Option K
  | some (some x) => some x
  | _ => none

/-- The parameters at which a ray is between two heights, Rect.h:960-980 for one dimension. -/
def slabSpan (h : Height K) (oh dH : K) : Ext K × Ext K :=
  if dH = 0 then (if h.contains oh then full else void) else ival ((h.lo - oh) / dH) ((h.hi - oh) / dH)

/-- The parameter at which the ray crosses the line through the tip and the point `p`, Frustum.h:172-184. -/
def fruHit (o v oOrtho p : Fin (n + 1) → K) : Option K :=
  let pY := dot p oOrtho / mag2 oOrtho
  if mag2 v = 0 ∨ mag2 oOrtho = 0 ∨ pY = 0 then none
  else some (dot p v / mag2 v / pY - dot o v / mag2 v)

/-- From the two hits with the walls to the interval of the ray in the frustum, Frustum.h:181-197.  `x` and `y` are the ends of the
spanning interval.  The largest and smallest floating point numbers are taken as infinite. -/
def fruClip (slab : Ext K × Ext K) (oh dH x y : K) : Ext K × Ext K :=
  let h0 := oh + x * dH
  let h1 := oh + y * dH
  let s : Ext K × Ext K :=
    if (decide (h0 < 0)) != (decide (h1 < 0)) then
      (if slab.1 < ((0 : K) : Ext K) then (⊥, ((x : K) : Ext K)) else (((y : K) : Ext K), ((⊤ : WithTop K) : Ext K)))
    else (((x : K) : Ext K), ((y : K) : Ext K))
  meet s slab

/-- `Frustum::intersect(Ray)`, Frustum.h:138-197: the general case, with the projected ray.  The result is `none` for a division by
zero and for an infinite interval in the base. -/
def fruRayGeneral (ray : (Fin n → K) → (Fin n → K) → Ext K × Ext K) (slab : Ext K × Ext K) (o v oOrtho oBase vBase : Fin (n + 1) → K) :
    Option (Ext K × Ext K) :=
  let e : Fin n → K := Fin.init fun i => oBase i / oBase (Fin.last n)
  let w : Fin n → K := Fin.init vBase
  let s := ray e w
  if s.2 < s.1 then some void
  else
    match finiteEnd s.1, finiteEnd s.2 with
    | some s0, some s1 =>
      match fruHit o v oOrtho (Fin.snoc (α := fun _ => K) (e + s0 • w) 1), fruHit o v oOrtho (Fin.snoc (α := fun _ => K) (e + s1 • w) 1) with
      | some x, some y => some (fruClip slab (o (Fin.last n)) (v (Fin.last n)) (stdMin x y) (stdMax x y))
      | _, _ => none
    | _, _ => none

/-- `Frustum::intersect(Ray)`, Frustum.h:96-198. -/
def fruRay (contains : (Fin n → K) → Bool) (ray : (Fin n → K) → (Fin n → K) → Ext K × Ext K) (height : Height K)
    (o v : Fin (n + 1) → K) : Option (Ext K × Ext K) :=
  let slab := slabSpan height.clipped (o (Fin.last n)) (v (Fin.last n))
  let oOrtho := o - projectOn o v
  let zPlus : Fin (n + 1) → K := Pi.single (Fin.last n) 1
  let oBase := projectOn zPlus v + projectOn zPlus oOrtho
  let vBase := v - projectOn v oBase
  if oBase (Fin.last n) = 0 then
    if oBase = 0 then
      if mag2 o = 0 then none
      else
        let s := dot v o / mag2 o
        some (meet (ival s s) slab)
    else some void
  else if vBase = 0 then
    some (if contains (Fin.init oBase) then slab else void)
  else fruRayGeneral ray slab o v oOrtho oBase vBase

end Geomc.Shape
