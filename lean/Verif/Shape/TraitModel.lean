import Mathlib.Data.List.Basic

/-!
# `shape_traits`: geomc/shape/Shape.h:355-388 and the specialisations for wrappers

Types of shapes, what their traits say, and which queries can be called.  A query of a wrapper can be called if those that its body
calls can be called on the wrapped shape: the rest is an error at compile time.  `Plane` is left out, since it has no `elem_t` and its
traits are errors too.  Dimensions are two or more.
-/

namespace Geomc.Shape.Traits

inductive Base
  | sphere | rect | capsule | cylinder | simplex

/-- Types of shapes: `Dilated<S>`, `Extruded<S>`, `Frustum<S>`, `Oriented<S>` and `AnyConvexImpl<S>`, the type of `as_any_convex(s)`. -/
inductive Ty
  | base (b : Base)
  | dilated (s : Ty)
  | extruded (s : Ty)
  | frustum (s : Ty)
  | oriented (s : Ty)
  | any (s : Ty)

inductive Concept
  | bounded | convex | ray | sdf | projectable

inductive Query
  | contains | support | bounds | intersect | sdf
  /-- `project` of a variable. -/
  | project
  /-- `project` of a constant. -/
  | projectConst

/-- `std::is_base_of<Concept<elem_t, N, S>, S>`, with `Convex` a `Bounded` and `Projectable` an `SdfEvaluable`; Shape.h:71, 96, 164, 192,
231, Sphere.h:16-19, Rect.h:62-65, Capsule.h:14-17, Cylinder.h:28-31, Simplex.h:83-86, Dilated.h:50-52, Extruded.h:26-29, Frustum.h:37-39,
Oriented.h:39-41 and 120-122, Shape.h:311 (the base of `AnyConvexImpl<S>` is `Convex<T, N, AnyConvex<T, N>>`). -/
def derives : Ty → Concept → Bool
  | .base .simplex, .projectable => false
  | .base _, _ => true
  | .dilated _, .ray => false
  | .dilated _, _ => true
  | .extruded _, _ => true
  | .frustum _, .sdf => false
  | .frustum _, .projectable => false
  | .frustum _, _ => true
  | .oriented _, .sdf => false
  | .oriented _, .projectable => false
  | .oriented _, _ => true
  | .any _, _ => false

/-- `implements_shape_concept`, Shape.h:359-370, Dilated.h:184-196, Extruded.h:227-257, Frustum.h:292-304, Oriented.h:338-350. -/
def implements : Ty → Concept → Bool
  | .dilated s, .projectable => implements s .projectable
  | .dilated s, .convex => implements s .ray
  | .extruded s, .projectable => implements s .projectable
  | .extruded s, .ray => implements s .ray
  | .extruded s, .convex => implements s .ray
  | .extruded s, .sdf => implements s .sdf
  | .frustum s, .ray => implements s .ray
  | .frustum s, .convex => implements s .ray
  | .oriented s, .ray => implements s .ray
  | .oriented s, .convex => implements s .ray
  | s, c => derives s c

/-- Which queries a type has, given those of the wrapped one.  Sphere.h:57-102, Rect.h:581-982, Capsule.h:47-107, Cylinder.h:59-202,
Simplex.h:221-525 (whose `project` takes a `Vec&`); Dilated.h:79-113, Extruded.h:67-195, Frustum.h:88-227, Oriented.h:70-104 and
132-215, Shape.h:297-329. -/
def has : Ty → Query → Bool
  | .base .simplex, .projectConst => false
  | .base _, _ => true
  | .dilated s, .contains => has s .sdf
  | .dilated s, .support => has s .support
  | .dilated s, .bounds => has s .bounds
  | .dilated _, .intersect => false
  | .dilated s, .sdf => has s .sdf
  | .dilated s, .project => has s .project && has s .contains
  | .dilated s, .projectConst => has s .project && has s .contains
  | .extruded s, .contains => has s .contains
  | .extruded s, .support => has s .support
  | .extruded s, .bounds => has s .bounds
  | .extruded s, .intersect => has s .contains && has s .intersect
  | .extruded s, .sdf => has s .sdf
  | .extruded s, .project => has s .projectConst && has s .contains
  | .extruded s, .projectConst => has s .projectConst && has s .contains
  | .frustum s, .contains => has s .contains
  | .frustum s, .support => has s .support
  | .frustum s, .bounds => has s .bounds
  | .frustum s, .intersect => has s .contains && has s .intersect
  | .frustum _, _ => false
  | .oriented s, .contains => has s .contains
  | .oriented s, .support => has s .support
  | .oriented s, .bounds => has s .support
  | .oriented s, .intersect => has s .intersect
  | .oriented _, _ => false
  | .any s, .support => has s .support
  | .any s, .bounds => has s .bounds
  | .any _, _ => false

end Geomc.Shape.Traits
