import Verif.Hash.Model

/-! # Model of the digests of vectors, matrices, transforms and shapes

A value is a tree: scalars at the leaves, and objects with the members their digest reads.  The digest of a
scalar is a parameter (`std::hash`).  Evaluation has a step budget, since not every digest terminates. -/

namespace Geomc.Hash

/-- The types with a digest, other than scalars.  `Simplex` and `Ray` have one that does not compile
(`hash_array<H>` and `hash_many<Vec<T,N>,H>` give the template arguments in the wrong order); `Dual` has its
own in `digestDual`. -/
inductive Kind where
  | vec | matrix | quat | rect | sphere | plane | capsule | cylinder | dilated | extruded | frustum
  | oriented | affine
  deriving DecidableEq

/-- A value: a scalar, or an object with its members in the order of the digest. -/
inductive Val (S : Type) where
  | num (x : S)
  | obj (k : Kind) (members : List (Val S))

/-- The constants of each digest: geomc/linalg/Vec.h:342, geomc/linalg/mtxtypes/SimpleMatrix.h:638,
geomc/linalg/Quaternion.h:281, geomc/shape/Rect.h:1055, Sphere.h:124, Plane.h:265, Capsule.h:158,
Cylinder.h:261, Dilated.h:205, Extruded.h:265, Frustum.h:328, Oriented.h:358,
geomc/linalg/AffineTransform.h:880. -/
def constants : Kind → BitVec 64 × BitVec 64
  | .vec => (0xc0da6f441f70ee90#64, 0x37217861ad19149b#64)
  | .matrix => (0x74652bb86dc7661a#64, 0xa71008c5769cb8f9#64)
  | .quat => (0x111113181fd05e73#64, 0xf5ba45c0011f1ffc#64)
  | .rect => (0x5fdb6f041e87e25d#64, 0x3ee84a498958343d#64)
  | .sphere => (0x948904c693a7ddeb#64, 0xd121a1f8ce15ac6c#64)
  | .plane => (0x1bff2d1194dd90c5#64, 0x145a6e09ed0b387d#64)
  | .capsule => (0x800065016103dd5f#64, 0x197bdccf6e53f9e7#64)
  | .cylinder => (0x77f68ad97f8281e6#64, 0xb0ffe271f8a4f531#64)
  | .dilated => (0x7f5e38d0b18f1dbf#64, 0x105e0a188e1bc0ef#64)
  | .extruded => (0x28211b7d8ba5f09b#64, 0x6b7b5d58d68273c7#64)
  | .frustum => (0x28211b7d8ba5f09b#64, 0xbcd99a70bc779985#64)
  | .oriented => (0xb04c31374e530a4e#64, 0xae9a04ef51d26625#64)
  | .affine => (0x173d01f6a3408f0b#64, 0x74a2e1d9f7a37c6f#64)

/-- `truncated_constant`, geomc/Hash.h:27-35, for words of `w` bits. -/
def truncated (w : ℕ) (c : BitVec 64 × BitVec 64) : BitVec w :=
  if 64 < w then c.1.setWidth w <<< 64 ||| c.2.setWidth w else c.2.setWidth w

/-- `geom::hash<T,H>(obj)`, geomc/Hash.h:202-205, for words of `w` bits (at most those of `size_t`, or the
scalars have no digest), with the members of each digest:
* `Vec`, Vec.h:339-345, and `SimpleMatrix`, SimpleMatrix.h:635-641: the elements, by `hash_array`;
* `Quat`, Quaternion.h:278-284: `x, y, z, w`; `Rect`, Rect.h:1052-1058: `lo, hi`; `Sphere`,
  Sphere.h:121-127: `center, r`; `Plane`, Plane.h:262-268: `normal, d`; `Capsule`, Capsule.h:155-161, and
  `Cylinder`, Cylinder.h:258-264: `p0, p1, radius`; `Dilated`, Dilated.h:202-208: `shape, dilation`;
  `Extruded`, Extruded.h:262-268, and `Frustum`, Frustum.h:325-331: `base, height`; `Oriented`,
  Oriented.h:355-361: `shape, xf`; all by `hash_many`;
* `AffineTransform`: the specialisation at AffineTransform.h:877-883 has a parameter `size_t N` where the class
  has `index_t N`, so it is never selected.  The general `Digest`, Hash.h:69-78, calls `std::hash`, and that
  (AffineTransform.h:890-895) calls `geom::hash` on the same object. -/
def digest {S : Type} (w : ℕ) (combine : BitVec w → BitVec w → BitVec w) (leaf : S → BitVec w) :
    ℕ → Val S → Option (BitVec w)
  | 0, _ => none
  | _ + 1, .num x => some (leaf x)
  | n + 1, .obj k ms =>
    match k with
    | .affine => digest w combine leaf n (.obj .affine ms)
    | .vec | .matrix => do
      let hs ← ms.mapM (digest w combine leaf n)
      some (hashArray combine id (truncated w (constants k)) hs)
    | _ => do
      let hs ← ms.mapM (digest w combine leaf n)
      some (combineMany combine (truncated w (constants k)) hs)

end Geomc.Hash
