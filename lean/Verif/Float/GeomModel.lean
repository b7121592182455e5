import Verif.Float.VecModel

/-! # Model of rounded transforms, ray points and containment tests

Every operation is the exact result rounded by `rnd`, as in `Verif.Float.Model`. -/

namespace Geomc.Flt

variable {K : Type} [Field K] {m n : ℕ}

/-- Product of a matrix with a column vector, geomc/linalg/mtxdetail/MatrixMult.h:185-193: `x += a(r,c) * b[c]`. -/
def mulVec (rnd : K → K) (A : Fin m → Fin n → K) (v : Fin n → K) : Fin m → K :=
  fun r => (List.finRange n).foldl (fun x c => rnd (x + rnd (A r c * v c))) 0

/-- An element of the product of two matrices, geomc/linalg/mtxdetail/MatrixMult.h:56-66. -/
def mulMtx {k : ℕ} (rnd : K → K) (A : Fin m → Fin n → K) (B : Fin n → Fin k → K) : Fin m → Fin k → K :=
  fun r c => (List.finRange n).foldl (fun x i => rnd (x + rnd (A r i * B i c))) 0

/-- `AffineTransform::apply`, geomc/linalg/AffineTransform.h:216-220. -/
def apply (rnd : K → K) (A : Fin (n + 1) → Fin (n + 1) → K) (p : Fin n → K) : Fin n → K :=
  fun i => mulVec rnd A (Fin.snoc p 1) i.castSucc

/-- `AffineTransform::apply_vector`, geomc/linalg/AffineTransform.h:225-233. -/
def applyVector (rnd : K → K) (A : Fin (n + 1) → Fin (n + 1) → K) (v : Fin n → K) : Fin n → K :=
  mulVec rnd (fun r c => A r.castSucc c.castSucc) v

/-- `Ray::at_multiple`, geomc/linalg/Ray.h:73-75. -/
def rayAt (rnd : K → K) (o v : Fin n → K) (s : K) : Fin n → K := fun i => rnd (o i + rnd (v i * s))

/-- `Plane::distance`, geomc/shape/Plane.h:104-106. -/
def planeDistance (rnd : K → K) (normal : Fin n → K) (d : K) (p : Fin n → K) : K := rnd (dot rnd normal p + d)

variable [LinearOrder K]

/-- `Plane::contains`, geomc/shape/Plane.h:120-122. -/
def planeContains (rnd : K → K) (normal : Fin n → K) (d : K) (p : Fin n → K) : Bool := decide (planeDistance rnd normal d p ≤ 0)

/-- `Sphere::contains`, geomc/shape/Sphere.h:63-65. -/
def sphereContains (rnd : K → K) (c : Fin n → K) (r : K) (p : Fin n → K) : Bool := decide (mag2 rnd (sub rnd c p) ≤ rnd (r * r))

end Geomc.Flt
