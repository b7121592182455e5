import Verif.Rect.Model
import Verif.Float.VecModel

/-! # Model of boxes of floating-point numbers

geomc/shape/Rect.h for `float` and `double`, where `endpoint_measure` is zero.  Every operation is the exact result rounded by `rnd`, as
in `Verif.Float.Model`; products and sums are not contracted. -/

namespace Geomc.Flt

open Geomc.Rect (Box spanningCorners Ext)
open Geomc.Vec (stdMin stdMax)

variable {K : Type} [Field K] [LinearOrder K] {n : ℕ}

/-- `center`, geomc/shape/Rect.h:655-657. -/
def boxCenter (rnd : K → K) (b : Box K n) : Fin n → K := fun i => rnd (rnd (rnd (b.hi i + b.lo i) + 0) / 2)

/-- `dimensions`, Rect.h:666-668. -/
def boxDimensions (rnd : K → K) (b : Box K n) : Fin n → K := fun i => rnd (rnd (b.hi i - b.lo i) + 0)

/-- `volume`, Rect.h:800-807. -/
def boxVolume (rnd : K → K) (b : Box K n) : K :=
  (List.finRange n).foldl (fun v i => rnd (v * stdMax (boxDimensions rnd b i) 0)) 1

/-- `from_center`, Rect.h:136-144. -/
def boxFromCenter (rnd : K → K) (c dims : Fin n → K) : Box K n :=
  spanningCorners (fun i => rnd (c i - rnd (dims i / 2))) (fun i => rnd (c i + rnd (rnd (dims i - 0) / 2)))

/-- `set_dimensions`, Rect.h:674-697. -/
def boxSetDimensions (rnd : K → K) (b : Box K n) (dim : Fin n → K) : Box K n :=
  let diff : Fin n → K := fun i => rnd (rnd (|dim i| - boxDimensions rnd b i) / 2)
  ⟨fun i => rnd (b.lo i - diff i), fun i => rnd (b.hi i + diff i)⟩

/-- `operator+` with a point, `dilated`, `minkowski_sum`, Rect.h:365-406, 778-789. -/
def boxTranslate (rnd : K → K) (b : Box K n) (d : Fin n → K) : Box K n :=
  ⟨fun i => rnd (b.lo i + d i), fun i => rnd (b.hi i + d i)⟩
def boxDilated (rnd : K → K) (b : Box K n) (c : Fin n → K) : Box K n := ⟨fun i => rnd (b.lo i - c i), fun i => rnd (b.hi i + c i)⟩
def boxMinkowski (rnd : K → K) (a b : Box K n) : Box K n := ⟨fun i => rnd (a.lo i + b.lo i), fun i => rnd (a.hi i + b.hi i)⟩

/-- `fitted_to`, Rect.h:752-770. -/
def boxFittedTo (rnd : K → K) (a b : Box K n) : Box K n :=
  let d0 := boxDimensions rnd a
  let d1 := boxDimensions rnd b
  let m := (List.finRange n).foldl (fun m i => stdMax m |if d0 i = 0 then 0 else rnd (d1 i / d0 i)|) 0
  boxFromCenter rnd (boxCenter rnd b) (fun i => rnd (d0 i * m))

/-- `dist2`, Rect.h:876-878. -/
def boxDist2 (rnd : K → K) (b : Box K n) (p : Fin n → K) : K := mag2 rnd (sub rnd p (b.clip p))

/-- `remap`, Rect.h:891-894, and `unmap`, 901-903. -/
def boxRemap (rnd : K → K) (b : Box K n) (s : Fin n → K) : Fin n → K :=
  fun i => rnd (rnd (rnd (1 - s i) * b.lo i) + rnd (s i * b.hi i))
def boxUnmap (rnd : K → K) (b : Box K n) (p : Fin n → K) : Option (Fin n → K) :=
  if ∃ i, rnd (b.hi i - b.lo i) = 0 then none else some fun i => rnd (rnd (p i - b.lo i) / rnd (b.hi i - b.lo i))

/-- The loop of `intersect(Ray)`, Rect.h:960-980. -/
def boxSlabs (rnd : K → K) (b : Box K n) (o d : Fin n → K) : List (Fin n) → Ext K × Ext K → Option (Ext K × Ext K)
  | [], s => some s
  | i :: is, s =>
    if d i = 0 then
      if o i < b.lo i ∨ b.hi i < o i then none else boxSlabs rnd b o d is s
    else
      let t0 := rnd (rnd (b.hi i - o i) / d i)
      let t1 := rnd (rnd (b.lo i - o i) / d i)
      boxSlabs rnd b o d is (stdMax s.1 ((stdMin t0 t1 : K) : Ext K), stdMin s.2 ((stdMax t0 t1 : K) : Ext K))

def boxIntersectRay (rnd : K → K) (b : Box K n) (o d : Fin n → K) : Option (Ext K × Ext K) :=
  boxSlabs rnd b o d (List.finRange n) (⊥, ((⊤ : WithTop K) : Ext K))

end Geomc.Flt
