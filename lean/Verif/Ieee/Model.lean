import Mathlib.Algebra.Order.Field.Basic
import Mathlib.Data.Fin.Basic
import Mathlib.Data.List.FinRange

/-! # Model of infinities, NaN and overflow

Elsewhere floating-point numbers are elements of an exact field, or rounded without a largest number.  Here a
number may also be an infinity or a NaN, zeros have a sign, and a result that is too large becomes an infinity.
The operations are those of IEEE 754 in its default rounding mode, which is what the C++ operators of `float`
and `double` do.  `R x` is the float that `x` is rounded to, or `none` if `x` overflows.

On top of them come the functions of geomc that are modelled elsewhere for exact numbers. -/

namespace Geomc.Ieee

/-- A floating-point number; `neg` is the sign of a zero and otherwise without meaning. -/
inductive Fl (K : Type) where
  | fin (x : K) (neg : Bool)
  | inf (neg : Bool)
  | nan
  deriving DecidableEq

variable {K : Type} {n : ℕ}

/-- Neither an infinity nor a NaN. -/
def Fl.Finite : Fl K → Prop
  | .fin _ _ => True
  | _ => False

section Arithmetic
variable [Field K] [LinearOrder K]

/-- The sign bit. -/
def Fl.sign : Fl K → Bool
  | .fin x s => decide (x < 0) || (decide (x = 0) && s)
  | .inf s => s
  | .nan => false

/-- The result of rounding; `s` is the sign of a zero. -/
def ofReal (R : K → Option K) (s : Bool) (x : K) : Fl K :=
  match R x with
  | some y => .fin y (if x = 0 then s else decide (x < 0))
  | none => .inf (decide (x < 0))

def Fl.neg : Fl K → Fl K
  | .fin x s => .fin (-x) (!s)
  | .inf s => .inf (!s)
  | .nan => .nan

def Fl.add (R : K → Option K) : Fl K → Fl K → Fl K
  | .nan, _ => .nan
  | _, .nan => .nan
  | .fin x s, .fin y t => ofReal R ((Fl.fin x s).sign && (Fl.fin y t).sign) (x + y)
  | .fin _ _, .inf t => .inf t
  | .inf s, .fin _ _ => .inf s
  | .inf s, .inf t => if s = t then .inf s else .nan

def Fl.sub (R : K → Option K) (a b : Fl K) : Fl K := a.add R b.neg

def Fl.mul (R : K → Option K) : Fl K → Fl K → Fl K
  | .nan, _ => .nan
  | _, .nan => .nan
  | .fin x s, .fin y t => ofReal R (xor (Fl.fin x s).sign (Fl.fin y t).sign) (x * y)
  | .fin x s, .inf t => if x = 0 then .nan else .inf (xor (Fl.fin x s).sign t)
  | .inf s, .fin y t => if y = 0 then .nan else .inf (xor s (Fl.fin y t).sign)
  | .inf s, .inf t => .inf (xor s t)

def Fl.div (R : K → Option K) : Fl K → Fl K → Fl K
  | .nan, _ => .nan
  | _, .nan => .nan
  | .fin x s, .fin y t =>
    if y = 0 then if x = 0 then .nan else .inf (xor (Fl.fin x s).sign (Fl.fin y t).sign)
    else ofReal R (xor (Fl.fin x s).sign (Fl.fin y t).sign) (x / y)
  | .fin x s, .inf t => .fin 0 (xor (Fl.fin x s).sign t)
  | .inf s, .fin y t => .inf (xor s (Fl.fin y t).sign)
  | .inf _, .inf _ => .nan

/-- `std::fma(a, b, c)`: the product is not rounded. -/
def Fl.fma (R : K → Option K) (a b c : Fl K) : Fl K :=
  match a, b with
  | .fin x s, .fin y t =>
    match c with
    | .fin z u => ofReal R (xor (Fl.fin x s).sign (Fl.fin y t).sign && (Fl.fin z u).sign) (x * y + z)
    | .inf u => .inf u
    | .nan => .nan
  | a, b => (a.mul R b).add R c

def Fl.sqrt (R : K → Option K) (root : K → K) : Fl K → Fl K
  | .fin x s => if x < 0 then .nan else ofReal R s (root x)
  | .inf s => if s then .nan else .inf false
  | .nan => .nan

/-- `a < b`. -/
def Fl.lt : Fl K → Fl K → Bool
  | .fin x _, .fin y _ => decide (x < y)
  | .fin _ _, .inf t => !t
  | .inf s, .fin _ _ => s
  | .inf s, .inf t => s && !t
  | _, _ => false

/-- `a == b`. -/
def Fl.eq : Fl K → Fl K → Bool
  | .fin x _, .fin y _ => decide (x = y)
  | .inf s, .inf t => s == t
  | _, _ => false

/-- `a <= b`. -/
def Fl.le (a b : Fl K) : Bool := a.lt b || a.eq b

/-- `std::min(a, b)`. -/
def stdMin (a b : Fl K) : Fl K := if b.lt a then b else a

/-- `std::max(a, b)`. -/
def stdMax (a b : Fl K) : Fl K := if a.lt b then b else a

/-! ## Boxes -/

/-- `Rect<T,N>`, geomc/shape/Rect.h:62-79. -/
structure Box (K : Type) (n : ℕ) where
  lo : Fin n → Fl K
  hi : Fin n → Fl K

/-- The default constructor, geomc/shape/Rect.h:91-93; `top` is the largest finite number. -/
def Box.default (top : K) : Box K n := ⟨fun _ => .fin top false, fun _ => .fin (-top) true⟩

/-- `Rect::full`, geomc/shape/Rect.h:125 and :991-1006. -/
def Box.full : Box K n := ⟨fun _ => .inf true, fun _ => .inf false⟩

/-- `contains(lo, hi, pt)`, geomc/shape/Rect.h:213-224, which `contains(pt)` calls. -/
def Box.contains (b : Box K n) (p : Fin n → Fl K) : Bool :=
  (List.finRange n).all fun i => !((p i).lt (b.lo i) || (b.hi i).lt (p i))

/-- `a | b`, geomc/shape/Rect.h:280-283. -/
def Box.union (a b : Box K n) : Box K n := ⟨fun i => stdMin (a.lo i) (b.lo i), fun i => stdMax (a.hi i) (b.hi i)⟩

/-- `a |= b`, geomc/shape/Rect.h:291-296. -/
def Box.unionAssign (a b : Box K n) : Box K n := ⟨fun i => stdMin (b.lo i) (a.lo i), fun i => stdMax (b.hi i) (a.hi i)⟩

/-- `a | p` and `a |= p`, geomc/shape/Rect.h:303-321. -/
def Box.unionPoint (a : Box K n) (p : Fin n → Fl K) : Box K n := ⟨fun i => stdMin (a.lo i) (p i), fun i => stdMax (a.hi i) (p i)⟩

/-- `a & b`, geomc/shape/Rect.h:335-338. -/
def Box.inter (a b : Box K n) : Box K n := ⟨fun i => stdMax (a.lo i) (b.lo i), fun i => stdMin (a.hi i) (b.hi i)⟩

/-- `from_point_sequence`, geomc/shape/Rect.h:194-201. -/
def Box.ofPoints (top : K) (ps : List (Fin n → Fl K)) : Box K n := ps.foldl Box.unionPoint (Box.default top)

/-- `intersects(box)`, geomc/shape/Rect.h:626-635. -/
def Box.intersects (a b : Box K n) : Bool :=
  (List.finRange n).all fun i => !((a.hi i).le (b.lo i) || (b.hi i).le (a.lo i))

/-- `clip(p)`, geomc/shape/Rect.h:839-841. -/
def Box.clip (b : Box K n) (p : Fin n → Fl K) : Fin n → Fl K := fun i => stdMin (b.hi i) (stdMax (b.lo i) (p i))

/-- `geom::clamp(v, lo, hi)`, geomc/function/Utils.h:87-90. -/
def clamp (v lo hi : Fl K) : Fl K := stdMax lo (stdMin hi v)

/-- `Vec::clamp(lo, hi)`, geomc/linalg/vecdetail/VecBase.h:786-792. -/
def vecClamp (v lo hi : Fin n → Fl K) : Fin n → Fl K := fun i => stdMin (stdMax (v i) (lo i)) (hi i)

/-- `spanning_corners(c1, c2)` in one dimension, geomc/shape/Rect.h:166-171. -/
def spanning (a b : Fl K) : Fl K × Fl K := (stdMin a b, stdMax a b)

/-- One axis of `intersect(ray)`, geomc/shape/Rect.h:963-977, on the interval found so far; `none` is a miss. -/
def rayAxis (R : K → Option K) (o d lo hi : Fl K) (iv : Fl K × Fl K) : Option (Fl K × Fl K) :=
  if d.eq (.fin 0 false) then if o.lt lo || hi.lt o then none else some iv
  else
    let c := spanning ((hi.sub R o).div R d) ((lo.sub R o).div R d)
    some (stdMax iv.1 c.1, stdMin iv.2 c.2)

/-- `intersect(ray)`, geomc/shape/Rect.h:960-980; the interval of a miss is the default box. -/
def Box.ray (R : K → Option K) (top : K) (b : Box K n) (o d : Fin n → Fl K) : Fl K × Fl K :=
  ((List.finRange n).foldlM (fun iv i => rayAxis R (o i) (d i) (b.lo i) (b.hi i) iv) (.inf true, .inf false)).getD
    (.fin top false, .fin (-top) true)

/-! ## Vectors and spheres -/

/-- `mag2()`, geomc/linalg/vecdetail/VecBase.h:573-580, with `multiply_add`, UtilDetail.h:86-88. -/
def mag2 (R : K → Option K) (v : Fin n → Fl K) : Fl K := (List.finRange n).foldl (fun s i => (v i).fma R (v i) s) (.fin 0 false)

/-- `dot(v)`, geomc/linalg/vecdetail/VecBase.h:553-559. -/
def dot (R : K → Option K) (a b : Fin n → Fl K) : Fl K := (List.finRange n).foldl (fun s i => (a i).fma R (b i) s) (.fin 0 false)

/-- `mag()`, geomc/linalg/vecdetail/VecBase.h:565-567. -/
def mag (R : K → Option K) (root : K → K) (v : Fin n → Fl K) : Fl K := (mag2 R v).sqrt R root

/-- `unit()`, geomc/linalg/vecdetail/VecBase.h:538-545. -/
def unit (R : K → Option K) (root : K → K) (v : Fin n → Fl K) : Fin n → Fl K := fun i => (v i).div R (mag R root v)

/-- `a - b`, geomc/linalg/vecdetail/VecBase.h:428-430. -/
def vsub (R : K → Option K) (a b : Fin n → Fl K) : Fin n → Fl K := fun i => (a i).sub R (b i)

/-- `dist(pt)`, geomc/linalg/vecdetail/VecBase.h:587-589. -/
def dist (R : K → Option K) (root : K → K) (a b : Fin n → Fl K) : Fl K := mag R root (vsub R a b)

/-- `Sphere::contains(p)`, geomc/shape/Sphere.h:63-65. -/
def sphereContains (R : K → Option K) (c : Fin n → Fl K) (r : Fl K) (p : Fin n → Fl K) : Bool := (mag2 R (vsub R c p)).le (r.mul R r)

/-- `v == w`, geomc/linalg/vecdetail/VecBase.h:396-401. -/
def vecEq (v w : Fin n → Fl K) : Bool := (List.finRange n).all fun i => (w i).eq (v i)

/-- `is_zero()`, geomc/linalg/vecdetail/VecBase.h:851-856. -/
def isZero (v : Fin n → Fl K) : Bool := (List.finRange n).all fun i => (v i).eq (.fin 0 false)

end Arithmetic

end Geomc.Ieee
