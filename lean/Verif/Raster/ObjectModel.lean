import Verif.Raster.Model

/-!
# Rasters as objects

Construction, copying and writing of rasters, geomc/function/Raster.h.  The samples are in a `boost::shared_array`, so copies
of a raster refer to one array; arrays are numbered, and are never freed while a raster refers to them.  The domain of
the raster is left out here.
-/

namespace Geomc.Rast

variable {M ch : ℕ} {O : Type} [Zero O]

/-- A raster object: geomc/function/Raster.h:127-132.  `abyss` is `none` while it is indeterminate. -/
structure Obj (O : Type) (M ch : ℕ) where
  ext : Fin M → ℤ
  size : ℤ
  ptr : ℕ
  abyss : Option (Fin ch → O)

/-- All objects of a program and the arrays they refer to. -/
structure Prog (O : Type) (M ch : ℕ) where
  objs : ℕ → Option (Obj O M ch)
  heap : ℕ → ℤ → O
  next : ℕ

/-- No objects. -/
def Prog.init : Prog O M ch := ⟨fun _ => none, fun _ _ => 0, 0⟩

/-- The background value after construction: a scalar is not initialised, a `Vec` is zero. -/
def freshAbyss : Option (Fin ch → O) := if ch = 1 then none else some fun _ => 0

/-- Calls on numbered objects. -/
inductive Call (O : Type) (M ch : ℕ) where
  | new (i : ℕ) (ext : Fin M → ℤ)
  | newData (i : ℕ) (ext : Fin M → ℤ) (src : ℤ → O)
  | copy (i j : ℕ)
  | set (i : ℕ) (c : Fin M → ℤ) (v : Fin ch → O)
  | setAbyss (i : ℕ) (v : Fin ch → O)

/-- The object as a raster. -/
def Prog.view (s : Prog O M ch) (o : Obj O M ch) : Raster Unit O M ch :=
  ⟨o.ext, o.size, s.heap o.ptr, o.abyss.getD fun _ => 0, fun _ => (), fun _ => ()⟩

/-- The constructors, geomc/function/Raster.h:145-151, 161-167, 180-186, 200-206: an array of `m_size` items is allocated (an
exception if that is negative) and filled. -/
def Prog.construct (s : Prog O M ch) (i : ℕ) (ext : Fin M → ℤ) (src : ℤ → O) : Option (Prog O M ch) :=
  let size := arrayProduct ext * ch
  if size < 0 then none
  else some ⟨Function.update s.objs i (some ⟨ext, size, s.next, freshAbyss⟩), Function.update s.heap s.next src, s.next + 1⟩

/-- One call: the constructors; the implicit copy constructor and assignment; `set`, geomc/function/Raster.h:223-229;
`setAbyss`, 214-216.  The use of an object that does not exist is `none`. -/
def Prog.step (s : Prog O M ch) : Call O M ch → Option (Prog O M ch)
  | .new i ext => s.construct i ext fun _ => 0
  | .newData i ext src => s.construct i ext src
  | .copy i j => do
    let o ← s.objs j
    some { s with objs := Function.update s.objs i (some o) }
  | .set i c v => do
    let o ← s.objs i
    let r ← (s.view o).set c v
    some { s with heap := Function.update s.heap o.ptr r.data }
  | .setAbyss i v => do
    let o ← s.objs i
    some { s with objs := Function.update s.objs i (some { o with abyss := some v }) }

/-- A sequence of calls. -/
def Prog.run (s : Prog O M ch) (h : List (Call O M ch)) : Option (Prog O M ch) := h.foldlM Prog.step s

/-- `sample_discrete`, geomc/function/Raster.h:325-341 and 353-375; `none` also for an indeterminate value. -/
def Prog.read (s : Prog O M ch) (i : ℕ) (e : Edge) (c : Fin M → ℤ) : Option (Fin ch → O) := do
  let o ← s.objs i
  if e = .constant ∧ ¬ (s.view o).containsGridpt c then o.abyss else (s.view o).sampleDiscrete e c

/-- `samplecount()`, geomc/function/Raster.h:427-429. -/
def Obj.sampleCount (o : Obj O M ch) : ℤ := o.size

end Geomc.Rast
