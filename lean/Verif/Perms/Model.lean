import Verif.Mtx.Products

/-!
# Permutation matrices and index arrays

geomc/linalg/mtxtypes/PermutationMatrix.h.  An index array of `n` entries is a function `ℕ → ℕ`; an access
outside `[0, n)` gives `none`, as does a cycle walk that does not close within `n` steps (the C++ loop would
not terminate).  The static and the dynamic storage variants (a flag, or exchanged buffers) are one model: the
two arrays are named `src` and `dst`.
-/

namespace Geomc.Mtx

/-- `a[i] = x` on an index array. -/
def Perm.store (n : ℕ) (a : ℕ → ℕ) (i x : ℕ) : Option (ℕ → ℕ) :=
  if i < n then some (Function.update a i x) else none

/-- `set_identity()`, geomc/linalg/mtxtypes/PermutationMatrix.h:378-386. -/
def Perm.setIdentity (p : Perm) : Perm := { p with src := fun i => i, dst := fun i => i, sign := 1 }

/-- The constructors, geomc/linalg/mtxtypes/PermutationMatrix.h:123-134. -/
def Perm.new (n : ℕ) : Perm := Perm.setIdentity ⟨n, fun _ => 0, fun _ => 0, 0⟩

/-- `for (i < n) b[a[i]] = i`. -/
def invertInto (n : ℕ) (a b : ℕ → ℕ) : Option (ℕ → ℕ) :=
  forN n (fun i b => Perm.store n b (a i) i) b

/-- `setRowSources(p)` (and `setColDestinations`), geomc/linalg/mtxtypes/PermutationMatrix.h:243-252. -/
def Perm.setRowSources (p : Perm) (a : ℕ → ℕ) : Option Perm := do
  let dst ← invertInto p.n a p.dst
  some { p with src := a, dst := dst, sign := 0 }

/-- `setColSources(p)` (and `setRowDestinations`), geomc/linalg/mtxtypes/PermutationMatrix.h:266-275. -/
def Perm.setColSources (p : Perm) (a : ℕ → ℕ) : Option Perm := do
  let src ← invertInto p.n a p.src
  some { p with src := src, dst := a, sign := 0 }

/-- `swap_rows(a, b)`, geomc/linalg/mtxtypes/PermutationMatrix.h:335-344. -/
def Perm.swapRows (p : Perm) (a b : ℕ) : Option Perm := do
  let sa ← Perm.at p.n p.src a
  let dst ← Perm.store p.n p.dst sa b
  let sb ← Perm.at p.n p.src b
  let dst ← Perm.store p.n dst sb a
  let src ← Perm.store p.n p.src a sb
  let src ← Perm.store p.n src b sa
  some { p with src := src, dst := dst, sign := -p.sign }

/-- `swap_cols(a, b)`, geomc/linalg/mtxtypes/PermutationMatrix.h:354-363. -/
def Perm.swapCols (p : Perm) (a b : ℕ) : Option Perm := do
  let da ← Perm.at p.n p.dst a
  let src ← Perm.store p.n p.src da b
  let db ← Perm.at p.n p.dst b
  let src ← Perm.store p.n src db a
  let dst ← Perm.store p.n p.dst a db
  let dst ← Perm.store p.n dst b da
  some { p with src := src, dst := dst, sign := -p.sign }

/-- `transpose()`, geomc/linalg/mtxtypes/PermutationMatrix.h:391-393. -/
def Perm.transpose (p : Perm) : Perm := { p with src := p.dst, dst := p.src }

/-- `sign()`, geomc/linalg/mtxtypes/PermutationMatrix.h:145-161: a cached sign is returned; when there is none,
control reaches the end of the function without a `return`. -/
def Perm.signCall (p : Perm) : Option ℤ := if p.sign = 0 then none else some p.sign

section Arrays
variable {α : Type}

/-- The `do … while (next != i)` of `permutation_apply`, with at most `fuel` rounds. -/
def applyLoop (n : ℕ) : (fuel i cur next : ℕ) → (ℕ → ℕ) → (ℕ → α) → Option ((ℕ → ℕ) × (ℕ → α))
  | 0, _, _, _, _, _ => none
  | f + 1, i, cur, next, p, v =>
    if next < n then
      let v' := Function.update (Function.update v cur (v next)) next (v cur)
      let next' := p next
      let p' := Function.update p next next
      if next' = i then some (p', v') else applyLoop n f i next next' p' v'
    else none

/-- `permutation_apply(p, n, v)`, geomc/linalg/mtxtypes/PermutationMatrix.h:451-468; also
`destructive_apply_permutation`, geomc/linalg/LUDecomp.h:36-66, whose elements are the rows of a matrix. -/
def permutationApply (n : ℕ) (p : ℕ → ℕ) (v : ℕ → α) : Option ((ℕ → ℕ) × (ℕ → α)) :=
  forN n (fun i s => if s.1 i = i then some s else applyLoop n n i i (s.1 i) s.1 s.2) (p, v)

end Arrays

/-- The `do … while (cur != i)` of `permutation_sign`. -/
def signLoop (n : ℕ) : (fuel i cur : ℕ) → (ℕ → ℕ) → Bool → Option ((ℕ → ℕ) × Bool)
  | 0, _, _, _, _ => none
  | f + 1, i, cur, p, odd =>
    if cur < n then
      let next := p cur
      let p' := Function.update p cur cur
      if next = i then some (p', !odd) else signLoop n f i next p' (!odd)
    else none

/-- `permutation_sign(p, n)`, geomc/linalg/mtxtypes/PermutationMatrix.h:478-497: the array afterwards and the
result. -/
def permutationSign (n : ℕ) (p : ℕ → ℕ) : Option ((ℕ → ℕ) × ℤ) := do
  let s ← forN n (fun i s => if s.1 i = i then some s else signLoop n n i i s.1 s.2) (p, false)
  some (s.1, if s.2 then -1 else 1)

/-- The inner loop of `_compute_sign`: `for (j = p[i]; buf[j] != 1; j = p[j]) { buf[j] = 1; odd = !odd; }`. -/
def markLoop (n : ℕ) (p : ℕ → ℕ) : (fuel j : ℕ) → (ℕ → ℕ) → Bool → Option ((ℕ → ℕ) × Bool)
  | 0, _, _, _ => none
  | f + 1, j, buf, odd =>
    if j < n then
      if buf j = 1 then some (buf, odd) else markLoop n p f (p j) (Function.update buf j 1) (!odd)
    else none

/-- `_compute_sign(p, buf, n)`, geomc/linalg/mtxtypes/PermutationMatrix.h:423-437. -/
def computeSign (n : ℕ) (p : ℕ → ℕ) : Option Bool := do
  let s ← forN n (fun i s =>
    if s.1 i = 1 then some s else markLoop n p (n + 1) (p i) (Function.update s.1 i 1) s.2)
    (fun _ => 0, false)
  some s.2

end Geomc.Mtx
