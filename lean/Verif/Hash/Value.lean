import Verif.Hash.ValueModel
import Verif.Hash.Props

/-! # Property C105: digests of vectors, matrices, transforms and shapes -/

namespace Geomc.Hash

variable {S : Type} {w : ℕ}

/-- The `==` of the types: members are compared one by one, scalars by their own `==`
(geomc/linalg/vecdetail/VecBase.h:396-401, geomc/linalg/Matrix.h:1077-1084, geomc/shape/Rect.h:462,
Sphere.h:53, Plane.h:57, Capsule.h:43, Cylinder.h:71, Dilated.h:74, Extruded.h:63, Frustum.h:78,
Oriented.h:65).  Of an affine transform only the matrix, not the inverse (AffineTransform.h:97). -/
inductive Same (eq : S → S → Prop) : Val S → Val S → Prop
  | num {x y : S} : eq x y → Same eq (.num x) (.num y)
  | nil {k : Kind} : Same eq (.obj k []) (.obj k [])
  | cons {k : Kind} {a b : Val S} {l m : List (Val S)} : Same eq a b → Same eq (.obj k l) (.obj k m) →
      Same eq (.obj k (a :: l)) (.obj k (b :: m))
  | affine {a b : Val S} {l m : List (Val S)} : Same eq a b → Same eq (.obj .affine (a :: l)) (.obj .affine (b :: m))

/-- A value in which an affine transform occurs. -/
inductive HasAffine : Val S → Prop
  | self (l : List (Val S)) : HasAffine (.obj .affine l)
  | member {k : Kind} {l : List (Val S)} {a : Val S} : a ∈ l → HasAffine a → HasAffine (.obj k l)

theorem digest_affine (combine : BitVec w → BitVec w → BitVec w) (leaf : S → BitVec w) (n : ℕ)
    (l : List (Val S)) : digest w combine leaf n (.obj .affine l) = none := by
  induction n with
  | zero => rfl
  | succ n ih => rw [digest]; exact ih

theorem mapM_none {α β : Type} {f : α → Option β} {l : List α} {a : α} (h : a ∈ l) (hf : f a = none) :
    l.mapM f = none := by
  induction l with
  | nil => exact absurd h List.not_mem_nil
  | cons b l ih =>
    rw [List.mapM_cons]
    rcases List.mem_cons.1 h with rfl | h
    · rw [hf]; rfl
    · rw [ih h]
      cases f b <;> rfl

theorem mapM_some {α β : Type} {f : α → Option β} {l : List α} (hf : ∀ a ∈ l, (f a).isSome) :
    ∃ m, l.mapM f = some m ∧ m.length = l.length := by
  induction l with
  | nil => exact ⟨[], rfl, rfl⟩
  | cons b l ih =>
    obtain ⟨m, hm, hl⟩ := ih fun a h => hf a (List.mem_cons_of_mem _ h)
    obtain ⟨y, hy⟩ := Option.isSome_iff_exists.1 (hf b List.mem_cons_self)
    exact ⟨y :: m, by rw [List.mapM_cons, hy, hm]; rfl, by simp [hl]⟩

/-- How the digests of the members are combined. -/
def mix (combine : BitVec w → BitVec w → BitVec w) (k : Kind) (hs : List (BitVec w)) : BitVec w :=
  if k = .vec ∨ k = .matrix then hashArray combine id (truncated w (constants k)) hs
  else combineMany combine (truncated w (constants k)) hs

theorem digest_obj (combine : BitVec w → BitVec w → BitVec w) (leaf : S → BitVec w) (n : ℕ) (k : Kind)
    (hk : k ≠ .affine) (l : List (Val S)) :
    digest w combine leaf (n + 1) (.obj k l) =
      (l.mapM (digest w combine leaf n)).map (mix combine k) := by
  cases k <;> first | exact absurd rfl hk | (unfold digest; cases l.mapM (digest w combine leaf n) <;> rfl)

/-- **C105, refuted** for affine transforms and whatever contains one, such as oriented shapes: the digest never
terminates, whatever the value, the word size, the combination and the digest of scalars. -/
theorem C105_affine_refuted (combine : BitVec w → BitVec w → BitVec w) (leaf : S → BitVec w) (v : Val S)
    (h : HasAffine v) (n : ℕ) : digest w combine leaf n v = none := by
  induction h generalizing n with
  | self l => exact digest_affine combine leaf n l
  | @member k l a ha _ ih =>
    cases n with
    | zero => rfl
    | succ n =>
      by_cases hk : k = .affine
      · rw [hk]; exact digest_affine combine leaf _ l
      · rw [digest_obj _ _ _ _ hk, mapM_none ha (ih n)]; rfl

/-- **C105.** All other digests terminate. -/
theorem C105_terminates (combine : BitVec w → BitVec w → BitVec w) (leaf : S → BitVec w) (v : Val S)
    (h : ¬ HasAffine v) : ∃ N, ∀ n ≥ N, (digest w combine leaf n v).isSome := by
  refine ⟨sizeOf v, ?_⟩
  suffices H : ∀ n (v : Val S), ¬ HasAffine v → sizeOf v ≤ n → (digest w combine leaf n v).isSome from
    fun n hn => H n v h hn
  intro n
  induction n with
  | zero =>
    intro v _ hs
    cases v with
    | num x => simp at hs
    | obj k l => simp at hs
  | succ n ih =>
    intro v hv hs
    cases v with
    | num x => rw [digest]; rfl
    | obj k l =>
      have hk : k ≠ .affine := by rintro rfl; exact hv (.self l)
      rw [digest_obj _ _ _ _ hk]
      obtain ⟨m, hm, _⟩ := mapM_some (f := digest w combine leaf n) (l := l) (by
        intro a ha
        refine ih a (fun h => hv (.member ha h)) ?_
        have := List.sizeOf_lt_of_mem ha
        simp only [Val.obj.sizeOf_spec] at hs
        omega)
      rw [hm]
      rfl

theorem same_members {eq : S → S → Prop} {combine : BitVec w → BitVec w → BitVec w} {leaf : S → BitVec w}
    {k : Kind} (hk : k ≠ .affine) {n : ℕ} {l m : List (Val S)} (h : Same eq (.obj k l) (.obj k m))
    (ih : ∀ a b : Val S, Same eq a b → digest w combine leaf n a = digest w combine leaf n b) :
    l.mapM (digest w combine leaf n) = m.mapM (digest w combine leaf n) := by
  induction l generalizing m with
  | nil =>
    cases h with
    | nil => rfl
  | cons a l ihl =>
    cases h with
    | cons h1 h2 => rw [List.mapM_cons, List.mapM_cons, ih _ _ h1, ihl h2]
    | affine _ => exact absurd rfl hk

/-- **C105.** Values that compare equal have equal digests, however deeply nested, provided this is so for the
scalars (as it is of `0.0` and `-0.0` with `std::hash`). -/
theorem C105_equal {eq : S → S → Prop} (combine : BitVec w → BitVec w → BitVec w) (leaf : S → BitVec w)
    (hleaf : ∀ x y, eq x y → leaf x = leaf y) (u v : Val S) (h : Same eq u v) (n : ℕ) :
    digest w combine leaf n u = digest w combine leaf n v := by
  induction n generalizing u v with
  | zero => rfl
  | succ n ih =>
    cases h with
    | num e => rw [digest, digest, hleaf _ _ e]
    | affine _ => rw [digest_affine, digest_affine]
    | nil => rfl
    | @cons k a b l m h1 h2 =>
      by_cases hk : k = .affine
      · subst hk; rw [digest_affine, digest_affine]
      · rw [digest_obj _ _ _ _ hk, digest_obj _ _ _ _ hk, same_members hk (.cons h1 h2) ih]

/-- **C105.** Digests are sensitive to the last member (the radius of a sphere, the offset of a plane, the last
component of a vector): if the digests of the last members differ, so do those of the values. -/
theorem C105_last {combine : BitVec w → BitVec w → BitVec w} (hc : Separates combine) (leaf : S → BitVec w)
    (n : ℕ) (k : Kind) (l : List (Val S)) (a b : Val S) (x y z : BitVec w)
    (ha : digest w combine leaf n a = some x) (hb : digest w combine leaf n b = some y) (hxy : x ≠ y)
    (h : digest w combine leaf (n + 1) (.obj k (l ++ [a])) = some z) :
    digest w combine leaf (n + 1) (.obj k (l ++ [b])) ≠ some z := by
  have hk : k ≠ .affine := by
    rintro rfl
    rw [digest_affine] at h
    exact absurd h (by simp)
  rw [digest_obj _ _ _ _ hk, List.mapM_append] at h
  rw [digest_obj _ _ _ _ hk, List.mapM_append]
  have ea : [a].mapM (digest w combine leaf n) = some [x] := by rw [List.mapM_cons, ha]; rfl
  have eb : [b].mapM (digest w combine leaf n) = some [y] := by rw [List.mapM_cons, hb]; rfl
  rw [ea] at h
  rw [eb]
  cases hl : l.mapM (digest w combine leaf n) with
  | none => rw [hl] at h; exact absurd h (by simp)
  | some hs =>
    rw [hl] at h
    have h1 : mix combine k (hs ++ [x]) = z := by simpa using h
    intro h2
    have h3 : mix combine k (hs ++ [y]) = z := by simpa using h2
    rw [← h3] at h1
    unfold mix at h1
    by_cases hv : k = .vec ∨ k = .matrix
    · rw [if_pos hv, if_pos hv] at h1
      exact hxy ((C12_last hc id _ hs x y).1.1 h1)
    · rw [if_neg hv, if_neg hv] at h1
      exact hxy (combineMany_last hc _ _ _ _ h1)

/-- **C105.** Each type has its own constant, at all word sizes. -/
theorem C105_constants :
    (Function.Injective fun k => truncated 16 (constants k)) ∧
    (Function.Injective fun k => truncated 32 (constants k)) ∧
    (Function.Injective fun k => truncated 64 (constants k)) ∧
    (Function.Injective fun k => truncated 128 (constants k)) := by
  refine ⟨?_, ?_, ?_, ?_⟩ <;> intro a b <;> cases a <;> cases b <;> decide +kernel

/-- **C105, refuted across layouts**: a matrix compares equal to its copy in the other layout
(geomc/linalg/mtxdetail/MatrixFunctionImpl.h:188-199), but `hash_array` runs over the elements in storage order,
so the two have different digests. -/
theorem C105_layout_refuted : ∃ f : Fin 2 → Fin 2 → BitVec 64,
    digest 64 combine64 id 2 (.obj .matrix [.num (f 0 0), .num (f 0 1), .num (f 1 0), .num (f 1 1)]) ≠
    digest 64 combine64 id 2 (.obj .matrix [.num (f 0 0), .num (f 1 0), .num (f 0 1), .num (f 1 1)]) :=
  ⟨fun i j => if i = 0 ∧ j = 1 then 1 else 0, by decide +kernel⟩

/-- A sphere and a plane with the same members have different digests; a negative zero does not change
that of a sphere. -/
example :
    digest 64 combine64 (BitVec.ofInt 64) 4 (.obj .sphere [.obj .vec [.num 1, .num 2], .num 3]) ≠
    digest 64 combine64 (BitVec.ofInt 64) 4 (.obj .plane [.obj .vec [.num 1, .num 2], .num 3]) ∧
    Same (fun a b : ℤ => a.natAbs = b.natAbs) (.obj .sphere [.obj .vec [.num 1, .num 2], .num 3])
      (.obj .sphere [.obj .vec [.num 1, .num (-2)], .num 3]) :=
  ⟨by decide +kernel, .cons (.cons (.num rfl) (.cons (.num rfl) .nil)) (.cons (.num rfl) .nil)⟩

/-- The digest of a box turned by an affine transform does not come back. -/
example (n : ℕ) (box m inv : Val ℤ) :
    digest 64 combine64 (BitVec.ofInt 64) n (.obj .oriented [box, .obj .affine [m, inv]]) = none :=
  C105_affine_refuted _ _ _ (.member (a := .obj .affine [m, inv]) (by simp) (.self _)) n

end Geomc.Hash
