import Verif.Shape.TraitModel

/-!
# C112: what the traits of a shape promise
-/

namespace Geomc.Shape.Traits

/-- The queries that a concept promises, Shape.h:60-290. -/
def promised : Concept → List Query
  | .bounded => [.bounds]
  | .convex => [.support, .bounds]
  | .ray => [.intersect]
  | .sdf => [.sdf, .contains]
  | .projectable => [.project, .sdf, .contains]

/-- All queries of a concept can be called. -/
def Works (s : Ty) (c : Concept) : Prop := ∀ q ∈ promised c, has s q = true

/-- Somewhere inside there is a type of a kind. -/
def Ty.Inside (P : Ty → Prop) : Ty → Prop
  | .base b => P (.base b)
  | .dilated s => P (.dilated s) ∨ s.Inside P
  | .extruded s => P (.extruded s) ∨ s.Inside P
  | .frustum s => P (.frustum s) ∨ s.Inside P
  | .oriented s => P (.oriented s) ∨ s.Inside P
  | .any s => P (.any s) ∨ s.Inside P

/-- `Dilated` and `AnyConvexImpl` have no ray test. -/
def Ty.NoRay : Ty → Prop
  | .dilated _ => True
  | .any _ => True
  | _ => False

/-- The innermost shape is a `Simplex`. -/
def Ty.OfSimplex : Ty → Prop
  | .base .simplex => True
  | _ => False

def Ty.IsAny : Ty → Prop
  | .any _ => True
  | _ => False

/-- The four templates whose traits say that they take over those of the wrapped shape. -/
def wrappers : List (Ty → Ty) := [Ty.dilated, Ty.extruded, Ty.frustum, Ty.oriented]

private theorem support_all (s : Ty) : has s .support = true ∧ has s .bounds = true := by
  induction s with
  | base b => cases b <;> exact ⟨rfl, rfl⟩
  | _ s ih => simp_all [has]

/-- Every shape is bounded and convex. -/
theorem works_convex (s : Ty) : Works s .convex ∧ Works s .bounded := by
  have := support_all s
  simp [Works, promised, this]

private theorem ray_eq (s : Ty) : implements s .ray = true ↔ ¬ s.Inside Ty.NoRay := by
  induction s with
  | base b => cases b <;> simp [implements, derives, Ty.Inside, Ty.NoRay]
  | _ s ih => simp_all [implements, derives, Ty.Inside, Ty.NoRay]

private theorem ray_has (s : Ty) : implements s .ray = true → has s .contains = true ∧ has s .intersect = true := by
  induction s with
  | base b => cases b <;> simp [has]
  | _ s ih => simp_all [implements, derives, has]

private theorem has_ray (s : Ty) : has s .intersect = true → implements s .ray = true := by
  induction s with
  | base b => cases b <;> simp [implements, derives]
  | _ s ih => simp_all [implements, has]

/-- `is_ray_intersectable` is right for every shape type. -/
theorem C112_ray (s : Ty) : implements s .ray = true ↔ Works s .ray := by
  simp only [Works, promised, List.mem_singleton, forall_eq]
  exact ⟨fun h => (ray_has s h).2, has_ray s⟩

/-- `is_bounded` is right for all but `as_any_convex` of a shape, and for that it is always wrong. -/
theorem C112_bounded_partial (s : Ty) : (implements s .bounded = true ↔ Works s .bounded) ↔ ¬ s.IsAny := by
  have h := (works_convex s).2
  cases s with
  | base b => cases b <;> simp [implements, derives, h, Ty.IsAny]
  | _ s => simp [implements, derives, h, Ty.IsAny]

/-- `is_convex` of a wrapper says whether the shape in it can be tested with rays: there is neither a `Dilated` nor an `AnyConvexImpl` in
it. -/
theorem C112_convex_wrapper (W : Ty → Ty) (hW : W ∈ wrappers) (s : Ty) :
    implements (W s) .convex = true ↔ ¬ s.Inside Ty.NoRay := by
  rw [← ray_eq]
  simp only [wrappers, List.mem_cons, List.not_mem_nil, or_false] at hW
  rcases hW with rfl | rfl | rfl | rfl <;> simp [implements]

/-- `is_convex` never says that a shape is convex when it is not; it is right for the plain shapes, and for a wrapper exactly if no
`Dilated` or `AnyConvexImpl` is inside. -/
theorem C112_convex_partial (s : Ty) :
    (implements s .convex = true → Works s .convex) ∧
    (∀ b, s = .base b → (implements s .convex = true ↔ Works s .convex)) ∧
    (∀ W ∈ wrappers, (implements (W s) .convex = true ↔ Works (W s) .convex) ↔ ¬ s.Inside Ty.NoRay) := by
  refine ⟨fun _ => (works_convex s).1, ?_, ?_⟩
  · rintro b rfl
    simp only [(works_convex _).1, iff_true]
    cases b <;> rfl
  · intro W hW
    simp only [(works_convex _).1, iff_true]
    exact C112_convex_wrapper W hW s

/-- A dilated shape is convex, but whatever is made from it (moved, extruded, dilated again) is reported not to be. -/
theorem C112_convex_refuted (W : Ty → Ty) (hW : W ∈ wrappers) (s : Ty) :
    Works (W (.dilated s)) .convex ∧ implements (W (.dilated s)) .convex = false := by
  refine ⟨(works_convex _).1, ?_⟩
  have h := C112_convex_wrapper W hW (.dilated s)
  simp only [Ty.Inside, Ty.NoRay, true_or, not_true, iff_false, Bool.not_eq_true] at h
  exact h

private theorem sdf_contains (s : Ty) : has s .sdf = true → has s .contains = true := by
  induction s with
  | base b => cases b <;> simp [has]
  | _ s ih => simp_all [has]

private theorem works_sdf (s : Ty) : Works s .sdf ↔ has s .sdf = true := by
  have := sdf_contains s
  simp only [Works, promised, List.mem_cons, List.not_mem_nil, or_false, forall_eq_or_imp, forall_eq]
  exact ⟨fun h => h.1, fun h => ⟨h, this h⟩⟩

/-- `has_sdf` is true for every shape with a signed distance, and false for the others that are not dilated inside. -/
theorem C112_sdf_partial (s : Ty) :
    (Works s .sdf → implements s .sdf = true) ∧
    (¬ s.Inside (fun t => ∃ u, t = .dilated u) → implements s .sdf = true → Works s .sdf) := by
  rw [works_sdf]
  induction s with
  | base b => cases b <;> simp [has, implements, derives]
  | _ s ih => simp_all [has, implements, derives, Ty.Inside]

/-- `has_sdf` is true for every dilated shape, also if the shape has no signed distance and `sdf()` does not compile. -/
theorem C112_sdf_refuted (s : Ty) (h : ¬ Works s .sdf) :
    implements (.dilated s) .sdf = true ∧ ¬ Works (.dilated s) .sdf := by
  rw [works_sdf] at h ⊢
  exact ⟨rfl, h⟩

/-- `Frustum`, `Oriented` and `AnyConvexImpl` have no signed distance. -/
def Ty.NoSdf : Ty → Prop
  | .frustum _ => True
  | .oriented _ => True
  | .any _ => True
  | _ => False

private theorem sdf_iff (s : Ty) : has s .sdf = true ↔ ¬ s.Inside Ty.NoSdf := by
  induction s with
  | base b => cases b <;> simp [has, Ty.Inside, Ty.NoSdf]
  | _ s ih => simp_all [has, Ty.Inside, Ty.NoSdf]

/-- Containment can be tested for exactly those types in which there is neither an `AnyConvexImpl` nor a `Dilated` made from a shape
without signed distance. -/
theorem C112_contains (s : Ty) :
    has s .contains = true ↔ ¬ s.Inside (fun t => t.IsAny ∨ ∃ u, t = .dilated u ∧ u.Inside Ty.NoSdf) := by
  have any_sdf : ∀ s : Ty, s.Inside (fun t => t.IsAny ∨ ∃ u, t = .dilated u ∧ u.Inside Ty.NoSdf) → s.Inside Ty.NoSdf := by
    intro s
    induction s with
    | base b => cases b <;> simp [Ty.Inside, Ty.IsAny]
    | dilated s ih =>
      rintro ((h | ⟨u, hu, h⟩) | h)
      · exact h.elim
      · cases hu; exact Or.inr h
      · exact Or.inr (ih h)
    | _ s ih => simp_all [Ty.Inside, Ty.IsAny, Ty.NoSdf]
  induction s with
  | base b => cases b <;> simp [has, Ty.Inside, Ty.IsAny]
  | dilated s ih =>
    have := any_sdf s
    simp only [has, sdf_iff, Ty.Inside, Ty.IsAny, false_or, Ty.dilated.injEq, exists_eq_left']
    tauto
  | _ s ih => simp_all [has, Ty.Inside, Ty.IsAny]

private theorem project_sdf (s : Ty) : (has s .project = true → has s .sdf = true) ∧ (has s .projectConst = true → has s .project = true) := by
  induction s with
  | base b => cases b <;> simp [has]
  | _ s ih => simp_all [has]

private theorem works_project (s : Ty) : Works s .projectable ↔ has s .project = true := by
  have h1 := (project_sdf s).1
  have h2 := sdf_contains s
  simp only [Works, promised, List.mem_cons, List.not_mem_nil, or_false, forall_eq_or_imp, forall_eq]
  exact ⟨fun h => h.1, fun h => ⟨h, h1 h, h2 (h1 h)⟩⟩

private theorem project_trait (s : Ty) :
    (implements s .projectable = true → has s .project = true ∧ has s .projectConst = true) ∧
    (¬ s.Inside Ty.OfSimplex → has s .project = true → implements s .projectable = true) := by
  have key := project_sdf
  have key2 := sdf_contains
  induction s with
  | base b => cases b <;> simp [has, implements, derives, Ty.Inside, Ty.OfSimplex]
  | _ s ih =>
    have k1 := key s
    have k2 := key2 s
    simp_all [has, implements, derives, Ty.Inside, Ty.OfSimplex]
    try exact fun h => key2 s ((key s).1 (ih.1 h).1)

/-- `is_projectable` never promises too much, and is right for all shapes not made from a `Simplex`. -/
theorem C112_projectable_partial (s : Ty) :
    (implements s .projectable = true → Works s .projectable) ∧
    (¬ s.Inside Ty.OfSimplex → Works s .projectable → implements s .projectable = true) := by
  rw [works_project]
  exact ⟨fun h => ((project_trait s).1 h).1, (project_trait s).2⟩

/-- A dilated simplex, to any depth. -/
def dilatedSimplex : ℕ → Ty
  | 0 => .base .simplex
  | n + 1 => .dilated (dilatedSimplex n)

/-- A simplex, dilated any number of times, can be projected to but is reported as if it could not; extruded, it cannot. -/
theorem C112_projectable_refuted (n : ℕ) :
    Works (dilatedSimplex n) .projectable ∧ implements (dilatedSimplex n) .projectable = false ∧
      ¬ Works (.extruded (.base .simplex)) .projectable := by
  have ht : implements (dilatedSimplex n) .projectable = false := by
    induction n with
    | zero => rfl
    | succ n ih => simpa [dilatedSimplex, implements] using ih
  have hs : has (dilatedSimplex n) .project = true ∧ has (dilatedSimplex n) .contains = true ∧ has (dilatedSimplex n) .sdf = true := by
    clear ht
    induction n with
    | zero => exact ⟨rfl, rfl, rfl⟩
    | succ n ih => simp [dilatedSimplex, has, ih]
  refine ⟨(works_project _).2 hs.1, ht, ?_⟩
  rw [works_project]
  simp [has]

/-- A rotated rounded box is reported not to be convex; a dilated cone is reported to have a signed distance. -/
example : implements (.oriented (.dilated (.base .rect))) .convex = false ∧ implements (.dilated (.base .rect)) .convex = true ∧
    implements (.dilated (.frustum (.base .sphere))) .sdf = true ∧ has (.dilated (.frustum (.base .sphere))) .sdf = false ∧
    implements (.oriented (.extruded (.base .sphere))) .ray = true ∧ implements (.extruded (.dilated (.base .sphere))) .ray = false := by
  decide

end Geomc.Shape.Traits
