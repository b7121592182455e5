import Verif.Raster.ObjectModel
import Verif.Raster.Props

/-! # Property C103: rasters as objects -/

namespace Geomc.Rast

variable {M ch : ℕ} {O : Type} [Zero O]

/-- A grid point of a raster. -/
def In (ext c : Fin M → ℤ) : Prop := ∀ i, 0 ≤ c i ∧ c i < ext i

instance (ext c : Fin M → ℤ) : Decidable (In ext c) := inferInstanceAs (Decidable (∀ i, _))

/-- What the calls mean: tables of samples by grid point, and which raster refers to which table. -/
structure Spec (O : Type) (M ch : ℕ) where
  obj : ℕ → Option ((Fin M → ℤ) × ℕ × Option (Fin ch → O))
  table : ℕ → (Fin M → ℤ) → Fin ch → O
  next : ℕ

def Spec.init : Spec O M ch := ⟨fun _ => none, fun _ _ _ => 0, 0⟩

/-- The sample of a grid point in an array: `ch` items at `ch` times its position, first axis consecutive. -/
def fromArray (ext : Fin M → ℤ) (src : ℤ → O) (c : Fin M → ℤ) : Fin ch → O :=
  fun k => src ((∑ i, c i * ∏ j ∈ Finset.univ.filter (· < i), ext j) * ch + k)

def Spec.step (s : Spec O M ch) : Call O M ch → Option (Spec O M ch)
  | .new i ext => some ⟨Function.update s.obj i (some (ext, s.next, if ch = 1 then none else some 0)),
      Function.update s.table s.next fun _ _ => 0, s.next + 1⟩
  | .newData i ext src => some ⟨Function.update s.obj i (some (ext, s.next, if ch = 1 then none else some 0)),
      Function.update s.table s.next (fromArray ext src), s.next + 1⟩
  | .copy i j => (s.obj j).map fun o => { s with obj := Function.update s.obj i (some o) }
  | .set i c v => (s.obj i).map fun o =>
      if In o.1 c then { s with table := Function.update s.table o.2.1 (Function.update (s.table o.2.1) c v) } else s
  | .setAbyss i v => (s.obj i).map fun o => { s with obj := Function.update s.obj i (some (o.1, o.2.1, some v)) }

def Spec.run (s : Spec O M ch) (h : List (Call O M ch)) : Option (Spec O M ch) := h.foldlM Spec.step s

/-- Every raster constructed has samples along every axis. -/
def Positive : Call O M ch → Prop
  | .new _ ext | .newData _ ext _ => ∀ i, 0 < ext i
  | _ => True

/-- The state of the program stands for the tables. -/
def Refines (s : Prog O M ch) (p : Spec O M ch) : Prop :=
  s.next = p.next ∧
  (∀ i, s.objs i = (p.obj i).map fun o => ⟨o.1, (∏ j, o.1 j) * ch, o.2.1, o.2.2⟩) ∧
  ∃ E : ℕ → Fin M → ℤ, (∀ i o, p.obj i = some o → o.2.1 < p.next ∧ o.1 = E o.2.1) ∧
    ∀ f < p.next, ∀ c, In (E f) c → ∀ k : Fin ch, s.heap f (place (E f) c * ch + k) = p.table f c k

theorem Refines.init : Refines (Prog.init : Prog O M ch) Spec.init :=
  ⟨rfl, fun _ => rfl, fun _ _ => 0, fun _ _ h => by simp [Spec.init] at h, fun _ h => by simp [Spec.init] at h⟩

theorem Refines.construct {s : Prog O M ch} {p : Spec O M ch} (h : Refines s p) (i : ℕ) (ext : Fin M → ℤ)
    (hp : ∀ i, 0 < ext i) (src : ℤ → O) :
    ∃ s', s.construct i ext src = some s' ∧ Refines s'
      ⟨Function.update p.obj i (some (ext, p.next, if ch = 1 then none else some 0)),
      Function.update p.table p.next (fromArray ext src), p.next + 1⟩ := by
  obtain ⟨h1, h2, E, h3, h4⟩ := h
  have pos : ¬ arrayProduct ext * ch < 0 := by
    rw [arrayProduct_eq, not_lt]
    exact mul_nonneg (Finset.prod_nonneg fun i _ => (hp i).le) (by positivity)
  unfold Prog.construct
  simp only [if_neg pos]
  refine ⟨_, rfl, by simp [h1], ?_, Function.update E p.next ext, ?_, ?_⟩
  · intro k
    by_cases e : k = i
    · subst e
      simp only [Function.update_self, Option.map_some, Option.some.injEq, arrayProduct_eq, h1, freshAbyss]
      rfl
    · simp only [Function.update_of_ne e, h2]
  · intro k o ho
    by_cases e : k = i
    · subst e
      simp only [Function.update_self, Option.some.injEq] at ho
      subst ho
      exact ⟨by simp, by simp⟩
    · simp only [Function.update_of_ne e] at ho
      have := h3 k o ho
      refine ⟨by show o.2.1 < p.next + 1; omega, ?_⟩
      rw [Function.update_of_ne (by omega)]; exact this.2
  · intro f hf c hc k
    simp only at hf
    by_cases e : f = p.next
    · subst e
      simp only [Function.update_self, h1, fromArray]
      rfl
    · simp only [Function.update_of_ne e] at hc ⊢
      rw [h1, Function.update_of_ne e]
      exact h4 f (by omega) c hc k

theorem Refines.step {s : Prog O M ch} {p : Spec O M ch} (h : Refines s p) (q : Call O M ch) (hq : Positive q)
    {p' : Spec O M ch} (e : p.step q = some p') : ∃ s', s.step q = some s' ∧ Refines s' p' := by
  cases q with
  | new i ext =>
    simp only [Spec.step, Option.some.injEq] at e
    obtain ⟨s', h1, h2⟩ := h.construct i ext hq fun _ => 0
    exact ⟨s', h1, e ▸ h2⟩
  | newData i ext src =>
    simp only [Spec.step, Option.some.injEq] at e
    obtain ⟨s', h1, h2⟩ := h.construct i ext hq src
    exact ⟨s', h1, e ▸ h2⟩
  | copy i j =>
    obtain ⟨h1, h2, E, h3, h4⟩ := h
    simp only [Spec.step, Option.map_eq_some_iff] at e
    obtain ⟨o, ho, e⟩ := e
    subst e
    refine ⟨{ s with objs := Function.update s.objs i (s.objs j) }, ?_, h1, ?_, E, ?_, h4⟩
    · simp [Prog.step, h2 j, ho]
    · intro k
      by_cases c : k = i
      · subst c; simp [h2 j, ho]
      · simp [Function.update_of_ne c, h2]
    · intro k o' ho'
      by_cases c : k = i
      · subst c
        simp only [Function.update_self, Option.some.injEq] at ho'
        subst ho'; exact h3 j o ho
      · simp only [Function.update_of_ne c] at ho'
        exact h3 k o' ho'
  | set i c v =>
    obtain ⟨h1, h2, E, h3, h4⟩ := h
    simp only [Spec.step, Option.map_eq_some_iff] at e
    obtain ⟨o, ho, e⟩ := e
    obtain ⟨hf, hE⟩ := h3 i o ho
    have hv : s.view ⟨o.1, (∏ j, o.1 j) * ch, o.2.1, o.2.2⟩ =
        Raster.new o.1 (s.heap o.2.1) (o.2.2.getD fun _ => 0) (fun _ => ()) (fun _ => ()) := by
      simp [Prog.view, Raster.new, arrayProduct_eq]
    have S := C22_set o.1 (s.heap o.2.1) (o.2.2.getD fun _ => 0) (fun _ => ()) (fun _ => ()) c v
    simp only at S
    rw [← hv] at S
    by_cases hc : In o.1 c
    · rw [if_pos hc] at e
      subst e
      obtain ⟨r', g1, g2, g3, g4, -⟩ := S.1 hc
      have ge : r'.ext = o.1 := g4
      refine ⟨{ s with heap := Function.update s.heap o.2.1 r'.data }, ?_, h1, h2, E, h3, ?_⟩
      · simp [Prog.step, h2 i, ho, g1]
      · intro f hf' d hd k
        by_cases ef : f = o.2.1
        · subst ef
          simp only [Function.update_self]
          rw [← hE] at hd ⊢
          by_cases ed : d = c
          · subst ed
            rw [Function.update_self, ← g2]
            simp only [Raster.plain, ge]; rfl
          · rw [Function.update_of_ne ed]
            have := congrFun (g3 d hd ed) k
            have w := h4 o.2.1 hf d (hE ▸ hd) k
            rw [← hE] at w
            rw [← w]
            simp only [Raster.plain, ge] at this
            exact this
        · simp only [Function.update_of_ne ef]
          exact h4 f hf' d hd k
    · rw [if_neg hc] at e
      subst e
      have g := S.2 hc
      refine ⟨{ s with heap := Function.update s.heap o.2.1 (s.heap o.2.1) }, ?_, h1, h2, E, h3, ?_⟩
      · simp only [Prog.step, h2 i, ho, Option.map_some, Option.bind_eq_bind, Option.bind_some, g]
        rfl
      · simpa using h4
  | setAbyss i v =>
    obtain ⟨h1, h2, E, h3, h4⟩ := h
    simp only [Spec.step, Option.map_eq_some_iff] at e
    obtain ⟨o, ho, e⟩ := e
    subst e
    refine ⟨{ s with objs := Function.update s.objs i (some ⟨o.1, (∏ j, o.1 j) * ch, o.2.1, some v⟩) }, ?_, h1, ?_, E, ?_, h4⟩
    · simp [Prog.step, h2 i, ho]
    · intro k
      by_cases c : k = i
      · subst c; simp
      · simp [Function.update_of_ne c, h2]
    · intro k o' ho'
      by_cases c : k = i
      · subst c
        simp only [Function.update_self, Option.some.injEq] at ho'
        subst ho'; exact h3 k o ho
      · simp only [Function.update_of_ne c] at ho'
        exact h3 k o' ho'

theorem Refines.run {s : Prog O M ch} {p : Spec O M ch} (hr : Refines s p) (h : List (Call O M ch))
    (hq : ∀ q ∈ h, Positive q) {p' : Spec O M ch} (e : p.run h = some p') :
    ∃ s', s.run h = some s' ∧ Refines s' p' := by
  induction h generalizing s p with
  | nil =>
    simp only [Spec.run, List.foldlM_nil, Option.pure_def, Option.some.injEq] at e
    exact ⟨s, rfl, e ▸ hr⟩
  | cons q h ih =>
    simp only [Spec.run, List.foldlM_cons, Option.bind_eq_bind, Option.bind_eq_some_iff] at e
    obtain ⟨p₁, e1, e2⟩ := e
    obtain ⟨s₁, g1, g2⟩ := hr.step q (hq q (by simp)) e1
    obtain ⟨s₂, g3, g4⟩ := ih g2 (fun q' hq' => hq q' (by simp [hq'])) e2
    exact ⟨s₂, by simp [Prog.run, List.foldlM_cons, g1]; exact g3, g4⟩

/-- **C103.** After any sequence of constructions, copies and writes, all on existing rasters of positive extents, reading a
raster gives what its table holds: at a grid point the value there, for any edge behaviour; outside, with the edge
behaviours that fold the coordinate, the value at the grid point it is folded to, and with the constant one the background
value last set. -/
theorem C103_history (h : List (Call O M ch)) (hq : ∀ q ∈ h, Positive q) {p : Spec O M ch} (e : Spec.init.run h = some p) :
    ∃ s, Prog.init.run h = some s ∧ ∀ i ext f a, p.obj i = some (ext, f, a) →
      (∀ ed c, (∀ j, Valid ed (ext j)) → In ext c → s.read i ed c = some (p.table f c)) ∧
      (∀ ed c, ed ≠ .constant → (∀ j, Valid ed (ext j)) → ∃ x, In ext x ∧ (∀ j, Rule ed (ext j) (c j) (x j)) ∧
        s.read i ed c = some (p.table f x)) ∧
      (∀ c, ¬ In ext c → s.read i .constant c = a) := by
  obtain ⟨s, hs, h1, h2, E, h3, h4⟩ := Refines.init.run h hq e
  refine ⟨s, hs, ?_⟩
  intro i ext f a ho
  obtain ⟨hf, hE⟩ := h3 i _ ho
  simp only at hf hE
  subst hE
  have hv : s.view ⟨E f, (∏ j, E f j) * ch, f, a⟩ =
      Raster.new (E f) (s.heap f) (a.getD fun _ => 0) (fun _ => ()) (fun _ => ()) := by
    simp [Prog.view, Raster.new, arrayProduct_eq]
  have so : s.objs i = some ⟨E f, (∏ j, E f j) * ch, f, a⟩ := by rw [h2 i, ho]; rfl
  have ci : ∀ c, ((s.view ⟨E f, (∏ j, E f j) * ch, f, a⟩).containsGridpt c = true) ↔ In (E f) c := fun c => contains_iff _ c
  have tab : ∀ x, In (E f) x → (Raster.new (E f) (s.heap f) (a.getD fun _ => 0) (fun _ => ()) (fun _ => ()) :
      Raster Unit O M ch).plain x = p.table f x := by
    intro x hx
    funext k
    exact h4 f hf x hx k
  refine ⟨?_, ?_, ?_⟩
  · intro ed c hval hc
    simp only [Prog.read, so, Option.bind_eq_bind, Option.bind_some]
    rw [if_neg (by simp [(ci c).2 hc]), hv, (C22_inside _ _ _ _ _ ed hval c).1 hc, tab c hc]
  · intro ed c hed hval
    obtain ⟨x, g1, g2, -, g4⟩ := C22_lookup (E f) (s.heap f) (a.getD fun _ => 0) (fun _ => ()) (fun _ => ()) ed hed hval c
    refine ⟨x, g1, g2, ?_⟩
    simp only [Prog.read, so, Option.bind_eq_bind, Option.bind_some]
    rw [if_neg (by simp [hed]), hv, g4, tab x g1]
  · intro c hc
    simp only [Prog.read, so, Option.bind_eq_bind, Option.bind_some]
    rw [if_pos ⟨trivial, by rw [ci]; exact hc⟩]

/-- **C103.** A new raster is zero at every grid point, or holds the given items. -/
theorem C103_new (h : List (Call O M ch)) {p : Spec O M ch} (e : Spec.init.run h = some p) (i : ℕ) (ext : Fin M → ℤ)
    (hp : ∀ q ∈ h, Positive q) (hx : ∀ j, 0 < ext j) (c : Fin M → ℤ) (hc : In ext c) (src : ℤ → O) :
    (∃ s, Prog.init.run (h ++ [.new i ext]) = some s ∧ s.read i .clamp c = some 0) ∧
    (∃ s, Prog.init.run (h ++ [.newData i ext src]) = some s ∧ s.read i .clamp c = some (fromArray ext src c)) := by
  constructor
  · obtain ⟨s, h1, h2⟩ := C103_history (h ++ [.new i ext]) (by
      intro q hq; rcases List.mem_append.mp hq with g | g
      · exact hp q g
      · rw [List.mem_singleton.mp g]; exact hx)
      (p := ⟨Function.update p.obj i (some (ext, p.next, if ch = 1 then none else some 0)),
        Function.update p.table p.next fun _ _ => 0, p.next + 1⟩)
      (by simp only [Spec.run, List.foldlM_append] at e ⊢; simp [e, Spec.step])
    refine ⟨s, h1, ?_⟩
    rw [(h2 i ext p.next _ (by simp; rfl)).1 .clamp c (fun j => hx j) hc]
    simp; rfl
  · obtain ⟨s, h1, h2⟩ := C103_history (h ++ [.newData i ext src]) (by
      intro q hq; rcases List.mem_append.mp hq with g | g
      · exact hp q g
      · rw [List.mem_singleton.mp g]; exact hx)
      (p := ⟨Function.update p.obj i (some (ext, p.next, if ch = 1 then none else some 0)),
        Function.update p.table p.next (fromArray ext src), p.next + 1⟩)
      (by simp only [Spec.run, List.foldlM_append] at e ⊢; simp [e, Spec.step])
    refine ⟨s, h1, ?_⟩
    rw [(h2 i ext p.next _ (by simp; rfl)).1 .clamp c (fun j => hx j) hc]
    simp

/-- Without copies, distinct rasters refer to distinct tables. -/
def NoCopy : Call O M ch → Prop
  | .copy _ _ => False
  | _ => True

def Apart (p : Spec O M ch) : Prop :=
  (∀ i o, p.obj i = some o → o.2.1 < p.next) ∧
  ∀ i j o o', p.obj i = some o → p.obj j = some o' → o.2.1 = o'.2.1 → i = j

theorem Apart.step {p p' : Spec O M ch} (h : Apart p) (q : Call O M ch) (hq : NoCopy q) (e : p.step q = some p') :
    Apart p' := by
  have fresh : ∀ (i : ℕ) (ext : Fin M → ℤ) (a : Option (Fin ch → O)) (t : ℕ → (Fin M → ℤ) → Fin ch → O),
      Apart ⟨Function.update p.obj i (some (ext, p.next, a)), t, p.next + 1⟩ := by
    intro i ext a t
    constructor
    · intro k o ho
      by_cases c : k = i
      · subst c
        simp only [Function.update_self, Option.some.injEq] at ho
        subst ho; simp
      · simp only [Function.update_of_ne c] at ho
        have := h.1 k o ho
        show o.2.1 < p.next + 1; omega
    · intro k l o o' ho ho' eq
      by_cases c : k = i
      · by_cases d : l = i
        · rw [c, d]
        · subst c
          simp only [Function.update_self, Option.some.injEq] at ho
          simp only [Function.update_of_ne d] at ho'
          subst ho
          have := h.1 l o' ho'
          simp only at eq; omega
      · simp only [Function.update_of_ne c] at ho
        by_cases d : l = i
        · subst d
          simp only [Function.update_self, Option.some.injEq] at ho'
          subst ho'
          have := h.1 k o ho
          simp only at eq; omega
        · simp only [Function.update_of_ne d] at ho'
          exact h.2 k l o o' ho ho' eq
  cases q with
  | new i ext =>
    simp only [Spec.step, Option.some.injEq] at e
    subst e; exact fresh i ext _ _
  | newData i ext src =>
    simp only [Spec.step, Option.some.injEq] at e
    subst e; exact fresh i ext _ _
  | copy i j => exact absurd hq id
  | set i c v =>
    simp only [Spec.step, Option.map_eq_some_iff] at e
    obtain ⟨o, _, e⟩ := e
    by_cases hc : In o.1 c
    · rw [if_pos hc] at e; subst e; exact h
    · rw [if_neg hc] at e; subst e; exact h
  | setAbyss i v =>
    simp only [Spec.step, Option.map_eq_some_iff] at e
    obtain ⟨o, ho, e⟩ := e
    subst e
    have old : ∀ k o', Function.update p.obj i (some (o.1, o.2.1, some v)) k = some o' →
        ∃ o'', p.obj k = some o'' ∧ o''.2.1 = o'.2.1 := by
      intro k o' g
      by_cases c : k = i
      · subst c
        simp only [Function.update_self, Option.some.injEq] at g
        exact ⟨o, ho, by rw [← g]⟩
      · simp only [Function.update_of_ne c] at g
        exact ⟨o', g, rfl⟩
    constructor
    · intro k o' g
      obtain ⟨o'', g1, g2⟩ := old k o' g
      rw [← g2]; exact h.1 k o'' g1
    · intro k l o₁ o₂ g g' eq
      obtain ⟨a, a1, a2⟩ := old k o₁ g
      obtain ⟨b, b1, b2⟩ := old l o₂ g'
      exact h.2 k l a b a1 b1 (by rw [a2, b2, eq])

theorem Apart.run {p p' : Spec O M ch} (hp : Apart p) (h : List (Call O M ch)) (hq : ∀ q ∈ h, NoCopy q)
    (e : p.run h = some p') : Apart p' := by
  induction h generalizing p with
  | nil =>
    simp only [Spec.run, List.foldlM_nil, Option.pure_def, Option.some.injEq] at e
    exact e ▸ hp
  | cons q h ih =>
    simp only [Spec.run, List.foldlM_cons, Option.bind_eq_bind, Option.bind_eq_some_iff] at e
    obtain ⟨p₁, e1, e2⟩ := e
    exact ih (hp.step q (hq q (by simp)) e1) (fun q' hq' => hq q' (by simp [hq'])) e2

/-- **C103, part.** As long as no raster is copied, a write through one changes nothing that is read through another. -/
theorem C103_independent_partial (h : List (Call O M ch)) (hq : ∀ q ∈ h, Positive q) (hn : ∀ q ∈ h, NoCopy q)
    {p : Spec O M ch} (e : Spec.init.run h = some p) (i j : ℕ) (hij : i ≠ j) (c : Fin M → ℤ) (v : Fin ch → O)
    {o : (Fin M → ℤ) × ℕ × Option (Fin ch → O)} (hi : p.obj i = some o)
    {o' : (Fin M → ℤ) × ℕ × Option (Fin ch → O)} (hj : p.obj j = some o') (ed : Edge) (hv : ∀ j, Valid ed (o'.1 j))
    (d : Fin M → ℤ) (hd : In o'.1 d) :
    ∃ s s', Prog.init.run h = some s ∧ Prog.init.run (h ++ [.set i c v]) = some s' ∧ s'.read j ed d = s.read j ed d := by
  have ap : Apart p := Apart.run ⟨fun i o h => by simp [Spec.init] at h, fun i j o o' h => by simp [Spec.init] at h⟩ h hn e
  obtain ⟨s, h1, h2⟩ := C103_history h hq e
  obtain ⟨ext, f, a⟩ := o
  obtain ⟨ext', f', a'⟩ := o'
  have ne : f' ≠ f := fun g => hij (ap.2 i j _ _ hi hj g.symm)
  have e' : Spec.init.run (h ++ [Call.set i c v]) = some
      (if In ext c then { p with table := Function.update p.table f (Function.update (p.table f) c v) } else p) := by
    simp only [Spec.run, List.foldlM_append] at e ⊢; simp [e, Spec.step, hi]
  obtain ⟨s', h3, h4⟩ := C103_history (h ++ [.set i c v]) (by
      intro q g; rcases List.mem_append.mp g with g | g
      · exact hq q g
      · rw [List.mem_singleton.mp g]; trivial) e'
  refine ⟨s, s', h1, h3, ?_⟩
  rw [(h2 j ext' f' a' hj).1 ed d hv hd]
  by_cases hc : In ext c
  · rw [if_pos hc] at h4
    rw [(h4 j ext' f' a' hj).1 ed d hv hd]
    simp [Function.update_of_ne ne]
  · rw [if_neg hc] at h4
    rw [(h4 j ext' f' a' hj).1 ed d hv hd]

/-- **C103 refuted for copies.** A write through a copy is a write to the original, after any history. -/
theorem C103_copy_refuted (h : List (Call O M ch)) (hq : ∀ q ∈ h, Positive q) {p : Spec O M ch}
    (e : Spec.init.run h = some p) (i j : ℕ) (hij : i ≠ j) (c : Fin M → ℤ) (v : Fin ch → O)
    {o : (Fin M → ℤ) × ℕ × Option (Fin ch → O)} (hj : p.obj j = some o) (hc : In o.1 c)
    (hx : ∀ k, 0 < o.1 k) :
    ∃ s, Prog.init.run (h ++ [.copy i j, .set i c v]) = some s ∧ s.read j .clamp c = some v := by
  obtain ⟨ext, f, a⟩ := o
  have e' : Spec.init.run (h ++ [Call.copy i j, Call.set i c v]) = some
      ⟨Function.update p.obj i (some (ext, f, a)), Function.update p.table f (Function.update (p.table f) c v), p.next⟩ := by
    simp only [Spec.run, List.foldlM_append] at e ⊢
    simp only at hc
    simp [e, Spec.step, hj, hc]
  obtain ⟨s, h3, h4⟩ := C103_history (h ++ [.copy i j, .set i c v]) (by
      intro q g; rcases List.mem_append.mp g with g | g
      · exact hq q g
      · simp only [List.mem_cons, List.not_mem_nil, or_false] at g
        rcases g with g | g <;> rw [g] <;> trivial) e'
  refine ⟨s, h3, ?_⟩
  rw [(h4 j ext f a (by simp [Function.update_of_ne hij.symm, hj])).1 .clamp c (fun k => hx k) hc]
  simp

/-- **C103 refuted for the background value of single-channel rasters.** Until it is set, reading outside with the constant
edge behaviour yields an indeterminate value. -/
theorem C103_abyss_refuted (h : List (Call O M 1)) (hq : ∀ q ∈ h, Positive q) {p : Spec O M 1}
    (e : Spec.init.run h = some p) (i : ℕ) (ext : Fin M → ℤ) (hx : ∀ j, 0 < ext j) (c : Fin M → ℤ) (hc : ¬ In ext c) :
    ∃ s, Prog.init.run (h ++ [.new i ext]) = some s ∧ s.read i .constant c = none := by
  obtain ⟨s, h1, h2⟩ := C103_history (h ++ [.new i ext]) (by
      intro q hq'; rcases List.mem_append.mp hq' with g | g
      · exact hq q g
      · rw [List.mem_singleton.mp g]; exact hx)
      (p := ⟨Function.update p.obj i (some (ext, p.next, none)),
        Function.update p.table p.next fun _ _ => 0, p.next + 1⟩)
      (by simp only [Spec.run, List.foldlM_append] at e ⊢; simp [e, Spec.step])
  exact ⟨s, h1, (h2 i ext p.next none (by simp)).2.2 c hc⟩

/-- **C103.** `samplecount()` is the number of grid points times the number of channels. -/
theorem C103_count (s s' : Prog O M ch) (i : ℕ) (ext : Fin M → ℤ) (hx : ∀ j, 0 < ext j) (h : s.step (.new i ext) = some s') :
    ∃ o, s'.objs i = some o ∧ o.sampleCount = (Fintype.card ((j : Fin M) → Fin (ext j).toNat) : ℤ) * ch := by
  simp only [Prog.step, Prog.construct] at h
  by_cases g : arrayProduct ext * (ch : ℤ) < 0
  · rw [if_pos g] at h; cases h
  · rw [if_neg g] at h
    cases h
    refine ⟨⟨ext, arrayProduct ext * ch, s.next, freshAbyss⟩, by simp, ?_⟩
    show arrayProduct ext * ch = _
    rw [arrayProduct_eq]
    congr 1
    have : Fintype.card ((j : Fin M) → Fin (ext j).toNat) = ∏ j, (ext j).toNat := by
      rw [Fintype.card_pi]
      simp
    rw [this]
    push_cast
    exact Finset.prod_congr rfl fun j _ => (Int.toNat_of_nonneg (hx j).le).symm

/-- **C103 refuted for several channels.** It is documented to be the number of grid points. -/
theorem C103_count_refuted (s s' : Prog O M ch) (i : ℕ) (ext : Fin M → ℤ) (hx : ∀ j, 0 < ext j) (hch : ch ≠ 1)
    (h : s.step (.new i ext) = some s') : ∃ o, s'.objs i = some o ∧ o.sampleCount ≠ ∏ j, ext j := by
  simp only [Prog.step, Prog.construct] at h
  by_cases g : arrayProduct ext * (ch : ℤ) < 0
  · rw [if_pos g] at h; cases h
  · rw [if_neg g] at h
    cases h
    refine ⟨⟨ext, arrayProduct ext * ch, s.next, freshAbyss⟩, by simp, ?_⟩
    show arrayProduct ext * ch ≠ _
    rw [arrayProduct_eq]
    intro c
    have pos : 0 < ∏ j, ext j := Finset.prod_pos fun j _ => hx j
    have : (ch : ℤ) = 1 := by nlinarith [mul_right_cancel₀ pos.ne' (show (ch : ℤ) * ∏ j, ext j = 1 * ∏ j, ext j by linarith)]
    exact hch (by exact_mod_cast this)

/-- A program with a copy: the write through the copy is seen in the original. -/
example : ((Prog.init : Prog ℤ 2 2).run [.newData 0 ![3, 2] id, .copy 1 0, .set 1 ![2, 1] ![7, 8]]).bind
    (fun s => s.read 0 .periodic ![-1, 3]) = some ![7, 8] := by decide +kernel
/-- The items of the array are taken with the first axis consecutive. -/
example : ((Prog.init : Prog ℤ 2 2).run [.newData 0 ![3, 2] id]).bind (fun s => s.read 0 .clamp ![1, 1]) = some ![8, 9] := by
  decide +kernel
/-- One channel: no background value. -/
example : ((Prog.init : Prog ℤ 1 1).run [.new 0 ![3]]).bind (fun s => s.read 0 .constant ![3]) = none := by decide +kernel

end Geomc.Rast
