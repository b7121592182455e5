import Batteries.Data.Nat.Lemmas
import Verif.Affine.Rotation
import Verif.LU.Solve
import Verif.Rect.Dist
import Verif.Shape.OrientedModel
import Verif.Shape.Cylinder

/-!
# C54: shapes placed by an affine transform

The points of a placed shape are the images of the points of the shape.  `Wf x` says that the inverse stored in a transform is
its inverse, which C41 proves of every transform made by the library.
-/

namespace Geomc.Shape

open Geomc.Vec Geomc.Rect Geomc.Affine

variable {K : Type} {n : ℕ} [Field K] [LinearOrder K] [IsStrictOrderedRing K]

/-- The image of a set. -/
def placed (x : XF K n) (S : Set (Fin n → K)) : Set (Fin n → K) := {q | ∃ p ∈ S, q = x.apply p}

omit [LinearOrder K] [IsStrictOrderedRing K] in
theorem apply_sub (x : XF K n) (p q : Fin n → K) : x.apply p - x.apply q = x.applyVector (p - q) := by
  rw [(vector_eq _).1]
  ext i
  simp only [XF.apply, Pi.sub_apply, applyMat_eq, Matrix.mulVec, dotProduct, lin, Matrix.of_apply, mul_sub,
    Finset.sum_sub_distrib]
  ring

omit [LinearOrder K] [IsStrictOrderedRing K] in
theorem apply_ray (x : XF K n) (o v : Fin n → K) (t : K) : x.apply (o + t • v) = x.apply o + t • x.applyVector v := by
  have h := apply_sub x (o + t • v) o
  rw [add_sub_cancel_left, (vector_eq _).1, Matrix.mulVec_smul, ← (vector_eq _).1] at h
  rw [← h, add_sub_cancel]

omit [LinearOrder K] [IsStrictOrderedRing K] in
theorem applyVector_dot (x : XF K n) (v d : Fin n → K) : x.applyVector v ⬝ᵥ d = v ⬝ᵥ x.applyInverseNormal d := by
  rw [(vector_eq _).1, (vector_eq _).2.2.2, Matrix.mulVec_transpose, dotProduct_comm, Matrix.dotProduct_mulVec, dotProduct_comm]

omit [IsStrictOrderedRing K] in
/-- **C54**: a placed shape contains a point iff the shape contains its preimage, that is, iff the point is the image of a
point of the shape. -/
theorem C54_contains (S : Set (Fin n → K)) (contains : (Fin n → K) → Bool) (hc : ∀ p, contains p = true ↔ p ∈ S) {x : XF K n}
    (hx : Wf x) (p : Fin n → K) : oriContains contains x p = true ↔ p ∈ placed x S := by
  rw [oriContains, hc]
  constructor
  · intro h
    exact ⟨_, h, ((wf_undo hx p).1.2).symm⟩
  · rintro ⟨q, hq, rfl⟩
    rwa [(wf_undo hx q).1.1]

theorem support_placed {S : Set (Fin n → K)} {x : XF K n} {d y : Fin n → K} (h : IsSupport S (x.applyInverseNormal d) y) :
    IsSupport (placed x S) d (x.apply y) := by
  refine ⟨⟨y, h.1, rfl⟩, ?_⟩
  rintro _ ⟨q, hq, rfl⟩
  have := h.2 q hq
  rw [dot_eq, dot_eq] at this ⊢
  have e : (x.apply y - x.apply q) ⬝ᵥ d = (y - q) ⬝ᵥ x.applyInverseNormal d := by rw [apply_sub, applyVector_dot]
  rw [sub_dotProduct, sub_dotProduct] at e
  linarith

omit [LinearOrder K] [IsStrictOrderedRing K] in
theorem applyInverseNormal_ne {x : XF K n} (hx : Wf x) {d : Fin n → K} (hd : d ≠ 0) : x.applyInverseNormal d ≠ 0 := by
  intro h
  apply hd
  rw [← (wf_undo hx d).2.2.2, h, (vector_eq _).2.2.1, Matrix.mulVec_zero]

/-- **C54**: the support of a placed shape is a farthest point of the image. -/
theorem C54_support (S : Set (Fin n → K)) (support : (Fin n → K) → Fin n → K) (hb : ∀ d, d ≠ 0 → IsSupport S d (support d))
    {x : XF K n} (hx : Wf x) (d : Fin n → K) (hd : d ≠ 0) : IsSupport (placed x S) d (oriSupport support x d) :=
  support_placed (hb _ (applyInverseNormal_ne hx hd))

/-- A box with a point of the set on every face, and the set inside. -/
theorem hull_of_faces {S : Set (Fin n → K)} {b : Box K n} (hin : S ⊆ b.pts) (hlo : ∀ i, ∃ p ∈ S, p i = b.lo i)
    (hhi : ∀ i, ∃ p ∈ S, p i = b.hi i) : IsHull S b := by
  refine ⟨hin, fun c hc => fun q hq => ?_⟩
  rw [mem_pts] at hq ⊢
  intro i
  obtain ⟨p, hp, hpi⟩ := hlo i
  obtain ⟨p', hp', hpi'⟩ := hhi i
  have h1 := mem_pts.1 (hc hp) i
  have h2 := mem_pts.1 (hc hp') i
  have h3 := hq i
  exact ⟨by rw [← hpi] at h3; exact h1.1.trans h3.1, by rw [← hpi'] at h3; exact h3.2.trans h2.2⟩

omit [LinearOrder K] [IsStrictOrderedRing K] in
theorem matRow_eq (x : XF K n) (i : Fin n) : matRow x i = x.applyInverseNormal (Pi.single i 1) := by
  rw [(vector_eq _).2.2.2]
  ext j
  simp [matRow, lin, Matrix.mulVec, Matrix.transpose_apply]

omit [LinearOrder K] [IsStrictOrderedRing K] in
theorem neg_matRow_eq (x : XF K n) (i : Fin n) : -matRow x i = x.applyInverseNormal (Pi.single i (-1)) := by
  rw [matRow_eq, (vector_eq _).2.2.2, (vector_eq _).2.2.2, ← Matrix.mulVec_neg, Pi.single_neg]

theorem coord_le {S : Set (Fin n → K)} {y : Fin n → K} {i : Fin n} (h : IsSupport S (Pi.single i 1) y) :
    ∀ q ∈ S, q i ≤ y i := by
  intro q hq
  have := h.2 q hq
  rwa [dot_eq, dot_eq, dotProduct_single, dotProduct_single, mul_one, mul_one] at this

theorem coord_ge {S : Set (Fin n → K)} {y : Fin n → K} {i : Fin n} (h : IsSupport S (Pi.single i (-1)) y) :
    ∀ q ∈ S, y i ≤ q i := by
  intro q hq
  have := h.2 q hq
  rw [dot_eq, dot_eq, dotProduct_single, dotProduct_single] at this
  linarith

/-- **C54**: the bounds of a placed shape are the smallest box around the image. -/
theorem C54_bounds (S : Set (Fin n → K)) (support : (Fin n → K) → Fin n → K) (hb : ∀ d, d ≠ 0 → IsSupport S d (support d))
    {x : XF K n} (hx : Wf x) : IsHull (placed x S) (oriBounds support x) := by
  have hp : ∀ i, IsSupport (placed x S) (Pi.single i 1) (x.apply (support (matRow x i))) := by
    intro i
    rw [matRow_eq]
    exact C54_support S support hb hx _ (by simp)
  have hm : ∀ i, IsSupport (placed x S) (Pi.single i (-1)) (x.apply (support (-matRow x i))) := by
    intro i
    rw [neg_matRow_eq]
    exact C54_support S support hb hx _ (by simp)
  exact hull_of_faces (fun q hq => mem_pts.2 fun i => ⟨coord_ge (hm i) q hq, coord_le (hp i) q hq⟩)
    (fun i => ⟨_, (hm i).1, rfl⟩) (fun i => ⟨_, (hp i).1, rfl⟩)

omit [LinearOrder K] [IsStrictOrderedRing K] in
theorem placed_inverse {x : XF K n} (hx : Wf x) (S : Set (Fin n → K)) (p : Fin n → K) :
    p ∈ placed x S ↔ x.applyInverse p ∈ S := by
  constructor
  · rintro ⟨q, hq, rfl⟩
    rwa [(wf_undo hx q).1.1]
  · intro h
    exact ⟨_, h, ((wf_undo hx p).1.2).symm⟩

/-- **C54**: a ray meets a placed shape where the image is. -/
theorem C54_ray (S : Set (Fin n → K)) (ray : (Fin n → K) → (Fin n → K) → Ext K × Ext K)
    (hr : ∀ o v, v ≠ 0 → ∀ t : K, InIval (ray o v) t ↔ o + t • v ∈ S) {x : XF K n} (hx : Wf x) (o v : Fin n → K) (hv : v ≠ 0)
    (t : K) : InIval (oriRay ray x o v) t ↔ o + t • v ∈ placed x S := by
  have hne : x.applyInverseVector v ≠ 0 := by
    intro h
    apply hv
    rw [← (wf_undo hx v).2.1.2, h, (vector_eq _).1, Matrix.mulVec_zero]
  rw [placed_inverse hx]
  have e : x.applyInverse (o + t • v) = x.applyInverse o + t • x.applyInverseVector v := apply_ray x.inverse o v t
  rw [e]
  exact hr _ _ hne t

/-! ### Boxes -/

/-- **C54**: the support of a placed box. -/
theorem C54_rect_support (b : Box K n) (hb : b.isEmpty = false) (x : XF K n) (d : Fin n → K) :
    IsSupport (placed x b.pts) d (oriRectSupport b x d) :=
  support_placed (y := b.support (x.applyInverseNormal d)) (C48_support b hb _).2

omit [Field K] [IsStrictOrderedRing K] in
theorem fold_bounds (f : ℕ → Fin n → K) (l : List ℕ) (s : (Fin n → K) × (Fin n → K)) :
    let r := l.foldl (fun (s : (Fin n → K) × (Fin n → K)) i => (vmin s.1 (f i), vmax s.2 (f i))) s
    (∀ i, (∀ c ∈ l, r.1 i ≤ f c i ∧ f c i ≤ r.2 i) ∧ r.1 i ≤ s.1 i ∧ s.2 i ≤ r.2 i ∧
      (r.1 i = s.1 i ∨ ∃ c ∈ l, r.1 i = f c i) ∧ (r.2 i = s.2 i ∨ ∃ c ∈ l, r.2 i = f c i)) := by
  induction l generalizing s with
  | nil => simp
  | cons c l ih =>
    intro r i
    obtain ⟨h1, h2, h3, h4, h5⟩ := ih (vmin s.1 (f c), vmax s.2 (f c)) i
    change (∀ c ∈ l, r.1 i ≤ f c i ∧ f c i ≤ r.2 i) at h1
    change r.1 i ≤ vmin s.1 (f c) i at h2
    change vmax s.2 (f c) i ≤ r.2 i at h3
    change (r.1 i = vmin s.1 (f c) i ∨ ∃ c ∈ l, r.1 i = f c i) at h4
    change (r.2 i = vmax s.2 (f c) i ∨ ∃ c ∈ l, r.2 i = f c i) at h5
    clear_value r
    rw [vmin_apply] at h2 h4
    rw [vmax_apply] at h3 h5
    refine ⟨?_, h2.trans (min_le_left _ _), (le_max_left _ _).trans h3, ?_, ?_⟩
    · intro c' hc'
      rcases List.mem_cons.1 hc' with rfl | hc'
      · exact ⟨h2.trans (min_le_right _ _), (le_max_right _ _).trans h3⟩
      · exact h1 c' hc'
    · rcases h4 with h4 | ⟨c', hc', h4⟩
      · rcases min_choice (s.1 i) (f c i) with h | h
        · exact .inl (h4.trans h)
        · exact .inr ⟨c, by simp, h4.trans h⟩
      · exact .inr ⟨c', by simp [hc'], h4⟩
    · rcases h5 with h5 | ⟨c', hc', h5⟩
      · rcases max_choice (s.2 i) (f c i) with h | h
        · exact .inl (h5.trans h)
        · exact .inr ⟨c, by simp, h5.trans h⟩
      · exact .inr ⟨c', by simp [hc'], h5⟩

omit [Field K] [IsStrictOrderedRing K] in
theorem corner_mem (b : Box K n) (hb : b.isEmpty = false) (c : ℕ) : corner b c ∈ b.pts := by
  rw [not_empty_iff] at hb
  rw [mem_pts]
  intro i
  unfold corner
  split_ifs
  · exact ⟨hb i, le_rfl⟩
  · exact ⟨le_rfl, hb i⟩

omit [LinearOrder K] [IsStrictOrderedRing K] [Field K] in
/-- Every choice of ends is a corner. -/
theorem exists_corner (b : Box K n) (f : Fin n → Bool) :
    ∃ c < 2 ^ n, corner b c = fun j => if f j then b.hi j else b.lo j := by
  refine ⟨Nat.ofBits f, Nat.ofBits_lt_two_pow f, ?_⟩
  ext j
  rw [corner, Nat.testBit_ofBits_lt f j j.2]

/-- **C54**: the bounds of a placed box are the smallest box around the image, up to thirty dimensions. -/
theorem C54_rect_bounds (hn : n ≤ 30) (b : Box K n) (hb : b.isEmpty = false) (x : XF K n) :
    ∃ r, oriRectBounds b x = some r ∧ IsHull (placed x b.pts) r := by
  have hr := fold_bounds (fun c => x.apply (corner b c)) (List.range' 1 (2 ^ n - 1)) (x.apply b.lo, x.apply b.lo)
  refine ⟨_, if_neg (by omega), ?_⟩
  generalize (List.range' 1 (2 ^ n - 1)).foldl (fun (s : (Fin n → K) × (Fin n → K)) i =>
      (vmin s.1 (x.apply (corner b i)), vmax s.2 (x.apply (corner b i)))) (x.apply b.lo, x.apply b.lo) = r at hr
  simp only at hr
  have h0 : corner b 0 = b.lo := by ext j; simp [corner]
  have hall : ∀ c < 2 ^ n, ∀ i, r.1 i ≤ x.apply (corner b c) i ∧ x.apply (corner b c) i ≤ r.2 i := by
    intro c hc i
    rcases Nat.eq_zero_or_pos c with rfl | hpos
    · rw [h0]
      exact ⟨(hr i).2.1, (hr i).2.2.1⟩
    · exact (hr i).1 c (List.mem_range'.2 ⟨c - 1, by omega, by omega⟩)
  have hsup : ∀ d, ∃ c < 2 ^ n, IsSupport (placed x b.pts) d (x.apply (corner b c)) := by
    intro d
    obtain ⟨c, hc, e⟩ := exists_corner b (fun i => !decide (x.applyInverseNormal d i < 0))
    refine ⟨c, hc, ?_⟩
    have h := C54_rect_support b hb x d
    have e' : (fun i => if x.applyInverseNormal d i < 0 then b.lo i else b.hi i) = corner b c := by
      rw [e]
      ext i
      by_cases h : x.applyInverseNormal d i < 0 <;> simp [h]
    unfold oriRectSupport at h
    simp only at h
    rwa [e'] at h
  refine hull_of_faces ?_ ?_ ?_
  · intro q hq
    rw [mem_pts]
    intro i
    obtain ⟨c, hc, h⟩ := hsup (Pi.single i 1)
    obtain ⟨c', hc', h'⟩ := hsup (Pi.single i (-1))
    exact ⟨(hall c' hc' i).1.trans (coord_ge h' q hq), (coord_le h q hq).trans (hall c hc i).2⟩
  · intro i
    rcases (hr i).2.2.2.1 with h | ⟨c, -, h⟩
    · exact ⟨_, ⟨b.lo, h0 ▸ corner_mem b hb 0, rfl⟩, h.symm⟩
    · exact ⟨_, ⟨_, corner_mem b hb c, rfl⟩, h.symm⟩
  · intro i
    rcases (hr i).2.2.2.2 with h | ⟨c, -, h⟩
    · exact ⟨_, ⟨b.lo, h0 ▸ corner_mem b hb 0, rfl⟩, h.symm⟩
    · exact ⟨_, ⟨_, corner_mem b hb c, rfl⟩, h.symm⟩

omit [IsStrictOrderedRing K] in
/-- **C54** refuted: from 31 dimensions on the number of corners overflows, whatever the box. -/
theorem C54_rect_bounds_refuted (hn : 31 ≤ n) (b : Box K n) (x : XF K n) : oriRectBounds b x = none := if_pos hn

/-- **C54** refuted: the volume of the unit box, placed by the identity, comes out as zero from two dimensions on (it is
one), because the determinant multiplies the wrong elements (C34). -/
theorem C54_volume_refuted (hn : 2 ≤ n) : oriVolume (⟨fun _ => 0, fun _ => 1⟩ : Box K n) XF.identity = 0 := by
  have h := (LU.C34_detNxN_refuted (K := K) hn).2.1
  have e : volumeMatrix (⟨fun _ => 0, fun _ => 1⟩ : Box K n) XF.identity = fun r c => if r = c then 1 else 0 := by
    funext r c
    unfold volumeMatrix
    split_ifs with h <;> simp_all [XF.identity, eye, Fin.ext_iff]
  rw [oriVolume, e, h]

/-- **C54**: in one dimension the volume is the length of the interval times the factor of the transform, negative if that
is. -/
theorem C54_volume_partial (b : Box K 1) (x : XF K 1) : oriVolume b x = x.apply b.hi 0 - x.apply b.lo 0 := by
  unfold oriVolume LU.detDestructive volumeMatrix
  rw [if_pos rfl, dif_pos (by omega), XF.apply, XF.apply]
  simp only [applyMat_eq, Fin.sum_univ_one]
  change (b.hi 0 - b.lo 0) * x.mat (Fin.castSucc 0) (Fin.castSucc 0) = _
  ring

/-! ### Operators -/

/-- The points of a placed shape. -/
def Oriented.pts {S : Type} (pts : S → Set (Fin n → K)) (s : Oriented S K n) : Set (Fin n → K) := placed s.xf (pts s.shape)

variable {S : Type} (pts : S → Set (Fin n → K))

omit [LinearOrder K] [IsStrictOrderedRing K] in
theorem placed_mul {x y : XF K n} (hx : Wf x) (hy : Wf y) (P : Set (Fin n → K)) :
    placed (x.mul y) P = placed x (placed y P) := by
  have e : ∀ p, (x.mul y).apply p = x.apply (y.apply p) := by
    intro p
    rw [XF.mul, XF.applyXF, XF.apply, mulMat_eq, applyMat_mul hx.mat hy.mat]
    rfl
  ext q
  constructor
  · rintro ⟨p, hp, rfl⟩
    exact ⟨_, ⟨p, hp, rfl⟩, e p⟩
  · rintro ⟨_, ⟨p, hp, rfl⟩, rfl⟩
    exact ⟨p, hp, (e p).symm⟩

omit [LinearOrder K] [IsStrictOrderedRing K] in
theorem placed_undo {x : XF K n} (hx : Wf x) (P : Set (Fin n → K)) : placed x.inverse P = {p | x.apply p ∈ P} := by
  ext q
  exact placed_inverse (inverse_wf hx) P q

/-- **C54**: transforming a placed shape, by a new object or in place, gives the image of its points; transforming by `b` and
then by `a` is transforming by `a * b`. -/
theorem C54_mul (s : Oriented S K n) (hs : Wf s.xf) {a b : XF K n} (ha : Wf a) (hb : Wf b) (t : S) :
    (orient a t).pts pts = placed a (pts t) ∧ (Oriented.mul a s).pts pts = placed a (s.pts pts) ∧
    (Oriented.mul a (orient b t)).pts pts = (orient (a.mul b) t).pts pts ∧
    (Oriented.mul a (Oriented.mul b s)).pts pts = (Oriented.mul (a.mul b) s).pts pts := by
  refine ⟨rfl, placed_mul ha hs _, rfl, ?_⟩
  rw [Oriented.pts, Oriented.pts, Oriented.mul, Oriented.mul, Oriented.mul]
  simp only
  rw [placed_mul ha (mul_wf hb hs), placed_mul hb hs, placed_mul (mul_wf ha hb) hs, placed_mul ha hb]

/-- **C54**: dividing a placed shape by a transform gives the points whose images were in it. -/
theorem C54_div (s : Oriented S K n) (hs : Wf s.xf) {a : XF K n} (ha : Wf a) (t : S) :
    (unorient t a).pts pts = {p | a.apply p ∈ pts t} ∧ (s.div a).pts pts = {p | a.apply p ∈ s.pts pts} ∧
    (Oriented.mul a (s.div a)).pts pts = s.pts pts ∧ ((Oriented.mul a s).div a).pts pts = s.pts pts := by
  have h1 : ∀ P : Set (Fin n → K), placed (s.xf.div a) P = {p | a.apply p ∈ placed s.xf P} := by
    intro P
    rw [div_eq, placed_mul (inverse_wf ha) hs, placed_undo ha]
  refine ⟨placed_undo ha _, h1 _, ?_, ?_⟩
  · change placed (a.mul (s.xf.div a)) _ = placed s.xf _
    rw [placed_mul ha (div_wf hs ha), h1]
    ext q
    rw [placed_inverse ha]
    rw [Set.mem_setOf_eq, (wf_undo ha q).1.2]
    rfl
  · change placed ((a.mul s.xf).div a) _ = placed s.xf _
    rw [div_eq, placed_mul (inverse_wf ha) (mul_wf ha hs), placed_undo ha, placed_mul ha hs]
    ext q
    rw [Set.mem_setOf_eq, placed_inverse ha, (wf_undo ha q).1.1]
    rfl

/-- **C54**: in place.  The argument may be the placement of the shape itself for `*=`, not for `/=` (C41). -/
theorem C54_assign (t : S) (env : ℕ → XF K n) (he : ∀ k, Wf (env k)) (i j : ℕ) :
    (Oriented.mulAssign t env i j).pts pts = placed (env j) (placed (env i) (pts t)) ∧
    (i ≠ j → (Oriented.divAssign t env i j).pts pts = {p | (env j).apply p ∈ placed (env i) (pts t)}) := by
  constructor
  · rw [Oriented.mulAssign, Oriented.pts, mulAssign_eq]
    simp only [Function.update_self]
    exact placed_mul (he j) (he i) _
  · intro hij
    rw [Oriented.divAssign, Oriented.pts, divAssign_eq _ hij]
    simp only [Function.update_self]
    rw [div_eq, placed_mul (inverse_wf (he j)) (he i), placed_undo (he j)]

/-- **C54**: `oriented_bounds` encloses the placed shape. -/
theorem C54_oriented_bounds (P : Set (Fin n → K)) (b : Box K n) (hb : IsHull P b) {x : XF K n} :
    placed x P ⊆ (orientedBounds b x).pts Box.pts := by
  rintro _ ⟨p, hp, rfl⟩
  exact ⟨p, hb.1 hp, rfl⟩

/-! ### Concrete instances -/

/-- A unit square sheared and moved. -/
def shear : XF ℚ 2 := ⟨!![1, 1, 3; 0, 1, 0; 0, 0, 1], !![1, -1, -3; 0, 1, 0; 0, 0, 1]⟩
def square : Box ℚ 2 := ⟨![0, 0], ![1, 1]⟩

theorem shear_wf : Wf shear := by
  refine Wf.of_apply (isAffine2 rfl rfl rfl) (isAffine2 rfl rfl rfl) fun p => ?_
  rw [XF.apply, XF.applyInverse, applyMat2, applyMat2]
  ext i
  fin_cases i <;> simp [shear] <;> ring

example : oriRectBounds square shear = some ⟨![3, 0], ![5, 1]⟩ := by decide +kernel
example : oriContains square.contains shear ![9/2, 3/4] = true := by decide +kernel
example : oriContains square.contains shear ![3, 3/4] = false := by decide +kernel
example : oriRectSupport square shear ![1, -3] = ![4, 0] := by decide +kernel
example : (oriBounds square.support shear) = ⟨![3, 0], ![5, 1]⟩ := by decide +kernel

end Geomc.Shape
