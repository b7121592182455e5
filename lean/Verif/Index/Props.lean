import Verif.Index.Model
import Verif.Rect.Dist

/-!
# C59: pruning in the spatial index

An object is a set of points.  A box is tight around some objects if it contains their bounds and they reach all its faces.
-/

namespace Geomc.Index

open Geomc.Vec Geomc.Rect

variable {K : Type} {n : ℕ} {O : Type} [Field K] [LinearOrder K] [IsStrictOrderedRing K]

/-- The set `S` lies in the box and reaches each of its faces: the box is the smallest around it. -/
def Reaches (S : Set (Fin n → K)) (r : Box K n) : Prop :=
  S ⊆ r.pts ∧ ∀ i, (∃ x ∈ S, x i = r.lo i) ∧ ∃ x ∈ S, x i = r.hi i

theorem foldMin_le (f : Fin n → K) (l : List (Fin n)) (b : K) :
    l.foldl (fun res i => stdMin res (f i)) b ≤ b ∧ ∀ i ∈ l, l.foldl (fun res i => stdMin res (f i)) b ≤ f i := by
  induction l generalizing b with
  | nil => simp
  | cons a l ih =>
    obtain ⟨h1, h2⟩ := ih (stdMin b (f a))
    rw [List.foldl_cons]
    rw [stdMin_eq] at h1 h2 ⊢
    refine ⟨h1.trans (min_le_left _ _), fun i hi => ?_⟩
    rcases List.mem_cons.1 hi with rfl | hi
    · exact h1.trans (min_le_right _ _)
    · exact h2 i hi

theorem foldMin_eq (f : Fin n → K) (l : List (Fin n)) (b : K) :
    l.foldl (fun res i => stdMin res (f i)) b = b ∨ ∃ i ∈ l, l.foldl (fun res i => stdMin res (f i)) b = f i := by
  induction l generalizing b with
  | nil => simp
  | cons a l ih =>
    rw [List.foldl_cons]
    rcases ih (stdMin b (f a)) with h | ⟨i, hi, h⟩
    · rw [h, stdMin_eq]
      rcases min_choice b (f a) with h' | h'
      · exact .inl h'
      · exact .inr ⟨a, by simp, h'⟩
    · exact .inr ⟨i, by simp [hi], h⟩

theorem mag2_sub_comm (u v : Fin n → K) : mag2 (u - v) = mag2 (v - u) := by
  rw [← neg_sub v u, mag2_eq, mag2_eq, neg_dotProduct_neg]

/-- The distance along an axis to the farther face is the greatest, to the nearer face the least. -/
theorem far_ge (p x : Fin n → K) (r : Box K n) (i : Fin n) (h : r.lo i ≤ x i ∧ x i ≤ r.hi i) :
    |x i - p i| ≤ |farExtreme p r i - p i| := by
  unfold farExtreme
  split_ifs with h' <;> rw [abs_sub_comm (p i), abs_sub_comm (p i)] at h'
  · rcases abs_cases (x i - p i) with ⟨e, _⟩ | ⟨e, _⟩ <;> rcases abs_cases (r.lo i - p i) with ⟨e', _⟩ | ⟨e', _⟩ <;>
    rcases abs_cases (r.hi i - p i) with ⟨e'', _⟩ | ⟨e'', _⟩ <;> rw [e', e''] at h' <;> rw [e, e'] <;> linarith
  · rcases abs_cases (x i - p i) with ⟨e, _⟩ | ⟨e, _⟩ <;> rcases abs_cases (r.lo i - p i) with ⟨e', _⟩ | ⟨e', _⟩ <;>
    rcases abs_cases (r.hi i - p i) with ⟨e'', _⟩ | ⟨e'', _⟩ <;> rw [e', e''] at h' <;> rw [e, e''] <;> linarith

theorem near_or (p : Fin n → K) (r : Box K n) (i : Fin n) :
    (nearExtreme p r i = r.lo i ∧ farExtreme p r i = r.hi i) ∨ (nearExtreme p r i = r.hi i ∧ farExtreme p r i = r.lo i) := by
  unfold nearExtreme farExtreme
  split_ifs <;> simp

/-- **C59**: the worst case for a smallest box is an upper bound on the squared distance to the nearest of what the box is
around (unless it is the largest number of the type). -/
theorem C59_worst (big : K) (p : Fin n → K) (r : Box K n) (S : Set (Fin n → K)) (hS : Reaches S r) :
    worstCase big p r = big ∨ ∃ x ∈ S, mag2 (x - p) ≤ worstCase big p r := by
  rcases foldMin_eq (fun i => mag2 (Function.update (farExtreme p r) i (nearExtreme p r i) - p)) (List.finRange n) big with
    h | ⟨i, -, h⟩
  · exact .inl h
  · right
    obtain ⟨x, hx, e⟩ : ∃ x ∈ S, x i = nearExtreme p r i := by
      rcases near_or p r i with ⟨e, -⟩ | ⟨e, -⟩ <;> rw [e]
      · exact (hS.2 i).1
      · exact (hS.2 i).2
    refine ⟨x, hx, ?_⟩
    rw [worstCase, h]
    apply mag2_le
    intro j
    rw [Pi.sub_apply, Pi.sub_apply]
    by_cases hj : j = i
    · subst hj
      rw [Function.update_self, e]
    · rw [Function.update_of_ne hj]
      exact far_ge p x r j (mem_pts.1 (hS.1 hx) j)

/-- **C59**: and no smaller number is: something with the same box has nothing nearer. -/
theorem C59_worst_tight [NeZero n] (big : K) (p : Fin n → K) (r : Box K n) (hr : ∀ i, r.lo i ≤ r.hi i) :
    ∃ S, Reaches S r ∧ ∀ x ∈ S, worstCase big p r ≤ mag2 (x - p) := by
  have hm : ∀ i, (r.lo i ≤ farExtreme p r i ∧ farExtreme p r i ≤ r.hi i) ∧
      r.lo i ≤ nearExtreme p r i ∧ nearExtreme p r i ≤ r.hi i := by
    intro i
    have := hr i
    rcases near_or p r i with ⟨e, e'⟩ | ⟨e, e'⟩ <;> rw [e, e'] <;> simp [this]
  have hle : ∀ i, worstCase big p r ≤ mag2 (Function.update (farExtreme p r) i (nearExtreme p r i) - p) := fun i =>
    (foldMin_le (fun i => mag2 (Function.update (farExtreme p r) i (nearExtreme p r i) - p)) _ big).2 i (List.mem_finRange i)
  have hin : ∀ i, Function.update (farExtreme p r) i (nearExtreme p r i) ∈ r.pts := by
    intro i
    rw [mem_pts]
    intro j
    by_cases hj : j = i
    · subst hj
      rw [Function.update_self]
      exact (hm j).2
    · rw [Function.update_of_ne hj]
      exact (hm j).1
  refine ⟨insert (farExtreme p r) (Set.range fun i => Function.update (farExtreme p r) i (nearExtreme p r i)), ⟨?_, ?_⟩, ?_⟩
  · rintro x (rfl | ⟨i, rfl⟩)
    · exact mem_pts.2 fun i => (hm i).1
    · exact hin i
  · intro i
    rcases near_or p r i with ⟨e, e'⟩ | ⟨e, e'⟩
    · exact ⟨⟨_, .inr ⟨i, rfl⟩, by simp [e]⟩, ⟨_, .inl rfl, e'⟩⟩
    · exact ⟨⟨_, .inl rfl, e'⟩, ⟨_, .inr ⟨i, rfl⟩, by simp [e]⟩⟩
  · rintro x (rfl | ⟨i, rfl⟩)
    · refine (hle 0).trans (mag2_le fun j => ?_)
      rw [Pi.sub_apply, Pi.sub_apply]
      by_cases hj : j = 0
      · subst hj
        rw [Function.update_self]
        exact far_ge p (fun j => nearExtreme p r j) r 0 (hm 0).2
      · rw [Function.update_of_ne hj]
    · exact hle i

/-- **C59**: the distance to a box is a lower bound for everything in it. -/
theorem C59_lower (p : Fin n → K) (r : Box K n) (x : Fin n → K) (hx : x ∈ r.pts) : r.dist2 p ≤ mag2 (x - p) := by
  have hb : r.isEmpty = false := (not_empty_iff r).2 fun i => (mem_pts.1 hx i).1.trans (mem_pts.1 hx i).2
  rw [mag2_sub_comm]
  exact (C47_clip r hb p).2.1 x hx

/-- What the index is told of an object agrees with the set of points that it is. -/
structure Regular (h : Helper O K n) (S : O → Set (Fin n → K)) (p : Fin n → K) (o : O) : Prop where
  box : Reaches (S o) (h.bounds o)
  dist : IsLeast {x | ∃ q ∈ S o, x = mag2 (q - p)} (h.dist2 o p)

/-- Vectors are. -/
theorem vec_regular (p v : Fin n → K) : Regular vecHelper (fun v => {v}) p v := by
  refine ⟨⟨?_, fun i => ⟨⟨v, rfl, rfl⟩, ⟨v, rfl, rfl⟩⟩⟩, ⟨⟨v, rfl, rfl⟩, ?_⟩⟩
  · rintro x rfl
    exact ⟨le_refl _, le_refl _⟩
  · rintro x ⟨q, rfl, rfl⟩
    exact le_refl _

/-- And so are boxes. -/
theorem box_regular (p : Fin n → K) (b : Box K n) (hb : ∀ i, b.lo i ≤ b.hi i) : Regular boxHelper Box.pts p b := by
  refine ⟨⟨subset_rfl, fun i => ⟨⟨b.lo, ⟨le_refl _, hb⟩, rfl⟩, ⟨b.hi, ⟨hb, le_refl _⟩, rfl⟩⟩⟩, ?_⟩
  have := (C47_clip b ((not_empty_iff b).2 hb) p).2.2.2.1
  simp only [mag2_sub_comm] at this ⊢
  exact this

/-- The objects of a tree. -/
def objs : (d : ℕ) → Kd O K n d → List O
  | 0, l => l
  | _ + 1, .inl l => l
  | d + 1, .inr kids => kids.flatMap fun c => objs d c.2

/-- The box is the smallest around the bounds of the objects.  If there are none, the box has no worst case (in the code it
is the box from the largest to the smallest number, so the distances overflow). -/
def TightBox (h : Helper O K n) (big : K) (p : Fin n → K) (b : Box K n) (l : List O) : Prop :=
  (l = [] → worstCase big p b = big) ∧ (∀ o ∈ l, ∀ i, b.lo i ≤ (h.bounds o).lo i ∧ (h.bounds o).hi i ≤ b.hi i) ∧
  (l ≠ [] → ∀ i, (∃ o ∈ l, (h.bounds o).lo i = b.lo i) ∧ ∃ o ∈ l, (h.bounds o).hi i = b.hi i)

/-- A tree all of whose boxes are tight, with at most 16 children to a node. -/
def WellBoxed (h : Helper O K n) (big : K) (p : Fin n → K) : (d : ℕ) → Kd O K n d → Prop
  | 0, _ => True
  | _ + 1, .inl _ => True
  | d + 1, .inr kids => kids.length ≤ 16 ∧ ∀ c ∈ kids, TightBox h big p c.1 (objs d c.2) ∧ WellBoxed h big p d c.2

section Search
variable (h : Helper O K n) (S : O → Set (Fin n → K)) (big : K) (p : Fin n → K) (all : List O)

/-- What holds throughout a search. -/
def Inv (s : Srch O K) : Prop :=
  ((s.near = none ∧ s.best = big) ∨ ∃ o ∈ all, s.near = some o ∧ s.best = h.dist2 o p) ∧
  (s.worst = big ∨ ∃ o ∈ all, h.dist2 o p ≤ s.worst)

/-- What a search of some objects achieves. -/
def Done (l : List O) (s s' : Srch O K) : Prop :=
  Inv h big p all s' ∧ s'.best ≤ s.best ∧ s'.worst ≤ s.worst ∧ ∀ o ∈ l, s'.best ≤ h.dist2 o p ∨ s'.worst < h.dist2 o p

variable {h S big p all}

theorem scan_done (l : List O) (hl : ∀ o ∈ l, o ∈ all) (s : Srch O K) (hs : Inv h big p all s) :
    Done h big p all l s (scan h p l s) := by
  unfold scan
  induction l generalizing s with
  | nil => exact ⟨hs, le_refl _, le_refl _, by simp⟩
  | cons a l ih =>
    rw [List.foldl_cons]
    have ha := hl a (by simp)
    have hl' : ∀ o ∈ l, o ∈ all := fun o ho => hl o (by simp [ho])
    by_cases hd : h.dist2 a p < s.best
    · rw [if_pos hd]
      obtain ⟨i1, i2, i3, i4⟩ := ih hl' { s with near := some a, best := h.dist2 a p } ⟨.inr ⟨a, ha, rfl, rfl⟩, hs.2⟩
      refine ⟨i1, i2.trans hd.le, i3, fun o ho => ?_⟩
      rcases List.mem_cons.1 ho with rfl | ho
      · exact .inl i2
      · exact i4 o ho
    · rw [if_neg hd]
      obtain ⟨i1, i2, i3, i4⟩ := ih hl' s hs
      refine ⟨i1, i2, i3, fun o ho => ?_⟩
      rcases List.mem_cons.1 ho with rfl | ho
      · exact .inl (i2.trans (not_lt.1 hd))
      · exact i4 o ho

/-- The bounds that a tight box gives. -/
theorem tight_lower (b : Box K n) (l : List O) (ht : TightBox h big p b l) (o : O) (ho : o ∈ l) (hr : Regular h S p o) :
    b.dist2 p ≤ h.dist2 o p := by
  obtain ⟨q, hq, e⟩ := hr.dist.1
  rw [e]
  apply C59_lower
  have h1 := mem_pts.1 (hr.box.1 hq)
  exact mem_pts.2 fun i => ⟨(ht.2.1 o ho i).1.trans (h1 i).1, (h1 i).2.trans (ht.2.1 o ho i).2⟩

theorem tight_upper (b : Box K n) (l : List O) (ht : TightBox h big p b l) (hr : ∀ o ∈ l, Regular h S p o) :
    worstCase big p b = big ∨ ∃ o ∈ l, h.dist2 o p ≤ worstCase big p b := by
  by_cases hl : l = []
  · exact .inl (ht.1 hl)
  · have hR : Reaches {x | ∃ o ∈ l, x ∈ S o} b := by
      refine ⟨?_, fun i => ?_⟩
      · rintro x ⟨o, ho, hx⟩
        have h1 := mem_pts.1 ((hr o ho).box.1 hx)
        exact mem_pts.2 fun i => ⟨(ht.2.1 o ho i).1.trans (h1 i).1, (h1 i).2.trans (ht.2.1 o ho i).2⟩
      · obtain ⟨⟨o, ho, e⟩, ⟨o', ho', e'⟩⟩ := ht.2.2 hl i
        obtain ⟨x, hx, ex⟩ := ((hr o ho).box.2 i).1
        obtain ⟨x', hx', ex'⟩ := ((hr o' ho').box.2 i).2
        exact ⟨⟨x, ⟨o, ho, hx⟩, ex.trans e⟩, ⟨x', ⟨o', ho', hx'⟩, ex'.trans e'⟩⟩
    rcases C59_worst big p b _ hR with e | ⟨x, ⟨o, ho, hx⟩, e⟩
    · exact .inl e
    · exact .inr ⟨o, ho, ((hr o ho).dist.2 ⟨x, hx, rfl⟩).trans e⟩

theorem gather_done {T : Type} (ob : T → List O) (kids : List (Box K n × T)) (buf : List (T × K)) (s : Srch O K)
    (hlen : kids.length + buf.length ≤ 16) (hs : Inv h big p all s) (hreg : ∀ o ∈ all, Regular h S p o)
    (hk : ∀ c ∈ kids, TightBox h big p c.1 (ob c.2) ∧ ∀ o ∈ ob c.2, o ∈ all) :
    ∃ buf' s', gather big p s kids buf = some (buf', s') ∧ Inv h big p all s' ∧ s'.best = s.best ∧ s'.worst ≤ s.worst ∧
      (∀ x ∈ buf, x ∈ buf') ∧ (∀ x ∈ buf', x ∈ buf ∨ ∃ c ∈ kids, x = (c.2, c.1.dist2 p)) ∧
      ∀ c ∈ kids, (c.2, c.1.dist2 p) ∈ buf' ∨ ∀ o ∈ ob c.2, s.best ≤ h.dist2 o p ∨ s'.worst < h.dist2 o p := by
  induction kids generalizing buf s with
  | nil => exact ⟨buf, s, rfl, hs, rfl, le_refl _, fun _ h => h, fun _ h => .inl h, by simp⟩
  | cons c kids ih =>
    obtain ⟨b, t⟩ := c
    rw [List.length_cons] at hlen
    have hk' : ∀ c ∈ kids, TightBox h big p c.1 (ob c.2) ∧ ∀ o ∈ ob c.2, o ∈ all := fun c hc => hk c (by simp [hc])
    obtain ⟨ht, hall⟩ := hk (b, t) (by simp)
    have hs' : Inv h big p all { s with worst := stdMin s.worst (worstCase big p b) } := by
      refine ⟨hs.1, ?_⟩
      show stdMin s.worst (worstCase big p b) = big ∨ ∃ o ∈ all, h.dist2 o p ≤ stdMin s.worst (worstCase big p b)
      rw [stdMin_eq]
      rcases min_choice s.worst (worstCase big p b) with e | e <;> rw [e]
      · exact hs.2
      · rcases tight_upper b (ob t) ht (fun o ho => hreg o (hall o ho)) with e | ⟨o, ho, e⟩
        · exact .inl e
        · exact .inr ⟨o, hall o ho, e⟩
    have hw : stdMin s.worst (worstCase big p b) ≤ s.worst := by
      rw [stdMin_eq]
      exact min_le_left _ _
    rw [gather, if_neg (by omega)]
    by_cases hc : b.dist2 p < s.best ∧ b.dist2 p ≤ s.worst
    · rw [if_pos hc, if_neg (by omega)]
      obtain ⟨buf', s', e, i1, i2, i3, i4, i5, i6⟩ := ih ((t, b.dist2 p) :: buf) _ (by rw [List.length_cons]; omega) hs' hk'
      refine ⟨buf', s', e, i1, i2, i3.trans hw, fun x hx => i4 x (by simp [hx]), fun x hx => ?_, fun c hcm => ?_⟩
      · rcases i5 x hx with hx | ⟨c, hc, e⟩
        · rcases List.mem_cons.1 hx with rfl | hx
          · exact .inr ⟨(b, t), by simp, rfl⟩
          · exact .inl hx
        · exact .inr ⟨c, by simp [hc], e⟩
      · rcases List.mem_cons.1 hcm with rfl | hcm
        · exact .inl (i4 _ (by simp))
        · exact i6 c hcm
    · rw [if_neg hc]
      obtain ⟨buf', s', e, i1, i2, i3, i4, i5, i6⟩ := ih buf _ (by omega) hs' hk'
      refine ⟨buf', s', e, i1, i2, i3.trans hw, i4, fun x hx => ?_, fun c hcm => ?_⟩
      · rcases i5 x hx with hx | ⟨c, hc, e⟩
        · exact .inl hx
        · exact .inr ⟨c, by simp [hc], e⟩
      · rcases List.mem_cons.1 hcm with rfl | hcm
        · refine .inr fun o ho => ?_
          have hlow := tight_lower b (ob t) ht o ho (hreg o (hall o ho))
          rcases not_and_or.1 hc with hc | hc
          · exact .inl ((not_lt.1 hc).trans hlow)
          · exact .inr (((i3.trans hw).trans_lt (not_le.1 hc)).trans_le hlow)
        · exact i6 c hcm

theorem visit_done {T : Type} (ob : T → List O) (go : T → Srch O K → Option (Srch O K)) (buf : List (T × K)) (s : Srch O K)
    (hs : Inv h big p all s)
    (hgo : ∀ x ∈ buf, ∀ s, Inv h big p all s → ∃ s', go x.1 s = some s' ∧ Done h big p all (ob x.1) s s')
    (hlow : ∀ x ∈ buf, ∀ o ∈ ob x.1, x.2 ≤ h.dist2 o p) :
    ∃ s', visit go buf s = some s' ∧ Inv h big p all s' ∧ s'.best ≤ s.best ∧ s'.worst ≤ s.worst ∧
      ∀ x ∈ buf, ∀ o ∈ ob x.1, s'.best ≤ h.dist2 o p ∨ s'.worst < h.dist2 o p := by
  induction buf generalizing s with
  | nil => exact ⟨s, rfl, hs, le_refl _, le_refl _, by simp⟩
  | cons x buf ih =>
    obtain ⟨t, d⟩ := x
    have hgo' : ∀ x ∈ buf, ∀ s, Inv h big p all s → ∃ s', go x.1 s = some s' ∧ Done h big p all (ob x.1) s s' :=
      fun x hx => hgo x (by simp [hx])
    have hlow' : ∀ x ∈ buf, ∀ o ∈ ob x.1, x.2 ≤ h.dist2 o p := fun x hx => hlow x (by simp [hx])
    rw [visit]
    by_cases hc : d < s.best ∧ d ≤ s.worst
    · rw [if_pos hc]
      obtain ⟨s1, e1, j1, j2, j3, j4⟩ := hgo (t, d) (by simp) s hs
      obtain ⟨s2, e2, i1, i2, i3, i4⟩ := ih s1 j1 hgo' hlow'
      refine ⟨s2, by rw [e1]; exact e2, i1, i2.trans j2, i3.trans j3, fun x hx o ho => ?_⟩
      rcases List.mem_cons.1 hx with rfl | hx
      · rcases j4 o ho with j | j
        · exact .inl (i2.trans j)
        · exact .inr (i3.trans_lt j)
      · exact i4 x hx o ho
    · rw [if_neg hc]
      obtain ⟨s2, e2, i1, i2, i3, i4⟩ := ih s hs hgo' hlow'
      refine ⟨s2, e2, i1, i2, i3, fun x hx o ho => ?_⟩
      rcases List.mem_cons.1 hx with rfl | hx
      · have := hlow (t, d) (by simp) o ho
        rcases not_and_or.1 hc with hc | hc
        · exact .inl (i2.trans ((not_lt.1 hc).trans this))
        · exact .inr (i3.trans_lt ((not_le.1 hc).trans_le this))
      · exact i4 x hx o ho

theorem nearestIn_done (hreg : ∀ o ∈ all, Regular h S p o) (d : ℕ) (t : Kd O K n d) (ht : WellBoxed h big p d t)
    (hall : ∀ o ∈ objs d t, o ∈ all) (s : Srch O K) (hs : Inv h big p all s) :
    ∃ s', nearestIn h big p d t s = some s' ∧ Done h big p all (objs d t) s s' := by
  induction d generalizing s with
  | zero => exact ⟨_, rfl, scan_done t hall s hs⟩
  | succ d ih =>
    rcases t with l | kids
    · exact ⟨_, rfl, scan_done l hall s hs⟩
    · have hin : ∀ c ∈ kids, ∀ o ∈ objs d c.2, o ∈ all := fun c hc o ho =>
        hall o (List.mem_flatMap.2 ⟨c, hc, ho⟩)
      obtain ⟨buf, s1, e1, i1, i2, i3, -, i5, i6⟩ := gather_done (objs d) kids [] s (by simpa using ht.1) hs hreg
        fun c hc => ⟨(ht.2 c hc).1, hin c hc⟩
      have hb : ∀ x ∈ buf, ∃ c ∈ kids, x = (c.2, c.1.dist2 p) := fun x hx => (i5 x hx).resolve_left (by simp)
      obtain ⟨s2, e2, j1, j2, j3, j4⟩ := visit_done (objs d) (nearestIn h big p d) buf s1 i1
        (fun x hx s hs => by
          obtain ⟨c, hc, rfl⟩ := hb x hx
          exact ih c.2 (ht.2 c hc).2 (hin c hc) s hs)
        (fun x hx o ho => by
          obtain ⟨c, hc, rfl⟩ := hb x hx
          exact tight_lower c.1 _ (ht.2 c hc).1 o ho (hreg o (hin c hc o ho)))
      refine ⟨s2, by rw [nearestIn, e1]; exact e2, j1, j2.trans_eq i2, j3.trans i3, fun o ho => ?_⟩
      obtain ⟨c, hc, ho⟩ := List.mem_flatMap.1 ho
      rcases i6 c hc with hm | hm
      · exact j4 _ hm o ho
      · rcases hm o ho with hm | hm
        · exact .inl ((j2.trans_eq i2).trans hm)
        · exact .inr (j3.trans_lt hm)

end Search

omit [Field K] [IsStrictOrderedRing K] in
theorem exists_least (f : O → K) (l : List O) (hl : l ≠ []) : ∃ m ∈ l, ∀ o ∈ l, f m ≤ f o := by
  induction l with
  | nil => exact absurd rfl hl
  | cons a l ih =>
    by_cases hl : l = []
    · subst hl
      exact ⟨a, by simp, by simp⟩
    · obtain ⟨m, hm, hmin⟩ := ih hl
      rcases le_total (f a) (f m) with hle | hle
      · exact ⟨a, by simp, fun o ho => (List.mem_cons.1 ho).elim (fun e => e ▸ le_refl _) fun ho => hle.trans (hmin o ho)⟩
      · exact ⟨m, by simp [hm], fun o ho => (List.mem_cons.1 ho).elim (fun e => e ▸ hle) (hmin o)⟩

/-- **C59**: the search in a tree whose boxes are tight drops nothing that it should not: it returns a nearest object. -/
theorem C59_nearest (h : Helper O K n) (S : O → Set (Fin n → K)) (big : K) (p : Fin n → K) (d : ℕ) (t : Kd O K n d)
    (hreg : ∀ o ∈ objs d t, Regular h S p o) (ht : WellBoxed h big p d t) (hne : ∃ o ∈ objs d t, h.dist2 o p < big) :
    ∃ o ∈ objs d t, nearest h big p d t = some o ∧ ∀ o' ∈ objs d t, h.dist2 o p ≤ h.dist2 o' p := by
  obtain ⟨s, e, hi, -, -, hd⟩ := nearestIn_done hreg d t ht (fun _ h => h) ⟨none, big, big⟩ ⟨.inl ⟨rfl, rfl⟩, .inl rfl⟩
  obtain ⟨m, hm, hmin⟩ : ∃ m ∈ objs d t, ∀ o ∈ objs d t, h.dist2 m p ≤ h.dist2 o p := by
    obtain ⟨o, ho, -⟩ := hne
    exact exists_least (fun o => h.dist2 o p) _ (List.ne_nil_of_mem ho)
  have hmb : h.dist2 m p < big := by
    obtain ⟨o, ho, hb⟩ := hne
    exact (hmin o ho).trans_lt hb
  have hbest : s.best ≤ h.dist2 m p := by
    rcases hd m hm with h1 | h1
    · exact h1
    · rcases hi.2 with h2 | ⟨o, ho, h2⟩
      · rw [h2] at h1
        exact absurd h1 hmb.not_gt
      · exact absurd (h2.trans_lt h1) (hmin o ho).not_gt
  rcases hi.1 with ⟨-, hb⟩ | ⟨o, ho, hn, hb⟩
  · rw [hb] at hbest
    exact absurd hmb hbest.not_gt
  · refine ⟨o, ho, by rw [nearest, e]; exact hn, fun o' ho' => ?_⟩
    rw [← hb]
    exact hbest.trans (hmin o' ho')

end Geomc.Index
