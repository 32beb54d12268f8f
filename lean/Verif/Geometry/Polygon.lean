import Verif.Geometry.Segments
import Mathlib.Algebra.BigOperators.Group.List.Basic
import Mathlib.Algebra.BigOperators.Intervals
import Mathlib.Data.List.GetD
import Mathlib.Algebra.Order.BigOperators.Group.List

/-!
# Polygons: properties C27 (second part) and C28
-/

namespace Verif.Geometry

open Matrix Finset

/-! ## Closed polygons -/

section Cycle

variable {α M : Type} [AddCommGroup M]

/-- Consecutive pairs. -/
def pathEdges : List α → List (α × α)
  | a :: b :: t => (a, b) :: pathEdges (b :: t)
  | _ => []

/-- The edges of a closed polygon. -/
def edges : List α → List (α × α)
  | [] => []
  | a :: t => pathEdges (a :: t ++ [a])

/-- Sum over the consecutive pairs. -/
def pathSum (f : α → α → M) (l : List α) : M := ((pathEdges l).map fun e => f e.1 e.2).sum

/-- Sum over the edges of a closed polygon. -/
def closedSum (f : α → α → M) (l : List α) : M := ((edges l).map fun e => f e.1 e.2).sum

theorem pathSum_cons (f : α → α → M) (a b : α) (t : List α) : pathSum f (a :: b :: t) = f a b + pathSum f (b :: t) := by
  simp [pathSum, pathEdges]

theorem pathSum_single (f : α → α → M) (a : α) : pathSum f [a] = 0 := by simp [pathSum, pathEdges]

theorem closedSum_cons (f : α → α → M) (a : α) (t : List α) : closedSum f (a :: t) = pathSum f (a :: t ++ [a]) := rfl

theorem pathSum_append (f : α → α → M) (l1 : List α) (a : α) (l2 : List α) :
    pathSum f (l1 ++ a :: l2) = pathSum f (l1 ++ [a]) + pathSum f (a :: l2) := by
  induction l1 with
  | nil => simp [pathSum_single]
  | cons b l1 ih =>
    cases l1 with
    | nil => simp [pathSum_cons, pathSum_single]
    | cons c l1 =>
      simp only [List.cons_append] at ih ⊢
      rw [pathSum_cons, pathSum_cons, ih, add_assoc]

theorem pathSum_reverse (f : α → α → M) (hf : ∀ a b, f a b = -f b a) (l : List α) : pathSum f l.reverse = -pathSum f l := by
  induction l with
  | nil => simp [pathSum, pathEdges]
  | cons a l ih =>
    cases l with
    | nil => simp [pathSum_single]
    | cons b l =>
      rw [pathSum_cons, List.reverse_cons, List.reverse_cons, List.append_assoc, List.singleton_append, pathSum_append,
        ← List.reverse_cons, ih, pathSum_cons f b a [], pathSum_single, hf b a]
      abel

theorem closedSum_rotate (f : α → α → M) (l1 l2 : List α) : closedSum f (l1 ++ l2) = closedSum f (l2 ++ l1) := by
  cases l1 with
  | nil => simp
  | cons a l1 =>
    cases l2 with
    | nil => simp
    | cons b l2 =>
      rw [List.cons_append, List.cons_append, closedSum_cons, closedSum_cons]
      have e1 : a :: (l1 ++ b :: l2) ++ [a] = (a :: l1) ++ b :: (l2 ++ [a]) := by simp
      have e2 : b :: (l2 ++ a :: l1) ++ [b] = (b :: l2) ++ a :: (l1 ++ [b]) := by simp
      rw [e1, e2, pathSum_append f (a :: l1) b, pathSum_append f (b :: l2) a, add_comm]
      rfl

theorem closedSum_reverse (f : α → α → M) (hf : ∀ a b, f a b = -f b a) (l : List α) : closedSum f l.reverse = -closedSum f l := by
  cases l with
  | nil => simp [closedSum, edges]
  | cons a l =>
    rw [List.reverse_cons, closedSum_rotate, List.singleton_append, closedSum_cons, closedSum_cons, ← pathSum_reverse f hf]
    simp

theorem closedSum_split (f : α → α → M) (hf : ∀ a b, f a b = -f b a) (a : α) (l1 : List α) (b : α) (l2 : List α) :
    closedSum f (a :: l1 ++ b :: l2) = closedSum f (a :: l1 ++ [b]) + closedSum f (b :: l2 ++ [a]) := by
  rw [List.cons_append, List.cons_append, List.cons_append, closedSum_cons, closedSum_cons, closedSum_cons]
  have e1 : a :: (l1 ++ b :: l2) ++ [a] = (a :: l1) ++ b :: (l2 ++ [a]) := by simp
  have e2 : a :: (l1 ++ [b]) ++ [a] = (a :: l1) ++ b :: [a] := by simp
  have e3 : b :: (l2 ++ [a]) ++ [b] = (b :: l2) ++ a :: [b] := by simp
  rw [e1, e2, e3, pathSum_append f (a :: l1) b (l2 ++ [a]), pathSum_append f (a :: l1) b [a], pathSum_append f (b :: l2) a [b],
    pathSum_cons f b a [], pathSum_cons f a b [], pathSum_single, pathSum_single, hf b a]
  simp only [List.cons_append]
  abel

theorem closedSum_three (f : α → α → M) (a b c : α) : closedSum f [a, b, c] = f a b + f b c + f c a := by
  simp [closedSum, edges, pathEdges]; abel

theorem closedSum_fan (f : α → α → M) (hf : ∀ a b, f a b = -f b a) (a u : α) (l : List α) :
    closedSum f (a :: u :: l) = pathSum (fun u v => f a u + f u v + f v a) (u :: l) := by
  induction l generalizing u with
  | nil =>
    rw [pathSum_single, closedSum_cons]
    simp only [List.cons_append, List.nil_append, pathSum_cons, pathSum_single, hf u a]
    abel
  | cons v l ih =>
    rw [pathSum_cons, ← ih, closedSum_cons, closedSum_cons]
    simp only [List.cons_append, pathSum_cons, hf v a]
    abel

theorem closedSum_telescope (g : α → M) (l : List α) : closedSum (fun a b => g b - g a) l = 0 := by
  cases l with
  | nil => rfl
  | cons a l =>
    rw [closedSum_cons]
    have h : ∀ (b : α) (l : List α) (c : α), pathSum (fun a b => g b - g a) (b :: l ++ [c]) = g c - g b := by
      intro b l c
      induction l generalizing b with
      | nil => simp [pathSum_cons, pathSum_single]
      | cons d l ih =>
        simp only [List.cons_append] at ih ⊢
        rw [pathSum_cons, ih]; abel
    rw [h]; simp

theorem closedSum_congr {f g : α → α → M} {l : List α} (h : ∀ e ∈ edges l, f e.1 e.2 = g e.1 e.2) : closedSum f l = closedSum g l := by
  unfold closedSum
  rw [List.map_congr_left h]

theorem pathEdges_mem {l : List α} {e : α × α} (h : e ∈ pathEdges l) : e.1 ∈ l ∧ e.2 ∈ l := by
  induction l with
  | nil => simp [pathEdges] at h
  | cons a l ih =>
    cases l with
    | nil => simp [pathEdges] at h
    | cons b l =>
      rw [pathEdges, List.mem_cons] at h
      rcases h with h | h
      · subst h; simp
      · have := ih h
        exact ⟨List.mem_cons_of_mem _ this.1, List.mem_cons_of_mem _ this.2⟩

theorem edges_mem {l : List α} {e : α × α} (h : e ∈ edges l) : e.1 ∈ l ∧ e.2 ∈ l := by
  cases l with
  | nil => simp [edges] at h
  | cons a l =>
    have := pathEdges_mem h
    simp at this ⊢
    tauto

theorem pathEdges_start (b : α) (l : List α) (c v : α) (hv : v ∈ b :: l) : ∃ e ∈ pathEdges (b :: l ++ [c]), e.1 = v := by
  induction l generalizing b with
  | nil => simp at hv; subst hv; exact ⟨(v, c), by simp [pathEdges], rfl⟩
  | cons d l ih =>
    rw [List.mem_cons] at hv
    rcases hv with rfl | hv
    · exact ⟨(v, d), by simp [pathEdges], rfl⟩
    · obtain ⟨e, he, h⟩ := ih d hv
      exact ⟨e, by simp only [List.cons_append, pathEdges] at he ⊢; exact List.mem_cons_of_mem _ he, h⟩

theorem pathEdges_end (b : α) (l : List α) (c v : α) (hv : v ∈ l ++ [c]) : ∃ e ∈ pathEdges (b :: l ++ [c]), e.2 = v := by
  induction l generalizing b with
  | nil => simp at hv; subst hv; exact ⟨(b, v), by simp [pathEdges], rfl⟩
  | cons d l ih =>
    rw [List.cons_append, List.mem_cons] at hv
    rcases hv with rfl | hv
    · exact ⟨(b, v), by simp [pathEdges], rfl⟩
    · obtain ⟨e, he, h⟩ := ih d hv
      exact ⟨e, by simp only [List.cons_append, pathEdges] at he ⊢; exact List.mem_cons_of_mem _ he, h⟩

/-- Every corner is the start of an edge and the end of an edge. -/
theorem edges_both {l : List α} {v : α} (hv : v ∈ l) : (∃ e ∈ edges l, e.1 = v) ∧ ∃ e ∈ edges l, e.2 = v := by
  cases l with
  | nil => simp at hv
  | cons a l => exact ⟨pathEdges_start a l a v hv, pathEdges_end a l a v (by simp at hv ⊢; tauto)⟩

theorem pathSum_eq (f : α → α → M) (d : α) (l : List α) :
    pathSum f l = ∑ i ∈ range (l.length - 1), f (l.getD i d) (l.getD (i + 1) d) := by
  induction l with
  | nil => simp [pathSum, pathEdges]
  | cons a l ih =>
    cases l with
    | nil => simp [pathSum_single]
    | cons b l =>
      rw [pathSum_cons, ih, show (a :: b :: l).length - 1 = (b :: l).length - 1 + 1 by simp, Finset.sum_range_succ', add_comm]
      rfl

theorem closedSum_eq (f : α → α → M) (d : α) (l : List α) :
    closedSum f l = ∑ i ∈ range l.length, f (l.getD i d) (l.getD (if i = l.length - 1 then 0 else i + 1) d) := by
  cases l with
  | nil => simp [closedSum, edges]
  | cons a l =>
    rw [closedSum_cons, pathSum_eq f d, show (a :: l ++ [a]).length - 1 = (a :: l).length by simp]
    apply Finset.sum_congr rfl
    intro i hi
    rw [Finset.mem_range] at hi
    rw [List.getD_append _ _ _ _ hi]
    congr 1
    split_ifs with h
    · rw [List.getD_append_right _ _ _ _ (by omega), show i + 1 - (a :: l).length = 0 by omega]; rfl
    · rw [List.getD_append _ _ _ _ (by omega)]

theorem edges_map {β : Type} (g : α → β) (l : List α) : edges (l.map g) = (edges l).map fun e => (g e.1, g e.2) := by
  have hp : ∀ l : List α, pathEdges (l.map g) = (pathEdges l).map fun e => (g e.1, g e.2) := by
    intro l
    induction l with
    | nil => rfl
    | cons a l ih =>
      cases l with
      | nil => rfl
      | cons b l =>
        simp only [List.map_cons, pathEdges] at ih ⊢
        rw [ih]
  cases l with
  | nil => rfl
  | cons a l =>
    have := hp (a :: l ++ [a])
    simpa [edges] using this

end Cycle

/-! ## C28 -/

/-- The contribution of an edge to the area. -/
noncomputable def trap (a b : Vec 2) : ℝ := -((b 0 - a 0) * (0.5 * (b 1 + a 1)))

theorem trap_antisymm (a b : Vec 2) : trap a b = -trap b a := by unfold trap; ring

theorem area_eq (l : List (Vec 2)) : area2dPolygon l = closedSum trap l := by
  have hfold : ∀ (g : Nat → ℝ) (n : Nat), (List.range n).foldl (fun a c => a - g c) 0 = ∑ i ∈ range n, -g i := by
    intro g n
    induction n with
    | zero => rfl
    | succ n ih =>
      rw [List.range_succ, List.foldl_append, ih, Finset.sum_range_succ]
      simp [sub_eq_add_neg]
  unfold area2dPolygon
  simp only
  rw [hfold, closedSum_eq trap 0]
  rfl

/-- **C28** Triangles: half the cross product of two sides. -/
theorem C28_triangle (a b c : Vec 2) : area2dPolygon [a, b, c] = orient a b c / 2 := by
  rw [area_eq, closedSum_three]
  unfold trap orient
  ring

/-- **C28** Any polygon: the sum of the signed areas of the triangles spanned by the first corner and each of the other
edges. -/
theorem C28_fan (a u : Vec 2) (l : List (Vec 2)) :
    area2dPolygon (a :: u :: l) = pathSum (fun u v => orient a u v / 2) (u :: l) := by
  rw [area_eq, closedSum_fan trap trap_antisymm]
  unfold pathSum
  congr 1
  apply List.map_congr_left
  intro e _
  unfold trap orient
  ring

/-- **C28** Cutting along a diagonal adds the areas. -/
theorem C28_split (a : Vec 2) (l1 : List (Vec 2)) (b : Vec 2) (l2 : List (Vec 2)) :
    area2dPolygon (a :: l1 ++ b :: l2) = area2dPolygon (a :: l1 ++ [b]) + area2dPolygon (b :: l2 ++ [a]) := by
  rw [area_eq, area_eq, area_eq, closedSum_split trap trap_antisymm]

/-- **C28** The first corner is arbitrary. -/
theorem C28_cyclic (l1 l2 : List (Vec 2)) : area2dPolygon (l1 ++ l2) = area2dPolygon (l2 ++ l1) := by
  rw [area_eq, area_eq, closedSum_rotate]

/-- **C28** Reversing the corners changes the sign. -/
theorem C28_reverse (l : List (Vec 2)) : area2dPolygon l.reverse = -area2dPolygon l := by
  rw [area_eq, area_eq, closedSum_reverse trap trap_antisymm]

/-- **C28** Affine maps multiply the area by the determinant; in particular translations and rotations keep it and
mirror images change the sign. -/
theorem C28_affine (m00 m01 m10 m11 t0 t1 : ℝ) (l : List (Vec 2)) :
    area2dPolygon (l.map fun c => ![m00 * c 0 + m01 * c 1 + t0, m10 * c 0 + m11 * c 1 + t1]) =
      (m00 * m11 - m01 * m10) * area2dPolygon l := by
  cases l with
  | nil => simp [area2dPolygon]
  | cons a l =>
    cases l with
    | nil => simp [area2dPolygon]
    | cons u l =>
      rw [List.map_cons, List.map_cons, C28_fan, C28_fan]
      induction l generalizing u with
      | nil => simp [pathSum_single]
      | cons v l ih =>
        rw [List.map_cons, pathSum_cons, pathSum_cons, ih v, mul_add]
        congr 1
        simp [orient]
        ring

/-- **C28** Degenerate polygons have area zero. -/
theorem C28_degenerate (a b : Vec 2) : area2dPolygon [] = 0 ∧ area2dPolygon [a] = 0 ∧ area2dPolygon [a, b] = 0 := by
  refine ⟨?_, ?_, ?_⟩
  · simp [area2dPolygon]
  · simp [area2dPolygon]
  · rw [area_eq]
    simp [closedSum, edges, pathEdges, trap]
    ring

/-- Non-vacuity of C28: a rectangle and an L-shaped polygon. -/
example : area2dPolygon [![0, 0], ![3, 0], ![3, 2], ![0, 2]] = 6 ∧
    area2dPolygon [![0, 0], ![2, 0], ![2, 1], ![1, 1], ![1, 2], ![0, 2]] = 3 := by
  constructor <;> (rw [area_eq]; simp [closedSum, edges, pathEdges, trap]; norm_num)

/-! ## C27: points and polygons -/

/-- The point is within the tolerance of the line of an edge and in the box of the edge. -/
def NearEdge (eps : ℝ) (p : Vec 2) (e : Vec 2 × Vec 2) : Prop := ¬Clear eps e.1 e.2 p ∧ onSegment e.1 e.2 p

/-- The contribution of an edge to the winding number. -/
noncomputable def wind (eps : ℝ) (p a b : Vec 2) : Int :=
  if a 1 ≤ p 1 then (if b 1 > p 1 then (if isLeft eps a b p > 0 then 1 else 0) else 0)
  else (if b 1 ≤ p 1 then (if isLeft eps a b p < 0 then -1 else 0) else 0)

theorem isLeft_cases {eps : ℝ} (he : 0 < eps) (a b p : Vec 2) :
    (0 < isLeft eps a b p ↔ eps ≤ orient a b p) ∧ (isLeft eps a b p < 0 ↔ orient a b p ≤ -eps) := by
  unfold isLeft
  simp only
  generalize orient a b p = d
  by_cases h : |d| < eps
  · rw [if_pos h]
    rw [abs_lt] at h
    constructor <;> constructor <;> intro h2
    · norm_num at h2
    · linarith
    · norm_num at h2
    · linarith
  · rw [if_neg h]
    rw [abs_lt] at h
    by_cases h1 : d > 0
    · rw [if_pos h1]
      constructor <;> constructor <;> intro h2
      · by_contra h3; exact h ⟨by linarith, by linarith⟩
      · norm_num
      · norm_num at h2
      · linarith
    · rw [if_neg h1]
      constructor <;> constructor <;> intro h2
      · norm_num at h2
      · linarith
      · by_contra h3; exact h ⟨by linarith, by linarith⟩
      · norm_num

theorem orient_swap (a b p : Vec 2) : orient b a p = -orient a b p := by unfold orient; ring

theorem wind_antisymm {eps : ℝ} (he : 0 < eps) (p a b : Vec 2) : wind eps p a b = -wind eps p b a := by
  have h1 := isLeft_cases he a b p
  have h2 := isLeft_cases he b a p
  rw [orient_swap] at h2
  have h3 : 0 < isLeft eps a b p ↔ isLeft eps b a p < 0 := by
    rw [h1.1, h2.2]; constructor <;> intro h <;> linarith
  have h4 : isLeft eps a b p < 0 ↔ 0 < isLeft eps b a p := by
    rw [h1.2, h2.1]; constructor <;> intro h <;> linarith
  unfold wind
  simp only [gt_iff_lt, h3, h4]
  by_cases ha : a 1 ≤ p 1 <;> by_cases hb : b 1 ≤ p 1
  · rw [if_pos ha, if_pos hb, if_neg (not_lt.mpr hb), if_neg (not_lt.mpr ha)]; rfl
  · rw [if_pos ha, if_neg hb, if_pos (not_le.mp hb), if_pos ha]
    split_ifs <;> rfl
  · rw [if_neg ha, if_pos hb, if_pos hb, if_pos (not_le.mp ha)]
    split_ifs <;> rfl
  · rw [if_neg ha, if_neg hb, if_neg hb, if_neg ha]; rfl

theorem insideLoop_eq {eps : ℝ} (he : 0 < eps) (p cj : Vec 2) (l : List (Vec 2)) (wn : Int) :
    ((∃ e ∈ pathEdges (cj :: l), NearEdge eps p e) → insideLoop eps p cj l wn = 1) ∧
    ((¬∃ e ∈ pathEdges (cj :: l), NearEdge eps p e) →
      insideLoop eps p cj l wn = if wn + pathSum (wind eps p) (cj :: l) = 0 then -1 else 0) := by
  classical
  induction l generalizing cj wn with
  | nil => simp [pathEdges, insideLoop, pathSum]
  | cons ci l ih =>
    by_cases h : ccw3p eps cj ci p = 0 ∧ onSegment cj ci p
    · have hne : NearEdge eps p (cj, ci) := ⟨(ccw_zero he _ _ _).mp h.1, h.2⟩
      constructor
      · intro _
        rw [insideLoop, if_pos h]
      · intro hn
        exact absurd ⟨(cj, ci), by simp [pathEdges], hne⟩ hn
    · have hne : ¬NearEdge eps p (cj, ci) := fun hn => h ⟨(ccw_zero he _ _ _).mpr hn.1, hn.2⟩
      have hstep : insideLoop eps p cj (ci :: l) wn = insideLoop eps p ci l (wn + wind eps p cj ci) := by
        rw [insideLoop, if_neg h]
        congr 1
        unfold wind
        split_ifs <;> simp
        rfl
      have hex : (∃ e ∈ pathEdges (cj :: ci :: l), NearEdge eps p e) ↔ ∃ e ∈ pathEdges (ci :: l), NearEdge eps p e := by
        rw [pathEdges]
        constructor
        · rintro ⟨e, he, hn⟩
          rw [List.mem_cons] at he
          rcases he with rfl | he
          · exact absurd hn hne
          · exact ⟨e, he, hn⟩
        · rintro ⟨e, he, hn⟩
          exact ⟨e, List.mem_cons_of_mem _ he, hn⟩
      rw [hstep, hex, pathSum_cons, ← add_assoc]
      exact ih ci (wn + wind eps p cj ci)

theorem isInside_eq {eps : ℝ} (he : 0 < eps) (p : Vec 2) (l : List (Vec 2)) :
    ((∃ e ∈ edges l, NearEdge eps p e) → isInside2dPolygon eps p l = 1) ∧
    ((¬∃ e ∈ edges l, NearEdge eps p e) → isInside2dPolygon eps p l = if closedSum (wind eps p) l = 0 then -1 else 0) := by
  rcases List.eq_nil_or_concat' l with rfl | ⟨t, last, rfl⟩
  · simp [edges, isInside2dPolygon, closedSum]
  · have hl := insideLoop_eq he p last (t ++ [last]) 0
    have hin : isInside2dPolygon eps p (t ++ [last]) = insideLoop eps p last (t ++ [last]) 0 := by
      unfold isInside2dPolygon
      rw [List.getLast?_append]
      simp
    have hedge : ∀ e, e ∈ edges (t ++ [last]) ↔ e ∈ pathEdges (last :: (t ++ [last])) := by
      intro e
      cases t with
      | nil => rfl
      | cons a t =>
        have happ : ∀ (b : Vec 2) (l : List (Vec 2)) (x y : Vec 2), pathEdges (b :: l ++ [x] ++ [y]) = pathEdges (b :: l ++ [x]) ++ [(x, y)] := by
          intro b l x y
          induction l generalizing b with
          | nil => rfl
          | cons c l ih =>
            simp only [List.cons_append, pathEdges] at ih ⊢
            rw [ih]
        have : edges (a :: t ++ [last]) = pathEdges (a :: t ++ [last]) ++ [(last, a)] := happ a t last a
        rw [this]
        simp only [List.cons_append, pathEdges, List.mem_append, List.mem_cons]
        constructor <;> (intro h; simp at h ⊢; tauto)
    have hsum : closedSum (wind eps p) (t ++ [last]) = pathSum (wind eps p) (last :: (t ++ [last])) := by
      rw [closedSum_rotate]
      rfl
    rw [hin, hsum]
    simp only [hedge]
    simpa using hl

/-- **C27** Result 1 of `is_inside_2d_polygon` exactly if the point is near an edge. -/
theorem C27_polygon_boundary {eps : ℝ} (he : 0 < eps) (p : Vec 2) (l : List (Vec 2)) :
    isInside2dPolygon eps p l = 1 ↔ ∃ e ∈ edges l, NearEdge eps p e := by
  constructor
  · intro h
    by_contra hn
    rw [(isInside_eq he p l).2 hn] at h
    split_ifs at h <;> norm_num at h
  · exact (isInside_eq he p l).1

/-! ### Winding number of separated points -/

/-- Some line through `p` has all corners strictly on one side. -/
def Separated (p : Vec 2) (l : List (Vec 2)) : Prop :=
  ∃ n : Vec 2, ∀ v ∈ l, 0 < n 0 * (v 0 - p 0) + n 1 * (v 1 - p 1)

theorem wind_separated {eps : ℝ} (he : 0 < eps) {p : Vec 2} {l : List (Vec 2)} (hs : Separated p l)
    (hc : ∀ e ∈ edges l, Clear eps e.1 e.2 p) : closedSum (wind eps p) l = 0 := by
  obtain ⟨n, hn⟩ := hs
  have key : ∀ e ∈ edges l,
      (e.1 1 ≤ p 1 → p 1 < e.2 1 → n 0 ≠ 0 ∧ 0 < n 0 * orient e.1 e.2 p) ∧ (p 1 < e.1 1 → e.2 1 ≤ p 1 → n 0 ≠ 0 ∧ n 0 * orient e.1 e.2 p < 0) := by
    intro e hm
    have hu := hn _ (edges_mem hm).1
    have hv := hn _ (edges_mem hm).2
    constructor
    · intro h1 h2
      have hpos : 0 < n 0 * orient e.1 e.2 p := by
        unfold orient
        nlinarith [mul_pos hu (sub_pos.mpr h2), mul_nonneg (sub_nonneg.mpr h1) hv.le]
      exact ⟨fun h0 => by rw [h0] at hpos; simp at hpos, hpos⟩
    · intro h1 h2
      have hneg : n 0 * orient e.1 e.2 p < 0 := by
        unfold orient
        nlinarith [mul_pos hv (sub_pos.mpr h1), mul_nonneg (sub_nonneg.mpr h2) hu.le]
      exact ⟨fun h0 => by rw [h0] at hneg; simp at hneg, hneg⟩
  rcases lt_or_ge 0 (n 0) with hpos | hneg
  · -- all crossings count
    rw [closedSum_congr (g := fun a b => (if b 1 ≤ p 1 then (0 : Int) else 1) - (if a 1 ≤ p 1 then 0 else 1)),
      closedSum_telescope (fun v : Vec 2 => (if v 1 ≤ p 1 then (0 : Int) else 1))]
    intro e hm
    have hcl := hc e hm
    unfold Clear at hcl
    unfold wind
    by_cases h1 : e.1 1 ≤ p 1
    · rw [if_pos h1]
      by_cases h2 : e.2 1 > p 1
      · have := (mul_pos_iff_of_pos_left hpos).mp ((key e hm).1 h1 h2).2
        rw [abs_of_pos this] at hcl
        rw [if_pos h2, if_pos ((isLeft_cases he _ _ _).1.mpr hcl), if_neg (not_le.mpr h2), if_pos h1]; rfl
      · rw [if_neg h2, if_pos (not_lt.mp h2), if_pos h1]; rfl
    · rw [if_neg h1]
      by_cases h2 : e.2 1 ≤ p 1
      · have : orient e.1 e.2 p < 0 := by
          by_contra h3
          exact absurd (mul_nonneg hpos.le (not_lt.mp h3)) (not_le.mpr ((key e hm).2 (not_le.mp h1) h2).2)
        rw [abs_of_neg this] at hcl
        rw [if_pos h2, if_pos ((isLeft_cases he _ _ _).2.mpr (by linarith)), if_pos h2, if_neg h1]; rfl
      · rw [if_neg h2, if_neg h2, if_neg h1]; rfl
  · -- no crossing counts
    rw [closedSum_congr (g := fun _ _ => (0 : Int))]
    · simp [closedSum]
    intro e hm
    unfold wind
    by_cases h1 : e.1 1 ≤ p 1
    · rw [if_pos h1]
      by_cases h2 : e.2 1 > p 1
      · rw [if_pos h2, if_neg]
        rw [gt_iff_lt, (isLeft_cases he _ _ _).1]
        intro h3
        have := ((key e hm).1 h1 h2).2
        nlinarith
      · rw [if_neg h2]
    · rw [if_neg h1]
      by_cases h2 : e.2 1 ≤ p 1
      · rw [if_pos h2, if_neg]
        rw [(isLeft_cases he _ _ _).2]
        intro h3
        have := ((key e hm).2 (not_le.mp h1) h2).2
        nlinarith
      · rw [if_neg h2]

/-- **C27** A point which a line separates from all corners (outside of the convex hull) and which is not within the
tolerance of an edge line is reported outside, for any polygon. -/
theorem C27_polygon_separated {eps : ℝ} (he : 0 < eps) {p : Vec 2} {l : List (Vec 2)} (hs : Separated p l)
    (hc : ∀ e ∈ edges l, Clear eps e.1 e.2 p) : isInside2dPolygon eps p l = -1 := by
  rw [(isInside_eq he p l).2, wind_separated he hs hc, if_pos rfl]
  rintro ⟨e, hm, hn⟩
  exact hn.1 (hc e hm)

/-! ### Winding number of surrounded points -/

theorem exists_up {p : Vec 2} {l : List (Vec 2)} (hl : l ≠ []) (hleft : ∀ e ∈ edges l, 0 < orient e.1 e.2 p) :
    ∃ e ∈ edges l, e.1 1 ≤ p 1 ∧ p 1 < e.2 1 := by
  by_contra hno
  push Not at hno
  -- all corners are on the same side of the horizontal line
  have hside : (∀ v ∈ l, v 1 ≤ p 1) ∨ (∀ v ∈ l, p 1 < v 1) := by
    cases l with
    | nil => exact absurd rfl hl
    | cons a t =>
      have hprop : ∀ (b : Vec 2) (t : List (Vec 2)), (∀ e ∈ pathEdges (b :: t), e.1 1 ≤ p 1 → e.2 1 ≤ p 1) →
          b 1 ≤ p 1 → ∀ v ∈ b :: t, v 1 ≤ p 1 := by
        intro b t
        induction t generalizing b with
        | nil => intro _ h v hv; simp at hv; subst hv; exact h
        | cons c t ih =>
          intro h hb v hv
          rw [List.mem_cons] at hv
          rcases hv with rfl | hv
          · exact hb
          · exact ih c (fun e he => h e (by rw [pathEdges]; exact List.mem_cons_of_mem _ he))
              (h (b, c) (by simp [pathEdges]) hb) v hv
      by_cases ha : a 1 ≤ p 1
      · left
        intro v hv
        exact hprop a (t ++ [a]) hno ha v (by simp at hv ⊢; tauto)
      · right
        intro v hv
        by_contra hv2
        -- from v on, all corners would be low, but the polygon returns to a
        obtain ⟨s, t', hst⟩ := List.append_of_mem hv
        have hdrop : ∀ (s : List (Vec 2)) (e : Vec 2 × Vec 2) (r : List (Vec 2)), e ∈ pathEdges r → e ∈ pathEdges (s ++ r) := by
          intro s e r
          induction s with
          | nil => simp
          | cons c s ih =>
            intro h
            have h1 := ih h
            cases hsr : s ++ r with
            | nil => rw [hsr] at h1; simp [pathEdges] at h1
            | cons d u =>
              rw [List.cons_append, hsr, pathEdges]
              rw [hsr] at h1
              exact List.mem_cons_of_mem _ h1
        have h2 := hprop v (t' ++ [a]) (fun e he h => hno e (by
          show e ∈ pathEdges (a :: t ++ [a])
          rw [hst, List.append_assoc]
          exact hdrop s e _ he) h) (not_lt.mp hv2) a (by simp)
        exact ha h2
  have hstrict : (∀ v ∈ l, v 1 < p 1) ∨ (∀ v ∈ l, p 1 < v 1) := by
    rcases hside with h | h
    · left
      intro v hv
      rcases (h v hv).lt_or_eq with h1 | h1
      · exact h1
      · exfalso
        obtain ⟨⟨e, he, e1⟩, ⟨e', he', e1'⟩⟩ := edges_both hv
        have o1 := hleft e he
        have o2 := hleft e' he'
        have s1 := h _ (edges_mem he).2
        have s2 := h _ (edges_mem he').1
        rw [e1] at o1
        rw [e1'] at o2
        unfold orient at o1 o2
        rw [← h1] at s1 s2
        rw [← h1, sub_self, mul_zero, zero_sub] at o1
        have d1 : (p 0 - v 0) * (e.2 1 - v 1) < 0 := by linarith
        have d2 : 0 < (v 0 - p 0) * (v 1 - e'.1 1) := by rw [← h1] at o2; linarith
        have q1 : 0 < p 0 - v 0 := by nlinarith
        nlinarith
    · exact Or.inr h
  -- the slopes seen from the point are strictly monotone around the polygon
  have htel := closedSum_telescope (fun v : Vec 2 => (v 0 - p 0) / (v 1 - p 1)) l
  have hneg : ∀ e ∈ edges l, (e.2 0 - p 0) / (e.2 1 - p 1) - (e.1 0 - p 0) / (e.1 1 - p 1) < 0 := by
    intro e hm
    have o := hleft e hm
    have hprod : 0 < (e.1 1 - p 1) * (e.2 1 - p 1) := by
      rcases hstrict with h | h
      · have h1 := h _ (edges_mem hm).1
        have h2 := h _ (edges_mem hm).2
        nlinarith
      · have h1 := h _ (edges_mem hm).1
        have h2 := h _ (edges_mem hm).2
        nlinarith
    have n1 : e.1 1 - p 1 ≠ 0 := fun h0 => by rw [h0] at hprod; simp at hprod
    have n2 : e.2 1 - p 1 ≠ 0 := fun h0 => by rw [h0] at hprod; simp at hprod
    have : (e.2 0 - p 0) / (e.2 1 - p 1) - (e.1 0 - p 0) / (e.1 1 - p 1) = -orient e.1 e.2 p / ((e.1 1 - p 1) * (e.2 1 - p 1)) := by
      unfold orient; field_simp; ring
    rw [this]
    exact div_neg_of_neg_of_pos (by linarith) hprod
  obtain ⟨v, hv⟩ := List.exists_mem_of_ne_nil l hl
  obtain ⟨⟨e, he, _⟩, _⟩ := edges_both hv
  have hlt : closedSum (fun a b : Vec 2 => (b 0 - p 0) / (b 1 - p 1) - (a 0 - p 0) / (a 1 - p 1)) l < 0 := by
    unfold closedSum
    have hne : edges l ≠ [] := List.ne_nil_of_mem he
    have : ∀ L : List (Vec 2 × Vec 2), L ≠ [] → (∀ e ∈ L, (e.2 0 - p 0) / (e.2 1 - p 1) - (e.1 0 - p 0) / (e.1 1 - p 1) < 0) →
        (L.map fun e => (e.2 0 - p 0) / (e.2 1 - p 1) - (e.1 0 - p 0) / (e.1 1 - p 1)).sum < 0 := by
      intro L
      induction L with
      | nil => intro h; exact absurd rfl h
      | cons c L ih =>
        intro _ h
        rw [List.map_cons, List.sum_cons]
        have h1 := h c (by simp)
        by_cases hL : L = []
        · subst hL; simpa using h1
        · have := ih hL fun e he => h e (List.mem_cons_of_mem _ he)
          linarith
    exact this _ hne hneg
  rw [htel] at hlt
  exact lt_irrefl _ hlt

theorem wind_inside {eps : ℝ} (he : 0 < eps) {p : Vec 2} {l : List (Vec 2)} (hl : l ≠ []) (hleft : ∀ e ∈ edges l, eps ≤ orient e.1 e.2 p) :
    1 ≤ closedSum (wind eps p) l := by
  obtain ⟨e, hm, h1, h2⟩ := exists_up hl fun e hm => lt_of_lt_of_le he (hleft e hm)
  have hnn : ∀ e ∈ edges l, 0 ≤ wind eps p e.1 e.2 := by
    intro e hm
    have h3 : ¬isLeft eps e.1 e.2 p < 0 := by
      rw [(isLeft_cases he _ _ _).2]; intro h; have := hleft e hm; linarith
    unfold wind
    rw [if_neg h3]
    split_ifs <;> norm_num
  have hone : wind eps p e.1 e.2 = 1 := by
    unfold wind
    rw [if_pos h1, if_pos h2, if_pos ((isLeft_cases he _ _ _).1.mpr (hleft e hm))]
  unfold closedSum
  rw [← hone]
  exact List.single_le_sum (by
    intro x hx
    rw [List.mem_map] at hx
    obtain ⟨e', he', rfl⟩ := hx
    exact hnn e' he') _ (List.mem_map.mpr ⟨e, hm, rfl⟩)

/-- **C27** A point to the left of all edges (beyond the tolerance) is reported inside, for any polygon. -/
theorem C27_polygon_surrounded {eps : ℝ} (he : 0 < eps) {p : Vec 2} {l : List (Vec 2)} (hl : l ≠ [])
    (hleft : ∀ e ∈ edges l, eps ≤ orient e.1 e.2 p) : isInside2dPolygon eps p l = 0 := by
  have hw := wind_inside he hl hleft
  rw [(isInside_eq he p l).2, if_neg (by omega)]
  rintro ⟨e, hm, hn⟩
  apply hn.1
  unfold Clear
  have := hleft e hm
  rw [abs_of_pos (by linarith)]; exact this

theorem separated_of_edge {p : Vec 2} {l : List (Vec 2)} {a b : Vec 2} (hconv : ∀ v ∈ l, 0 ≤ orient a b v) (hp : orient a b p < 0) :
    Separated p l := by
  refine ⟨![-(b 1 - a 1), b 0 - a 0], ?_⟩
  intro v hv
  have := hconv v hv
  simp
  unfold orient at this hp
  nlinarith

/-- **C27** Convex polygons, corners counter-clockwise, point not within the tolerance of an edge line: 0 exactly if the point is
inside (to the left of all edges), else -1. -/
theorem C27_polygon_convex {eps : ℝ} (he : 0 < eps) {p : Vec 2} {l : List (Vec 2)} (hl : l ≠ [])
    (hconv : ∀ e ∈ edges l, ∀ v ∈ l, 0 ≤ orient e.1 e.2 v) (hc : ∀ e ∈ edges l, Clear eps e.1 e.2 p) :
    ((∀ e ∈ edges l, 0 < orient e.1 e.2 p) → isInside2dPolygon eps p l = 0) ∧
    ((¬∀ e ∈ edges l, 0 < orient e.1 e.2 p) → isInside2dPolygon eps p l = -1) := by
  constructor
  · intro h
    apply C27_polygon_surrounded he hl
    intro e hm
    have h1 := hc e hm
    unfold Clear at h1
    rwa [abs_of_pos (h e hm)] at h1
  · intro h
    push Not at h
    obtain ⟨e, hm, ho⟩ := h
    have h1 := hc e hm
    unfold Clear at h1
    have hneg : orient e.1 e.2 p < 0 := by
      rcases ho.lt_or_eq with h2 | h2
      · exact h2
      · rw [h2, abs_zero] at h1; linarith
    exact C27_polygon_separated he (separated_of_edge (hconv e hm) hneg) hc

/-- Non-vacuity of C27 (convex): a rectangle. -/
example : (∀ e ∈ edges ([![0, 0], ![2, 0], ![2, 1], ![0, 1]] : List (Vec 2)), ∀ v ∈ ([![0, 0], ![2, 0], ![2, 1], ![0, 1]] : List (Vec 2)), 0 ≤ orient e.1 e.2 v) ∧
    (∀ e ∈ edges ([![0, 0], ![2, 0], ![2, 1], ![0, 1]] : List (Vec 2)), Clear (1 / 100) e.1 e.2 ![1, 1 / 2]) ∧
    (∀ e ∈ edges ([![0, 0], ![2, 0], ![2, 1], ![0, 1]] : List (Vec 2)), 0 < orient e.1 e.2 ![1, 1 / 2]) := by
  simp [edges, pathEdges, orient, Clear]
  norm_num

/-- A triangulation of a polygon by diagonals. -/
inductive Triangulation : List (Vec 2) → List (Vec 2 × Vec 2 × Vec 2) → Prop
  | tri (a b c : Vec 2) : Triangulation [a, b, c] [(a, b, c)]
  | rotate (l1 l2 : List (Vec 2)) (ts) : Triangulation (l1 ++ l2) ts → Triangulation (l2 ++ l1) ts
  | cut (a b : Vec 2) (l1 l2 : List (Vec 2)) (ts1 ts2) : Triangulation (a :: l1 ++ [b]) ts1 → Triangulation (b :: l2 ++ [a]) ts2 →
      Triangulation (a :: l1 ++ b :: l2) (ts1 ++ ts2)

/-- The point is strictly inside the (counter-clockwise) triangle. -/
def InTriangle (p : Vec 2) (t : Vec 2 × Vec 2 × Vec 2) : Prop :=
  0 < orient t.1 t.2.1 p ∧ 0 < orient t.2.1 t.2.2 p ∧ 0 < orient t.2.2 t.1 p

/-- The point is not within the tolerance of the sides of the triangle. -/
def ClearTriangle (eps : ℝ) (p : Vec 2) (t : Vec 2 × Vec 2 × Vec 2) : Prop :=
  Clear eps t.1 t.2.1 p ∧ Clear eps t.2.1 t.2.2 p ∧ Clear eps t.2.2 t.1 p

theorem triangulation_sum {M : Type} [AddCommGroup M] (f : Vec 2 → Vec 2 → M) (hf : ∀ a b, f a b = -f b a) {l : List (Vec 2)} {ts}
    (h : Triangulation l ts) : closedSum f l = (ts.map fun t => closedSum f [t.1, t.2.1, t.2.2]).sum := by
  induction h with
  | tri a b c => simp
  | rotate l1 l2 ts _ ih => rw [closedSum_rotate, ih]
  | cut a b l1 l2 ts1 ts2 _ _ ih1 ih2 => rw [closedSum_split f hf, ih1, ih2]; simp

theorem triangulation_edges {l : List (Vec 2)} {ts} (h : Triangulation l ts) :
    ∀ e ∈ edges l, ∃ t ∈ ts, e ∈ edges [t.1, t.2.1, t.2.2] := by
  have happ : ∀ (b : Vec 2) (l : List (Vec 2)) (x : Vec 2) (m : List (Vec 2)), pathEdges (b :: l ++ x :: m) = pathEdges (b :: l ++ [x]) ++ pathEdges (x :: m) := by
    intro b l x m
    induction l generalizing b with
    | nil => simp [pathEdges]
    | cons c l ih =>
      simp only [List.cons_append, pathEdges] at ih ⊢
      rw [ih]
  induction h with
  | tri a b c => intro e he; exact ⟨_, List.mem_singleton.mpr rfl, he⟩
  | rotate l1 l2 ts _ ih =>
    intro e he
    apply ih
    cases l1 with
    | nil => simpa using he
    | cons a l1 =>
      cases l2 with
      | nil => simpa using he
      | cons b l2 =>
        have e1 : edges (b :: l2 ++ a :: l1) = pathEdges (b :: l2 ++ [a]) ++ pathEdges (a :: l1 ++ [b]) := by
          have := happ b l2 a (l1 ++ [b])
          simpa [edges] using this
        have e2 : edges (a :: l1 ++ b :: l2) = pathEdges (a :: l1 ++ [b]) ++ pathEdges (b :: l2 ++ [a]) := by
          have := happ a l1 b (l2 ++ [a])
          simpa [edges] using this
        rw [e1, List.mem_append] at he
        rw [e2, List.mem_append]
        tauto
  | cut a b l1 l2 ts1 ts2 _ _ ih1 ih2 =>
    intro e he
    have e1 : edges (a :: l1 ++ b :: l2) = pathEdges (a :: l1 ++ [b]) ++ pathEdges (b :: l2 ++ [a]) := by
      have := happ a l1 b (l2 ++ [a])
      simpa [edges] using this
    have e2 : edges (a :: l1 ++ [b]) = pathEdges (a :: l1 ++ [b]) ++ pathEdges [b, a] := by
      have := happ a l1 b [a]
      simpa [edges] using this
    have e3 : edges (b :: l2 ++ [a]) = pathEdges (b :: l2 ++ [a]) ++ pathEdges [a, b] := by
      have := happ b l2 a [b]
      simpa [edges] using this
    rw [e1, List.mem_append] at he
    rcases he with he | he
    · obtain ⟨t, ht, h⟩ := ih1 e (by rw [e2]; exact List.mem_append_left _ he)
      exact ⟨t, List.mem_append_left _ ht, h⟩
    · obtain ⟨t, ht, h⟩ := ih2 e (by rw [e3]; exact List.mem_append_left _ he)
      exact ⟨t, List.mem_append_right _ ht, h⟩

theorem tri_edges (t : Vec 2 × Vec 2 × Vec 2) (P : Vec 2 × Vec 2 → Prop) :
    (∀ e ∈ edges [t.1, t.2.1, t.2.2], P e) ↔ P (t.1, t.2.1) ∧ P (t.2.1, t.2.2) ∧ P (t.2.2, t.1) := by
  simp [edges, pathEdges]

theorem wind_triangle {eps : ℝ} (he : 0 < eps) {p : Vec 2} {t : Vec 2 × Vec 2 × Vec 2} (hpos : 0 ≤ orient t.1 t.2.1 t.2.2)
    (hc : ClearTriangle eps p t) :
    (InTriangle p t → 1 ≤ closedSum (wind eps p) [t.1, t.2.1, t.2.2]) ∧ (¬InTriangle p t → closedSum (wind eps p) [t.1, t.2.1, t.2.2] = 0) := by
  have hc' : ∀ e ∈ edges [t.1, t.2.1, t.2.2], Clear eps e.1 e.2 p := (tri_edges t _).mpr hc
  constructor
  · intro h
    apply wind_inside he (by simp)
    have h' : ∀ e ∈ edges [t.1, t.2.1, t.2.2], 0 < orient e.1 e.2 p := (tri_edges t _).mpr h
    intro e hm
    have h1 := hc' e hm
    unfold Clear at h1
    rwa [abs_of_pos (h' e hm)] at h1
  · intro h
    have h' : ¬∀ e ∈ edges [t.1, t.2.1, t.2.2], 0 < orient e.1 e.2 p := fun h2 => h ((tri_edges t _).mp h2)
    push Not at h'
    obtain ⟨e, hm, ho⟩ := h'
    have h1 := hc' e hm
    unfold Clear at h1
    have hneg : orient e.1 e.2 p < 0 := by
      rcases ho.lt_or_eq with h2 | h2
      · exact h2
      · rw [h2, abs_zero] at h1; linarith
    have hconv : ∀ e ∈ edges [t.1, t.2.1, t.2.2], ∀ v ∈ [t.1, t.2.1, t.2.2], 0 ≤ orient e.1 e.2 v := by
      rw [tri_edges]
      simp only [List.mem_cons, List.not_mem_nil, or_false]
      refine ⟨?_, ?_, ?_⟩ <;> (rintro v (rfl | rfl | rfl) <;> (unfold orient at hpos ⊢; nlinarith))
    exact wind_separated he (separated_of_edge (hconv e hm) hneg) hc'

/-- **C27** Any polygon cut by diagonals into counter-clockwise triangles (every simple polygon in counter-clockwise order has such a
triangulation), and a point not within the tolerance of their sides: 0 exactly if the point is in one of the
triangles, else -1. -/
theorem C27_polygon_triangulated {eps : ℝ} (he : 0 < eps) {p : Vec 2} {l : List (Vec 2)} {ts} (h : Triangulation l ts)
    (hpos : ∀ t ∈ ts, 0 ≤ orient t.1 t.2.1 t.2.2) (hc : ∀ t ∈ ts, ClearTriangle eps p t) :
    ((∃ t ∈ ts, InTriangle p t) → isInside2dPolygon eps p l = 0) ∧ ((¬∃ t ∈ ts, InTriangle p t) → isInside2dPolygon eps p l = -1) := by
  have hnear : ¬∃ e ∈ edges l, NearEdge eps p e := by
    rintro ⟨e, hm, hn⟩
    obtain ⟨t, ht, hmt⟩ := triangulation_edges h e hm
    exact hn.1 ((tri_edges t (fun e => Clear eps e.1 e.2 p)).mpr (hc t ht) e hmt)
  rw [(isInside_eq he p l).2 hnear, triangulation_sum _ (wind_antisymm he p) h]
  have hnn : ∀ t ∈ ts, 0 ≤ closedSum (wind eps p) [t.1, t.2.1, t.2.2] := by
    intro t ht
    by_cases hi : InTriangle p t
    · have := (wind_triangle he (hpos t ht) (hc t ht)).1 hi; omega
    · rw [(wind_triangle he (hpos t ht) (hc t ht)).2 hi]
  constructor
  · rintro ⟨t, ht, hi⟩
    rw [if_neg]
    have h1 := (wind_triangle he (hpos t ht) (hc t ht)).1 hi
    have h2 : closedSum (wind eps p) [t.1, t.2.1, t.2.2] ≤ (ts.map fun t => closedSum (wind eps p) [t.1, t.2.1, t.2.2]).sum := by
      apply List.single_le_sum
      · intro x hx
        rw [List.mem_map] at hx
        obtain ⟨t', ht', rfl⟩ := hx
        exact hnn t' ht'
      · exact List.mem_map.mpr ⟨t, ht, rfl⟩
    omega
  · intro hno
    rw [if_pos]
    have : (ts.map fun t => closedSum (wind eps p) [t.1, t.2.1, t.2.2]) = ts.map fun _ => (0 : Int) := by
      apply List.map_congr_left
      intro t ht
      exact (wind_triangle he (hpos t ht) (hc t ht)).2 fun hi => hno ⟨t, ht, hi⟩
    rw [this]; simp

/-- Non-vacuity of C27 (triangulation): an L-shaped hexagon. -/
example : Triangulation [![0, 0], ![2, 0], ![2, 1], ![1, 1], ![1, 2], ![0, 2]]
    [(![0, 0], ![2, 0], ![2, 1]), (![2, 1], ![1, 1], ![0, 0]), (![1, 1], ![1, 2], ![0, 2]), (![0, 2], ![0, 0], ![1, 1])] := by
  have t1 := Triangulation.tri ![0, 0] ![2, 0] ![2, 1]
  have t2 := Triangulation.tri ![2, 1] ![1, 1] ![0, 0]
  have q1 := Triangulation.cut ![0, 0] ![2, 1] [![2, 0]] [![1, 1]] _ _ t1 t2
  have t3 := Triangulation.tri ![1, 1] ![1, 2] ![0, 2]
  have t4 := Triangulation.tri ![0, 2] ![0, 0] ![1, 1]
  have q2 := Triangulation.cut ![1, 1] ![0, 2] [![1, 2]] [![0, 0]] _ _ t3 t4
  have q2' := Triangulation.rotate [![1, 1], ![1, 2], ![0, 2]] [![0, 0]] _ q2
  have q2'' := Triangulation.rotate [![0, 0]] [![1, 1], ![1, 2], ![0, 2]] _ q2'
  exact Triangulation.cut ![0, 0] ![1, 1] [![2, 0], ![2, 1]] [![1, 2], ![0, 2]] _ _ q1 q2''

end Verif.Geometry
