import Verif.Hull.Model
import Verif.Geometry.Segments
import Mathlib.Analysis.Convex.Combination
import Mathlib.Algebra.BigOperators.Field
import Mathlib.Data.List.GetD

/-!
# C85: walls that can obstruct
-/

namespace Verif.Hull

open Verif.Py Verif.Geometry Matrix

variable {D : Nat} {F : Type}

/-! ## Specification -/

/-- A plane through `base` with direction `normal`. -/
structure Plane (D : Nat) where
  normal : Vec D
  base : Vec D

/-- Height of a point above a plane, in units of the length of the normal. -/
def Plane.height (h : Plane D) (p : Vec D) : ℝ := h.normal ⬝ᵥ (p - h.base)

/-- The point is on the side of the plane where the others are. -/
def Plane.Within (h : Plane D) (X : List (Vec D)) (p : Vec D) : Prop := ((∀ x ∈ X, 0 ≤ h.height x) → 0 ≤ h.height p) ∧ ((∀ x ∈ X, h.height x ≤ 0) → h.height p ≤ 0)

/-- Specification of the convex hull: all points are on one side of every face, and the points that are on the same side of all faces are in the hull. -/
structure IsHull (X : List (Vec D)) (faces : List (Plane D)) : Prop where
  side : ∀ h ∈ faces, (∀ x ∈ X, 0 ≤ h.height x) ∨ ∀ x ∈ X, h.height x ≤ 0
  complete : ∀ p, (∀ h ∈ faces, h.Within X p) → p ∈ convexHull ℝ {x | x ∈ X}

/-- The plane of a face in 2-D. -/
def plane2 (f : Vec 2 × Vec 2) : Plane 2 := ⟨![-(f.2 1 - f.1 1), f.2 0 - f.1 0], f.1⟩

/-- The plane of a face in 3-D. -/
def plane3 (f : Vec 3 × Vec 3 × Vec 3) : Plane 3 := ⟨crossProduct (f.2.1 - f.1) (f.2.2 - f.1), f.1⟩

/-! ## Heights -/

theorem height_affine (h : Plane D) (p q : Vec D) (t : ℝ) : h.height ((1 - t) • p + t • q) = (1 - t) * h.height p + t * h.height q := by
  unfold Plane.height
  have : (1 - t) • p + t • q - h.base = (1 - t) • (p - h.base) + t • (q - h.base) := by
    funext d
    simp only [Pi.sub_apply, Pi.add_apply, Pi.smul_apply, smul_eq_mul]
    ring
  rw [this, dotProduct_add, dotProduct_smul, dotProduct_smul, smul_eq_mul, smul_eq_mul]

theorem sum_nonpos : ∀ {l : List ℝ}, (∀ y ∈ l, y ≤ 0) → l.sum ≤ 0
  | [], _ => by simp
  | a :: l, h => by
    have h1 := h a List.mem_cons_self
    have h2 := sum_nonpos (l := l) fun y hy => h y (List.mem_cons_of_mem _ hy)
    rw [List.sum_cons]
    linarith

theorem height_mean (h : Plane D) {l : List (Vec D)} (hl : l ≠ []) : h.height (mean l) = (l.map h.height).sum / l.length := by
  have hn : (0 : ℝ) < l.length := by
    have := List.length_pos_iff.mpr hl
    exact_mod_cast this
  have hs : ∀ l : List (Vec D), (l.map h.height).sum = ∑ d, h.normal d * (l.map fun x => x d).sum - l.length * h.normal ⬝ᵥ h.base := by
    intro l
    induction l with
    | nil => simp
    | cons a l ih =>
      simp only [List.map_cons, List.sum_cons, List.length_cons, ih, mul_add, Finset.sum_add_distrib]
      unfold Plane.height
      rw [dotProduct_sub]
      unfold dotProduct
      push_cast
      ring
  rw [hs]
  unfold Plane.height mean
  rw [dotProduct_sub, sub_div, mul_div_cancel_left₀ _ hn.ne']
  congr 1
  unfold dotProduct
  rw [Finset.sum_div]
  exact Finset.sum_congr rfl fun d _ => by ring

theorem touch2_iff {eps : ℝ} (he : 0 < eps) (p : Vec 2) (f : Vec 2 × Vec 2) : touch2 eps p f = true ↔ |(plane2 f).height p| < eps := by
  have h : (plane2 f).height p = orient f.1 f.2 p := by
    simp [Plane.height, plane2, orient, dotProduct, Fin.sum_univ_two]
    ring
  rw [h]
  unfold touch2
  rw [decide_eq_true_iff]
  rcases ccw_cases he f.1 f.2 p with h1 | h1 | h1
  · exact iff_of_true h1.1 h1.2
  · rw [h1.1]
    refine iff_of_false (by norm_num) ?_
    rw [not_lt, le_abs]
    exact Or.inl h1.2
  · rw [h1.1]
    refine iff_of_false (by norm_num) ?_
    rw [not_lt, le_abs]
    right
    linarith [h1.2]

theorem touch3_iff {eps : ℝ} (p : Vec 3) (f : Vec 3 × Vec 3 × Vec 3) : touch3 eps p f = true ↔ |(plane3 f).height p| < eps := by
  unfold touch3
  rw [decide_eq_true_iff]
  have h : ∀ a b : Vec 3, cross a b = crossProduct a b := fun a b => by rw [cross_apply]; rfl
  rw [h]
  rfl

theorem plane2_through (f : Vec 2 × Vec 2) : (plane2 f).height f.1 = 0 ∧ (plane2 f).height f.2 = 0 := by
  constructor
  · simp [Plane.height, plane2]
  · simp [Plane.height, plane2, dotProduct, Fin.sum_univ_two]
    ring

theorem plane3_through (f : Vec 3 × Vec 3 × Vec 3) : (plane3 f).height f.1 = 0 ∧ (plane3 f).height f.2.1 = 0 ∧ (plane3 f).height f.2.2 = 0 := by
  refine ⟨by simp [Plane.height, plane3], ?_, ?_⟩
  · rw [Plane.height, plane3, dotProduct_comm]
    exact dot_self_cross _ _
  · rw [Plane.height, plane3, dotProduct_comm]
    exact dot_cross_self _ _

/-- The inner test measures the height. -/
def Measures (eps : ℝ) (touch : Vec D → F → Bool) (plane : F → Plane D) : Prop := ∀ p f, touch p f = true ↔ |(plane f).height p| < eps

theorem mem_corners {walls : List (List (Vec D))} (h0 : ∀ x ∈ walls.getD 0 [], x ∈ (walls.drop 1).flatten) {i : Nat} {x : Vec D} (hx : x ∈ walls.getD i []) : x ∈ (walls.drop 1).flatten := by
  rcases Nat.eq_zero_or_pos i with rfl | hi
  · exact h0 x hx
  · rw [List.mem_flatten]
    by_cases hl : i < walls.length
    · refine ⟨walls.getD i [], ?_, hx⟩
      rw [List.getD_eq_getElem _ _ hl, List.mem_drop_iff_getElem]
      exact ⟨i - 1, by omega, by congr 1; omega⟩
    · rw [List.getD_eq_default _ _ (by omega)] at hx
      exact absurd hx (List.not_mem_nil)

theorem find_ok {hull : List (Vec D) → List F} {touch : Vec D → F → Bool} {walls : List (List (Vec D))} {l : List Nat} (h : findNonConvex hull touch walls = .ok l) :
    1 < walls.length ∧ ∀ i, i ∈ l ↔ i < walls.length ∧ ∀ f ∈ hull (walls.drop 1).flatten, touch (mean (walls.getD i [])) f = false := by
  unfold findNonConvex at h
  split at h
  · exact nomatch h
  · rename_i hn
    rw [Except.ok.injEq] at h
    refine ⟨by omega, fun i => ?_⟩
    rw [← h]
    simp

/-! ## C85 -/

/-- **C85** A wall that is not listed lies flat in a face of the hull: all corners of the room are on one side of the plane of that face, and the corners of the wall are closer to it than the tolerance
times their number. -/
theorem C85_flat {eps : ℝ} {hull : List (Vec D) → List F} {touch : Vec D → F → Bool} {plane : F → Plane D} (ht : Measures eps touch plane) {walls : List (List (Vec D))}
    (hh : IsHull (walls.drop 1).flatten ((hull (walls.drop 1).flatten).map plane)) (h0 : ∀ x ∈ walls.getD 0 [], x ∈ (walls.drop 1).flatten) (hne : ∀ w ∈ walls, w ≠ []) {l : List Nat}
    (h : findNonConvex hull touch walls = .ok l) {i : Nat} (hi : i < walls.length) (hil : i ∉ l) :
    ∃ f ∈ hull (walls.drop 1).flatten, ((∀ x ∈ walls.flatten, 0 ≤ (plane f).height x) ∨ ∀ x ∈ walls.flatten, (plane f).height x ≤ 0) ∧
      ∀ x ∈ walls.getD i [], |(plane f).height x| < (walls.getD i []).length * eps := by
  obtain ⟨_, hl⟩ := find_ok h
  rw [hl i] at hil
  push Not at hil
  obtain ⟨f, hf, hft⟩ := hil hi
  rw [ne_eq, Bool.not_eq_false, ht] at hft
  have hw : walls.getD i [] ≠ [] := by
    rw [List.getD_eq_getElem _ _ hi]
    exact hne _ (List.getElem_mem hi)
  have hall : ∀ x ∈ walls.flatten, x ∈ (walls.drop 1).flatten := by
    intro x hx
    obtain ⟨w, hw, hxw⟩ := List.mem_flatten.mp hx
    obtain ⟨k, hk, rfl⟩ := List.mem_iff_getElem.mp hw
    exact mem_corners h0 (i := k) (by rw [List.getD_eq_getElem _ _ hk]; exact hxw)
  have hn : (0 : ℝ) < (walls.getD i []).length := by
    have := List.length_pos_iff.mpr hw
    exact_mod_cast this
  refine ⟨f, hf, ?_, ?_⟩
  · rcases hh.side _ (List.mem_map_of_mem hf) with hs | hs
    · exact Or.inl fun x hx => hs x (hall x hx)
    · exact Or.inr fun x hx => hs x (hall x hx)
  · rw [height_mean _ hw, abs_div, abs_of_pos hn, div_lt_iff₀ hn, mul_comm] at hft
    intro x hx
    refine lt_of_le_of_lt ?_ hft
    rcases hh.side _ (List.mem_map_of_mem hf) with hs | hs
    · have hnn : ∀ y ∈ (walls.getD i []).map (plane f).height, 0 ≤ y := by
        intro y hy
        obtain ⟨z, hz, rfl⟩ := List.mem_map.mp hy
        exact hs z (mem_corners h0 hz)
      rw [abs_of_nonneg (hs x (mem_corners h0 hx)), abs_of_nonneg (List.sum_nonneg hnn)]
      exact List.single_le_sum hnn _ (List.mem_map_of_mem hx)
    · have hnn : ∀ y ∈ (walls.getD i []).map fun x => -(plane f).height x, 0 ≤ y := by
        intro y hy
        obtain ⟨z, hz, rfl⟩ := List.mem_map.mp hy
        have := hs z (mem_corners h0 hz)
        linarith
      have hneg : ∀ l : List (Vec D), (l.map fun x => -(plane f).height x).sum = -(l.map (plane f).height).sum := by
        intro l
        induction l with
        | nil => simp
        | cons a l ih =>
          simp only [List.map_cons, List.sum_cons, ih]
          ring
      have hsum := List.sum_nonneg hnn
      have hx' := List.single_le_sum hnn _ (List.mem_map_of_mem hx)
      rw [hneg] at hsum hx'
      rw [abs_of_nonpos (hs x (mem_corners h0 hx)), abs_of_nonpos (by linarith)]
      exact hx'

/-- A point is deeper in the room than the tolerance allows the walls not listed to be. -/
def Deep (eps : ℝ) (walls : List (List (Vec D))) (planes : List (Plane D)) (p : Vec D) : Prop :=
  ∀ h ∈ planes, h.Within walls.flatten p ∧ ∀ w ∈ walls, w.length * eps ≤ |h.height p|

/-- **C85** Only the walls listed can stand between two points in the depth of the room: no point of the way between them is on a wall (in the hull of its corners) that is not listed. -/
theorem C85_only_listed {eps : ℝ} {hull : List (Vec D) → List F} {touch : Vec D → F → Bool} {plane : F → Plane D} (ht : Measures eps touch plane) {walls : List (List (Vec D))}
    (hh : IsHull (walls.drop 1).flatten ((hull (walls.drop 1).flatten).map plane)) (h0 : ∀ x ∈ walls.getD 0 [], x ∈ (walls.drop 1).flatten) (hne : ∀ w ∈ walls, w ≠ []) {l : List Nat}
    (h : findNonConvex hull touch walls = .ok l) {p q : Vec D} (hp : Deep eps walls ((hull (walls.drop 1).flatten).map plane) p) (hq : Deep eps walls ((hull (walls.drop 1).flatten).map plane) q)
    {t : ℝ} (ht0 : 0 ≤ t) (ht1 : t ≤ 1) {i : Nat} (hi : i < walls.length) (hx : (1 - t) • p + t • q ∈ convexHull ℝ {x | x ∈ walls.getD i []}) : i ∈ l := by
  by_contra hil
  obtain ⟨f, hf, hside, hflat⟩ := C85_flat ht hh h0 hne h hi hil
  have hpf := hp _ (List.mem_map_of_mem hf)
  have hqf := hq _ (List.mem_map_of_mem hf)
  have hwm : walls.getD i [] ∈ walls := by
    rw [List.getD_eq_getElem _ _ hi]
    exact List.getElem_mem hi
  have hp2 := hpf.2 _ hwm
  have hq2 := hqf.2 _ hwm
  set c := ((walls.getD i []).length : ℝ) * eps with hc
  have hconv : Convex ℝ {x : Vec D | |(plane f).height x| < c} := by
    intro x hx y hy a b ha hb hab
    have e : a = 1 - b := by linarith
    subst e
    simp only [Set.mem_ofPred_eq] at hx hy ⊢
    rw [height_affine]
    rw [abs_lt] at hx hy ⊢
    rcases eq_or_lt_of_le hb with hb0 | hb0
    · subst hb0
      simpa using hx
    · constructor
      · nlinarith
      · nlinarith
  have hin := convexHull_min (s := {x | x ∈ walls.getD i []}) (t := {x : Vec D | |(plane f).height x| < c}) (fun x hx => hflat x hx) hconv hx
  simp only [Set.mem_ofPred_eq] at hin
  rw [height_affine] at hin
  rcases hside with hs | hs
  · have h1 := hpf.1.1 hs
    have h2 := hqf.1.1 hs
    rw [abs_of_nonneg h1] at hp2
    rw [abs_of_nonneg h2] at hq2
    have := (abs_lt.mp hin).2
    nlinarith
  · have h1 := hpf.1.2 hs
    have h2 := hqf.1.2 hs
    rw [abs_of_nonpos h1] at hp2
    rw [abs_of_nonpos h2] at hq2
    have := (abs_lt.mp hin).1
    nlinarith

/-- **C85** The centre of a wall that is listed is inside the room: in every direction there is a corner beyond it. In particular no wall of a convex room is listed. -/
theorem C85_inner {eps : ℝ} (he : 0 < eps) {hull : List (Vec D) → List F} {touch : Vec D → F → Bool} {plane : F → Plane D} (ht : Measures eps touch plane) {walls : List (List (Vec D))}
    (hh : IsHull (walls.drop 1).flatten ((hull (walls.drop 1).flatten).map plane)) (h0 : ∀ x ∈ walls.getD 0 [], x ∈ (walls.drop 1).flatten) (hne : ∀ w ∈ walls, w ≠ []) {l : List Nat}
    (h : findNonConvex hull touch walls = .ok l) {i : Nat} (hil : i ∈ l) (v : Vec D) (hv : v ≠ 0) : ∃ x ∈ walls.flatten, v ⬝ᵥ mean (walls.getD i []) < v ⬝ᵥ x := by
  obtain ⟨_, hl⟩ := find_ok h
  rw [hl i] at hil
  obtain ⟨hi, hfar⟩ := hil
  have hw : walls.getD i [] ≠ [] := by
    rw [List.getD_eq_getElem _ _ hi]
    exact hne _ (List.getElem_mem hi)
  have hn : (0 : ℝ) < (walls.getD i []).length := by
    have := List.length_pos_iff.mpr hw
    exact_mod_cast this
  by_contra hcon
  push Not at hcon
  set m := mean (walls.getD i []) with hm
  set X := (walls.drop 1).flatten with hX
  have hXw : ∀ x ∈ X, x ∈ walls.flatten := by
    intro x hx
    obtain ⟨w, hw, hxw⟩ := List.mem_flatten.mp hx
    exact List.mem_flatten.mpr ⟨w, List.mem_of_mem_drop hw, hxw⟩
  let δ : ℝ := eps / (1 + ((hull X).map fun f => |(plane f).normal ⬝ᵥ v|).sum)
  have hSnn : ∀ y ∈ (hull X).map fun f => |(plane f).normal ⬝ᵥ v|, 0 ≤ y := by
    intro y hy
    obtain ⟨f, _, rfl⟩ := List.mem_map.mp hy
    exact abs_nonneg _
  have hS := List.sum_nonneg hSnn
  have hδ : 0 < δ := by positivity
  have hmem : m + δ • v ∈ convexHull ℝ {x | x ∈ X} := by
    apply hh.complete
    intro pl hpl
    obtain ⟨f, hf, rfl⟩ := List.mem_map.mp hpl
    have h1 := hfar f hf
    rw [← Bool.not_eq_true, ht, not_lt] at h1
    have h2 : |(plane f).normal ⬝ᵥ v| ≤ ((hull X).map fun f => |(plane f).normal ⬝ᵥ v|).sum := List.single_le_sum hSnn _ (List.mem_map_of_mem hf)
    have h3 : (plane f).height (m + δ • v) = (plane f).height m + δ * ((plane f).normal ⬝ᵥ v) := by
      unfold Plane.height
      rw [dotProduct_sub, dotProduct_sub, dotProduct_add, dotProduct_smul, smul_eq_mul]
      ring
    have h4 : |δ * ((plane f).normal ⬝ᵥ v)| ≤ eps := by
      rw [abs_mul, abs_of_pos hδ]
      calc δ * |(plane f).normal ⬝ᵥ v| ≤ δ * (1 + ((hull X).map fun f => |(plane f).normal ⬝ᵥ v|).sum) := by
            apply mul_le_mul_of_nonneg_left _ hδ.le
            linarith
        _ = eps := by
            simp only [δ]
            field_simp
    have h5 := abs_le.mp h4
    have hmean := height_mean (plane f) hw
    rw [← hm] at hmean
    rw [Plane.Within, h3]
    constructor
    · intro hs
      have : 0 ≤ (plane f).height m := by
        rw [hmean]
        apply div_nonneg _ hn.le
        apply List.sum_nonneg
        intro y hy
        obtain ⟨z, hz, rfl⟩ := List.mem_map.mp hy
        exact hs z (mem_corners h0 hz)
      rw [abs_of_nonneg this] at h1
      linarith
    · intro hs
      have : (plane f).height m ≤ 0 := by
        rw [hmean]
        apply div_nonpos_of_nonpos_of_nonneg _ hn.le
        apply sum_nonpos
        intro y hy
        obtain ⟨z, hz, rfl⟩ := List.mem_map.mp hy
        exact hs z (mem_corners h0 hz)
      rw [abs_of_nonpos this] at h1
      linarith
  have hconv : Convex ℝ {x : Vec D | v ⬝ᵥ x ≤ v ⬝ᵥ m} := by
    intro x hx y hy a b ha hb hab
    simp only [Set.mem_ofPred_eq] at hx hy ⊢
    rw [dotProduct_add, dotProduct_smul, dotProduct_smul, smul_eq_mul, smul_eq_mul]
    have e : a = 1 - b := by linarith
    subst e
    nlinarith
  have hin := convexHull_min (s := {x | x ∈ X}) (t := {x : Vec D | v ⬝ᵥ x ≤ v ⬝ᵥ m}) (fun x hx => hcon x (hXw x hx)) hconv hmem
  simp only [Set.mem_ofPred_eq] at hin
  rw [dotProduct_add, dotProduct_smul, smul_eq_mul] at hin
  have hvv : 0 < v ⬝ᵥ v := by
    have h1 : v ⬝ᵥ v ≠ 0 := fun h => hv (dotProduct_self_eq_zero.mp h)
    have h2 : 0 ≤ v ⬝ᵥ v := Finset.sum_nonneg fun d _ => mul_self_nonneg _
    exact lt_of_le_of_ne h2 h1.symm
  have := mul_pos hδ hvv
  linarith

/-- **C85** The tests of the code measure the height above the planes through the corners of the faces. -/
theorem C85_tests {eps : ℝ} (he : 0 < eps) : Measures eps (touch2 eps) plane2 ∧ Measures eps (touch3 eps) plane3 ∧ (∀ f, (plane2 f).height f.1 = 0 ∧ (plane2 f).height f.2 = 0) ∧
    ∀ f, (plane3 f).height f.1 = 0 ∧ (plane3 f).height f.2.1 = 0 ∧ (plane3 f).height f.2.2 = 0 :=
  ⟨fun p f => touch2_iff he p f, fun p f => touch3_iff p f, plane2_through, plane3_through⟩

/-- **C85** Of a room of one wall there is no hull. -/
theorem C85_single {hull : List (Vec D) → List F} {touch : Vec D → F → Bool} (w : List (Vec D)) : findNonConvex hull touch [w] = .error .valueError := rfl

/-! ## Examples -/

/-- A room with four corners, one of which points inwards. -/
def dart : List (List (Vec 2)) := [[![0, 0], ![4, 0]], [![4, 0], ![1, 1]], [![1, 1], ![0, 4]], [![0, 4], ![0, 0]]]

/-- The faces of its hull, a triangle. -/
def triangle : List (Vec 2 × Vec 2) := [(![0, 0], ![4, 0]), (![4, 0], ![0, 4]), (![0, 4], ![0, 0])]

theorem heights (p : Vec 2) : triangle.map (fun f => (plane2 f).height p) = [4 * p 1, 16 - 4 * p 0 - 4 * p 1, 4 * p 0] := by
  simp [triangle, Plane.height, plane2, dotProduct, Fin.sum_univ_two]
  ring

theorem dart_points (x : Vec 2) (hx : x ∈ (dart.drop 1).flatten) : x = ![4, 0] ∨ x = ![1, 1] ∨ x = ![0, 4] ∨ x = ![0, 0] := by
  simp [dart] at hx
  tauto

theorem height_faces {P : Plane 2 → Prop} (h1 : P (plane2 (![0, 0], ![4, 0]))) (h2 : P (plane2 (![4, 0], ![0, 4]))) (h3 : P (plane2 (![0, 4], ![0, 0]))) : ∀ h ∈ triangle.map plane2, P h := by
  intro h hh
  simp only [triangle, List.map_cons, List.map_nil, List.mem_cons, List.not_mem_nil, or_false] at hh
  rcases hh with rfl | rfl | rfl
  · exact h1
  · exact h2
  · exact h3

theorem height_a (p : Vec 2) : (plane2 (![0, 0], ![4, 0])).height p = 4 * p 1 := by
  simp [Plane.height, plane2, dotProduct, Fin.sum_univ_two]

theorem height_b (p : Vec 2) : (plane2 (![4, 0], ![0, 4])).height p = 16 - 4 * p 0 - 4 * p 1 := by
  simp [Plane.height, plane2, dotProduct, Fin.sum_univ_two]
  ring

theorem height_c (p : Vec 2) : (plane2 (![0, 4], ![0, 0])).height p = 4 * p 0 := by
  simp [Plane.height, plane2, dotProduct, Fin.sum_univ_two]

theorem dart_side : ∀ h ∈ triangle.map plane2, ∀ x ∈ (dart.drop 1).flatten, 0 ≤ h.height x := by
  apply height_faces
  all_goals
    intro x hx
    first | rw [height_a] | rw [height_b] | rw [height_c]
    rcases dart_points x hx with rfl | rfl | rfl | rfl <;> norm_num

/-- The triangle is the hull of the room. -/
theorem dart_hull : IsHull (dart.drop 1).flatten (triangle.map plane2) where
  side h hh := Or.inl (dart_side h hh)
  complete p hp := by
    have h1 := (hp _ (List.mem_map_of_mem (a := (![0, 0], ![4, 0])) (by simp [triangle]))).1 (dart_side _ (List.mem_map_of_mem (by simp [triangle])))
    have h2 := (hp _ (List.mem_map_of_mem (a := (![4, 0], ![0, 4])) (by simp [triangle]))).1 (dart_side _ (List.mem_map_of_mem (by simp [triangle])))
    have h3 := (hp _ (List.mem_map_of_mem (a := (![0, 4], ![0, 0])) (by simp [triangle]))).1 (dart_side _ (List.mem_map_of_mem (by simp [triangle])))
    rw [height_a] at h1
    rw [height_b] at h2
    rw [height_c] at h3
    have m : ∀ x ∈ (dart.drop 1).flatten, x ∈ convexHull ℝ {x | x ∈ (dart.drop 1).flatten} := fun x hx => subset_convexHull ℝ _ hx
    have c := convex_convexHull ℝ {x | x ∈ (dart.drop 1).flatten}
    have hsum := c.sum_mem (t := Finset.univ) (w := ![1 - p 0 / 4 - p 1 / 4, p 0 / 4, p 1 / 4]) (z := ![![0, 0], ![4, 0], ![0, 4]]) (by
      intro i _
      fin_cases i
      · simp
        linarith
      · simp
        linarith
      · simp
        linarith) (by simp [Fin.sum_univ_three]; ring) (by
      intro i _
      apply m
      fin_cases i <;> simp [dart])
    convert hsum using 1
    funext d
    fin_cases d <;> simp [Fin.sum_univ_three]

theorem dart_found : findNonConvex (fun _ => triangle) (touch2 (1 / 100000)) dart = .ok [1, 2] := by
  have key : ∀ p : Vec 2, (triangle.any (touch2 (1 / 100000) p)) = true ↔ |4 * p 1| < 1 / 100000 ∨ |16 - 4 * p 0 - 4 * p 1| < 1 / 100000 ∨ |4 * p 0| < 1 / 100000 := by
    intro p
    simp only [triangle, List.any_cons, List.any_nil, Bool.or_false, Bool.or_eq_true]
    rw [touch2_iff (by norm_num), touch2_iff (by norm_num), touch2_iff (by norm_num), height_a, height_b, height_c]
  have e0 : triangle.any (touch2 (1 / 100000) (mean (dart.getD 0 []))) = true := by
    rw [key]
    norm_num [mean, dart]
  have e1 : triangle.any (touch2 (1 / 100000) (mean (dart.getD 1 []))) = false := by
    rw [← Bool.not_eq_true, key]
    norm_num [mean, dart, abs_lt]
  have e2 : triangle.any (touch2 (1 / 100000) (mean (dart.getD 2 []))) = false := by
    rw [← Bool.not_eq_true, key]
    norm_num [mean, dart, abs_lt]
  have e3 : triangle.any (touch2 (1 / 100000) (mean (dart.getD 3 []))) = true := by
    rw [key]
    norm_num [mean, dart]
  unfold findNonConvex
  rw [if_neg (by simp [dart])]
  have hr : List.range dart.length = [0, 1, 2, 3] := rfl
  rw [hr]
  simp only [List.filter_cons, List.filter_nil, e0, e1, e2, e3]
  rfl

theorem dart_first : ∀ x ∈ dart.getD 0 [], x ∈ (dart.drop 1).flatten := by
  intro x hx
  simp [dart] at hx ⊢
  tauto

theorem dart_walls : ∀ w ∈ dart, w ≠ [] := by
  intro w hw
  simp [dart] at hw
  rcases hw with rfl | rfl | rfl | rfl <;> simp

/-- The hypotheses of `C85_flat` and `C85_inner` hold for the dart: the two walls at the inner corner are listed, the two others lie in the hull. -/
example (v : Vec 2) (hv : v ≠ 0) : ∃ x ∈ dart.flatten, v ⬝ᵥ mean (dart.getD 1 []) < v ⬝ᵥ x :=
  C85_inner (by norm_num) (C85_tests (by norm_num)).1 dart_hull dart_first dart_walls dart_found (by simp) v hv

example : ∃ f ∈ triangle, ((∀ x ∈ dart.flatten, 0 ≤ (plane2 f).height x) ∨ ∀ x ∈ dart.flatten, (plane2 f).height x ≤ 0) ∧ ∀ x ∈ dart.getD 3 [], |(plane2 f).height x| < (dart.getD 3 []).length * (1 / 100000) :=
  C85_flat (C85_tests (by norm_num)).1 dart_hull dart_first dart_walls dart_found (by simp [dart]) (by simp)

theorem dart_deep {p : Vec 2} (h0 : 1 / 10 ≤ p 0) (h1 : 1 / 10 ≤ p 1) (h2 : p 0 + p 1 ≤ 39 / 10) : Deep (1 / 100000) dart (triangle.map plane2) p := by
  have hlen : ∀ w ∈ dart, (w.length : ℝ) * (1 / 100000) ≤ 2 / 100000 := by
    intro w hw
    simp [dart] at hw
    rcases hw with rfl | rfl | rfl | rfl <;> norm_num
  have hpos : ∀ h : Plane 2, (∃ x ∈ dart.flatten, 0 < h.height x) → 2 / 100000 ≤ h.height p → h.Within dart.flatten p ∧ ∀ w ∈ dart, w.length * (1 / 100000) ≤ |h.height p| := by
    rintro h ⟨x, hx, hxp⟩ hp
    refine ⟨⟨fun _ => by linarith, fun hs => absurd (hs x hx) (by linarith)⟩, fun w hw => ?_⟩
    rw [abs_of_nonneg (by linarith)]
    exact (hlen w hw).trans hp
  apply height_faces
  · refine hpos _ ⟨![0, 4], by simp [dart], by rw [height_a]; norm_num⟩ ?_
    rw [height_a]
    linarith
  · refine hpos _ ⟨![0, 0], by simp [dart], by rw [height_b]; norm_num⟩ ?_
    rw [height_b]
    linarith
  · refine hpos _ ⟨![4, 0], by simp [dart], by rw [height_c]; norm_num⟩ ?_
    rw [height_c]
    linarith

/-- Between two points in the two arms of the dart there is a point of a listed wall. -/
example : 1 ∈ [1, 2] :=
  C85_only_listed (p := ![79 / 40, 1 / 10]) (q := ![79 / 40, 5 / 4]) (t := 1 / 2) (i := 1) (C85_tests (by norm_num)).1 dart_hull dart_first dart_walls dart_found
    (dart_deep (by norm_num) (by norm_num) (by norm_num)) (dart_deep (by norm_num) (by norm_num) (by norm_num)) (by norm_num) (by norm_num) (by simp [dart]) (by
      have c := convex_convexHull ℝ {x | x ∈ dart.getD 1 []}
      have h := c (subset_convexHull ℝ _ (by simp [dart] : (![4, 0] : Vec 2) ∈ {x | x ∈ dart.getD 1 []})) (subset_convexHull ℝ _ (by simp [dart] : (![1, 1] : Vec 2) ∈ {x | x ∈ dart.getD 1 []})) (a := 0.325) (b := 0.675) (by norm_num) (by norm_num) (by norm_num)
      convert h using 1
      funext d
      fin_cases d <;> norm_num)

end Verif.Hull
