import Verif.Geometry.Reflect
import Mathlib.Tactic.IntervalCases

/-!
# Intersections of segments: property C27 (first part)
-/

namespace Verif.Geometry

open Matrix

/-! ## Specification -/

/-- The point at parameter `t` of the line from `a` to `b`. -/
def lineAt {D : Nat} (a b : Vec D) (t : ℝ) : Vec D := a + t • (b - a)

/-- The segments have a common point. -/
def Meet (a1 a2 b1 b2 : Vec 2) : Prop :=
  ∃ s t : ℝ, 0 ≤ s ∧ s ≤ 1 ∧ 0 ≤ t ∧ t ≤ 1 ∧ lineAt a1 a2 s = lineAt b1 b2 t

/-- None of the three points is too close (in terms of the triangle area) to the line of the others. -/
def Clear (eps : ℝ) (a b c : Vec 2) : Prop := eps ≤ |orient a b c|

/-! ## Orientation -/

theorem ccw_cases {eps : ℝ} (he : 0 < eps) (p1 p2 p3 : Vec 2) :
    (ccw3p eps p1 p2 p3 = 0 ∧ |orient p1 p2 p3| < eps) ∨ (ccw3p eps p1 p2 p3 = 1 ∧ eps ≤ orient p1 p2 p3) ∨
    (ccw3p eps p1 p2 p3 = -1 ∧ orient p1 p2 p3 ≤ -eps) := by
  unfold ccw3p
  simp only
  generalize orient p1 p2 p3 = d
  by_cases h : d < eps ∧ d > -eps
  · rw [if_pos h]; exact Or.inl ⟨rfl, abs_lt.mpr ⟨h.2, h.1⟩⟩
  · rw [if_neg h]
    by_cases h1 : d > 0
    · rw [if_pos h1]
      right; left
      refine ⟨rfl, ?_⟩
      by_contra h2
      exact h ⟨by linarith, by linarith⟩
    · rw [if_neg h1]
      right; right
      refine ⟨rfl, ?_⟩
      by_contra h2
      exact h ⟨by linarith, by linarith⟩

theorem ccw_zero {eps : ℝ} (he : 0 < eps) (p1 p2 p3 : Vec 2) : ccw3p eps p1 p2 p3 = 0 ↔ ¬Clear eps p1 p2 p3 := by
  unfold Clear
  rw [not_le]
  rcases ccw_cases he p1 p2 p3 with ⟨h1, h2⟩ | ⟨h1, h2⟩ | ⟨h1, h2⟩
  · simp [h1, h2]
  · rw [h1]
    constructor
    · intro h; norm_num at h
    · intro h; rw [abs_lt] at h; linarith
  · rw [h1]
    constructor
    · intro h; norm_num at h
    · intro h; rw [abs_lt] at h; linarith

theorem orient_lineAt (a1 a2 b1 b2 : Vec 2) (t : ℝ) :
    orient a1 a2 (lineAt b1 b2 t) = (1 - t) * orient a1 a2 b1 + t * orient a1 a2 b2 := by
  unfold orient lineAt
  simp
  ring

theorem orient_lineAt_self (a1 a2 : Vec 2) (s : ℝ) : orient a1 a2 (lineAt a1 a2 s) = 0 := by
  unfold orient lineAt
  simp
  ring

/-- The common point parametrised on a segment whose ends are on different sides of the other line. -/
theorem frac_bounds {eps : ℝ} (he : 0 < eps) (p1 p2 x y : Vec 2) (h : ccw3p eps p1 p2 x ≠ ccw3p eps p1 p2 y) {E : ℝ}
    (hE : E = orient p1 p2 x - orient p1 p2 y) (hE0 : E ≠ 0) :
    -(eps / |E|) < orient p1 p2 x / E ∧ orient p1 p2 x / E < 1 + eps / |E| ∧
    (ccw3p eps p1 p2 x ≠ 0 → 0 < orient p1 p2 x / E) ∧ (ccw3p eps p1 p2 y ≠ 0 → orient p1 p2 x / E < 1) := by
  have hx := ccw_cases he p1 p2 x
  have hy := ccw_cases he p1 p2 y
  generalize orient p1 p2 x = u at *
  generalize orient p1 p2 y = v at *
  generalize ccw3p eps p1 p2 x = cx at *
  generalize ccw3p eps p1 p2 y = cy at *
  rcases lt_or_gt_of_ne hE0 with hneg | hpos
  · have habs : |E| = -E := abs_of_neg hneg
    have hup : u < eps := by
      rcases hx with ⟨h1, h2⟩ | ⟨h1, h2⟩ | ⟨h1, h2⟩
      · exact (abs_lt.mp h2).2
      · rcases hy with ⟨h3, h4⟩ | ⟨h3, h4⟩ | ⟨h3, h4⟩
        · rw [abs_lt] at h4; linarith
        · exact absurd (h1.trans h3.symm) h
        · linarith
      · linarith
    have hvl : -eps < v := by
      rcases hy with ⟨h1, h2⟩ | ⟨h1, h2⟩ | ⟨h1, h2⟩
      · exact (abs_lt.mp h2).1
      · linarith
      · rcases hx with ⟨h3, h4⟩ | ⟨h3, h4⟩ | ⟨h3, h4⟩
        · rw [abs_lt] at h4; linarith
        · linarith
        · exact absurd (h3.trans h1.symm) h
    rw [habs]
    refine ⟨?_, ?_, ?_, ?_⟩
    · rw [div_neg, neg_neg]
      exact div_lt_div_of_neg_of_lt hneg hup
    · rw [div_neg, ← sub_eq_add_neg, lt_sub_iff_add_lt, ← add_div, div_lt_one_of_neg hneg]
      linarith
    · intro hc
      rcases hx with ⟨h1, h2⟩ | ⟨h1, h2⟩ | ⟨h1, h2⟩
      · exact absurd h1 hc
      · linarith
      · exact div_pos_of_neg_of_neg (by linarith) hneg
    · intro hc
      rw [div_lt_one_of_neg hneg]
      rcases hy with ⟨h1, h2⟩ | ⟨h1, h2⟩ | ⟨h1, h2⟩
      · exact absurd h1 hc
      · linarith
      · linarith
  · have habs : |E| = E := abs_of_pos hpos
    have hup : -eps < u := by
      rcases hx with ⟨h1, h2⟩ | ⟨h1, h2⟩ | ⟨h1, h2⟩
      · exact (abs_lt.mp h2).1
      · linarith
      · rcases hy with ⟨h3, h4⟩ | ⟨h3, h4⟩ | ⟨h3, h4⟩
        · rw [abs_lt] at h4; linarith
        · linarith
        · exact absurd (h1.trans h3.symm) h
    have hvl : v < eps := by
      rcases hy with ⟨h1, h2⟩ | ⟨h1, h2⟩ | ⟨h1, h2⟩
      · exact (abs_lt.mp h2).2
      · rcases hx with ⟨h3, h4⟩ | ⟨h3, h4⟩ | ⟨h3, h4⟩
        · rw [abs_lt] at h4; linarith
        · exact absurd (h3.trans h1.symm) h
        · linarith
      · linarith
    rw [habs]
    refine ⟨?_, ?_, ?_, ?_⟩
    · rw [← neg_div]
      exact div_lt_div_of_pos_right hup hpos
    · rw [← sub_lt_iff_lt_add, ← sub_div, div_lt_one hpos]
      linarith
    · intro hc
      rcases hx with ⟨h1, h2⟩ | ⟨h1, h2⟩ | ⟨h1, h2⟩
      · exact absurd h1 hc
      · exact div_pos (by linarith) hpos
      · linarith
    · intro hc
      rw [div_lt_one hpos]
      rcases hy with ⟨h1, h2⟩ | ⟨h1, h2⟩ | ⟨h1, h2⟩
      · exact absurd h1 hc
      · linarith
      · linarith

theorem normal_dot (a1 a2 q : Vec 2) : (![a1 1 - a2 1, a2 0 - a1 0] : Vec 2) ⬝ᵥ (q - a1) = orient a1 a2 q := by
  simp [dotProduct, Fin.sum_univ_two, orient]
  ring

theorem denom_eq (a1 a2 b1 b2 : Vec 2) :
    (![a1 1 - a2 1, a2 0 - a1 0] : Vec 2) ⬝ᵥ (b2 - b1) = orient a1 a2 b2 - orient a1 a2 b1 := by
  simp [dotProduct, Fin.sum_univ_two, orient]
  ring

theorem orient_diff (a1 a2 b1 b2 : Vec 2) :
    orient b1 b2 a1 - orient b1 b2 a2 = orient a1 a2 b2 - orient a1 a2 b1 := by
  unfold orient; ring

/-! ## C27 -/

open Classical in
/-- **C27** If `intersection_2d_segments` reports an intersection, the point returned is the common point of the two lines, at
parameters `s` and `t`. Code 0: strictly inside both segments. In general it is outside of a segment by at
most `eps / |E|` of its length, where `E` is the cross product of the two segments, and only on the side of an
endpoint which is within the tolerance of the other line. -/
theorem C27_segments {eps : ℝ} (he : 0 < eps) (a1 a2 b1 b2 : Vec 2) (h : 0 ≤ (intersection2d eps a1 a2 b1 b2).1) :
    ∃ (q : Vec 2) (s t E : ℝ), intersection2d eps a1 a2 b1 b2 = ((intersection2d eps a1 a2 b1 b2).1, some q) ∧
      q = lineAt a1 a2 s ∧ q = lineAt b1 b2 t ∧
      E = (a2 0 - a1 0) * (b2 1 - b1 1) - (a2 1 - a1 1) * (b2 0 - b1 0) ∧ eps ≤ |E| ∧
      -(eps / |E|) < s ∧ s < 1 + eps / |E| ∧ -(eps / |E|) < t ∧ t < 1 + eps / |E| ∧
      (Clear eps b1 b2 a1 → 0 < s) ∧ (Clear eps b1 b2 a2 → s < 1) ∧
      (Clear eps a1 a2 b1 → 0 < t) ∧ (Clear eps a1 a2 b2 → t < 1) ∧
      ((intersection2d eps a1 a2 b1 b2).1 =
        (if Clear eps b1 b2 a1 ∧ Clear eps b1 b2 a2 then 0 else 1) + (if Clear eps a1 a2 b1 ∧ Clear eps a1 a2 b2 then 0 else 2)) := by
  classical
  set E := orient a1 a2 b2 - orient a1 a2 b1 with hE
  by_cases h1 : ccw3p eps a1 a2 b1 = ccw3p eps a1 a2 b2
  · exfalso
    unfold intersection2d checkIntersection2d at h
    simp only [h1, if_true] at h
    norm_num at h
  by_cases h2 : ccw3p eps b1 b2 a1 = ccw3p eps b1 b2 a2
  · exfalso
    unfold intersection2d checkIntersection2d at h
    simp only [h1, h2, if_true, if_false] at h
    norm_num at h
  have hcheck : checkIntersection2d eps a1 a2 b1 b2 =
      (if ccw3p eps b1 b2 a1 = 0 ∨ ccw3p eps b1 b2 a2 = 0 then 1 else 0) + (if ccw3p eps a1 a2 b1 = 0 ∨ ccw3p eps a1 a2 b2 = 0 then 2 else 0) := by
    unfold checkIntersection2d
    simp only [if_neg h1, if_neg h2]
  have hge : ¬checkIntersection2d eps a1 a2 b1 b2 < 0 := by
    rw [hcheck]; split_ifs <;> norm_num
  by_cases hd : |E| < eps
  · exfalso
    have : intersection2d eps a1 a2 b1 b2 = (-1, none) := by
      unfold intersection2d
      simp only
      rw [if_neg hge, denom_eq, if_pos hd]
    rw [this] at h
    norm_num at h
  have hE0 : E ≠ 0 := by
    intro h0
    rw [h0, abs_zero] at hd
    exact hd he
  have hval : intersection2d eps a1 a2 b1 b2 = (checkIntersection2d eps a1 a2 b1 b2,
      some (((-orient a1 a2 b1) / E) • (b2 - b1) + b1)) := by
    unfold intersection2d
    simp only
    rw [if_neg hge, denom_eq, if_neg hd]
    congr 4
    rw [← neg_sub b1 a1, dotProduct_neg, normal_dot]
  have ht := frac_bounds he a1 a2 b1 b2 h1 (E := -E) (by rw [hE]; ring) (neg_ne_zero.mpr hE0)
  have hs := frac_bounds he b1 b2 a1 a2 h2 (E := E) (by rw [hE]; exact (orient_diff a1 a2 b1 b2).symm) hE0
  rw [abs_neg, show orient a1 a2 b1 / -E = (-orient a1 a2 b1) / E by rw [div_neg, neg_div]] at ht
  refine ⟨((-orient a1 a2 b1) / E) • (b2 - b1) + b1, orient b1 b2 a1 / E, (-orient a1 a2 b1) / E, E, by rw [hval], ?_, ?_, ?_,
    not_lt.mp hd, hs.1, hs.2.1, ht.1, ht.2.1, ?_, ?_, ?_, ?_, ?_⟩
  · have key : ∀ i : Fin 2, -orient a1 a2 b1 * (b2 i - b1 i) + b1 i * E = a1 i * E + orient b1 b2 a1 * (a2 i - a1 i) := by
      intro i
      fin_cases i <;> simp [hE, orient] <;> ring
    ext i
    unfold lineAt
    simp only [Pi.add_apply, Pi.smul_apply, Pi.sub_apply, smul_eq_mul]
    field_simp
    have := key i
    linarith
  · unfold lineAt; abel
  · rw [hE]; unfold orient; ring
  · intro hc; exact hs.2.2.1 fun h0 => (ccw_zero he _ _ _).mp h0 hc
  · intro hc; exact hs.2.2.2 fun h0 => (ccw_zero he _ _ _).mp h0 hc
  · intro hc; exact ht.2.2.1 fun h0 => (ccw_zero he _ _ _).mp h0 hc
  · intro hc; exact ht.2.2.2 fun h0 => (ccw_zero he _ _ _).mp h0 hc
  · rw [hval]
    simp only
    rw [hcheck]
    simp only [ccw_zero he]
    congr 1
    · by_cases c1 : Clear eps b1 b2 a1 <;> by_cases c2 : Clear eps b1 b2 a2 <;> simp [c1, c2]
    · by_cases c1 : Clear eps a1 a2 b1 <;> by_cases c2 : Clear eps a1 a2 b2 <;> simp [c1, c2]

theorem not_meet_of_side {eps : ℝ} (he : 0 < eps) {a1 a2 b1 b2 : Vec 2} (h : ccw3p eps a1 a2 b1 = ccw3p eps a1 a2 b2)
    (hc : Clear eps a1 a2 b1) : ¬Meet a1 a2 b1 b2 := by
  rintro ⟨s, t, -, -, h0, h1, e⟩
  have e2 := congrArg (orient a1 a2) e
  rw [orient_lineAt_self, orient_lineAt] at e2
  have hne : ccw3p eps a1 a2 b1 ≠ 0 := fun h0 => (ccw_zero he _ _ _).mp h0 hc
  rcases ccw_cases he a1 a2 b1 with ⟨h3, h4⟩ | ⟨h3, h4⟩ | ⟨h3, h4⟩
  · exact hne h3
  · rcases ccw_cases he a1 a2 b2 with ⟨h5, h6⟩ | ⟨h5, h6⟩ | ⟨h5, h6⟩
    · exact hne (h.trans h5)
    · nlinarith [mul_nonneg h0 (by linarith : 0 ≤ orient a1 a2 b2 - eps), mul_nonneg (by linarith : (0:ℝ) ≤ 1 - t) (by linarith : 0 ≤ orient a1 a2 b1 - eps)]
    · rw [h3, h5] at h; norm_num at h
  · rcases ccw_cases he a1 a2 b2 with ⟨h5, h6⟩ | ⟨h5, h6⟩ | ⟨h5, h6⟩
    · exact hne (h.trans h5)
    · rw [h3, h5] at h; norm_num at h
    · nlinarith [mul_nonneg h0 (by linarith : 0 ≤ -eps - orient a1 a2 b2), mul_nonneg (by linarith : (0:ℝ) ≤ 1 - t) (by linarith : 0 ≤ -eps - orient a1 a2 b1)]

theorem meet_symm {a1 a2 b1 b2 : Vec 2} : Meet a1 a2 b1 b2 ↔ Meet b1 b2 a1 a2 := by
  constructor <;> rintro ⟨s, t, h1, h2, h3, h4, e⟩ <;> exact ⟨t, s, h3, h4, h1, h2, e.symm⟩

/-- **C27** Outside of the tolerance band the decision is exact: no endpoint within the tolerance of the other
line; then the code is 0 if the segments have a common point and -1 otherwise. -/
theorem C27_segments_exact {eps : ℝ} (he : 0 < eps) (a1 a2 b1 b2 : Vec 2) (h1 : Clear eps a1 a2 b1) (h2 : Clear eps a1 a2 b2)
    (h3 : Clear eps b1 b2 a1) (h4 : Clear eps b1 b2 a2) :
    (Meet a1 a2 b1 b2 → (intersection2d eps a1 a2 b1 b2).1 = 0) ∧
    (¬Meet a1 a2 b1 b2 → (intersection2d eps a1 a2 b1 b2).1 = -1) := by
  classical
  by_cases hge : 0 ≤ (intersection2d eps a1 a2 b1 b2).1
  · obtain ⟨q, s, t, E, _, q1, q2, _, _, _, _, _, _, s0, s1, t0, t1, hcode⟩ := C27_segments he a1 a2 b1 b2 hge
    refine ⟨fun _ => by rw [hcode, if_pos ⟨h3, h4⟩, if_pos ⟨h1, h2⟩, add_zero], fun hn => ?_⟩
    exact absurd ⟨s, t, (s0 h3).le, (s1 h4).le, (t0 h1).le, (t1 h2).le, by rw [← q1, ← q2]⟩ hn
  · -- the code is -1 in all other cases
    have key : (intersection2d eps a1 a2 b1 b2).1 = -1 ∧ ¬Meet a1 a2 b1 b2 := by
      by_cases e1 : ccw3p eps a1 a2 b1 = ccw3p eps a1 a2 b2
      · refine ⟨?_, not_meet_of_side he e1 h1⟩
        unfold intersection2d checkIntersection2d
        simp only [e1, if_true]
        norm_num
      by_cases e2 : ccw3p eps b1 b2 a1 = ccw3p eps b1 b2 a2
      · refine ⟨?_, fun hm => not_meet_of_side he e2 h3 (meet_symm.mp hm)⟩
        unfold intersection2d checkIntersection2d
        simp only [e1, e2, if_true, if_false]
        norm_num
      exfalso
      apply hge
      have hcheck : 0 ≤ checkIntersection2d eps a1 a2 b1 b2 := by
        unfold checkIntersection2d
        simp only [if_neg e1, if_neg e2]
        split_ifs <;> norm_num
      have hE : ¬|orient a1 a2 b2 - orient a1 a2 b1| < eps := by
        intro hlt
        rw [abs_lt] at hlt
        rcases ccw_cases he a1 a2 b1 with ⟨h5, h6⟩ | ⟨h5, h6⟩ | ⟨h5, h6⟩
        · exact (ccw_zero he _ _ _).mp h5 h1
        · rcases ccw_cases he a1 a2 b2 with ⟨h7, h8⟩ | ⟨h7, h8⟩ | ⟨h7, h8⟩
          · exact (ccw_zero he _ _ _).mp h7 h2
          · exact e1 (h5.trans h7.symm)
          · linarith
        · rcases ccw_cases he a1 a2 b2 with ⟨h7, h8⟩ | ⟨h7, h8⟩ | ⟨h7, h8⟩
          · exact (ccw_zero he _ _ _).mp h7 h2
          · linarith
          · exact e1 (h5.trans h7.symm)
      unfold intersection2d
      simp only
      rw [if_neg (by omega), denom_eq, if_neg hE]
      exact hcheck
    exact ⟨fun hm => absurd hm key.2, fun _ => key.1⟩

/-- Non-vacuity of C27: two diagonals of a square. -/
example : Meet ![0, 0] ![1, 1] ![0, 1] ![1, 0] ∧ Clear (1 / 100) (![0, 0] : Vec 2) ![1, 1] ![0, 1] ∧ Clear (1 / 100) (![0, 0] : Vec 2) ![1, 1] ![1, 0] ∧
    Clear (1 / 100) (![0, 1] : Vec 2) ![1, 0] ![0, 0] ∧ Clear (1 / 100) (![0, 1] : Vec 2) ![1, 0] ![1, 1] := by
  refine ⟨⟨1 / 2, 1 / 2, by norm_num, by norm_num, by norm_num, by norm_num, ?_⟩, ?_, ?_, ?_, ?_⟩
  · ext i; fin_cases i <;> simp [lineAt]; norm_num
  all_goals (simp [Clear, orient]; norm_num)

/-- **C27**, deviation: the tolerance applies to twice the area of a triangle, not to a distance. For every tolerance and every
distance `G` there are segments which are at least `G` apart for which an intersection is reported. -/
theorem C27_tolerance_deviation {eps : ℝ} (he : 0 < eps) {G : ℝ} (hG : 0 < G) :
    ∃ a1 a2 b1 b2 : Vec 2, 0 ≤ (intersection2d eps a1 a2 b1 b2).1 ∧
      ∀ s t : ℝ, 0 ≤ s → s ≤ 1 → 0 ≤ t → t ≤ 1 → G ≤ lineAt b1 b2 t 1 - lineAt a1 a2 s 1 := by
  have hGne : G ≠ 0 := ne_of_gt hG
  set l := 0.9 * eps / G with hl
  have hlG : l * G = 0.9 * eps := by rw [hl]; field_simp
  refine ⟨![0, 0], ![l, 0], ![0, G], ![0, 3 * G], ?_, ?_⟩
  · have o1 : orient ![0, 0] ![l, 0] ![0, G] = 0.9 * eps := by simp [orient]; exact hlG
    have o2 : orient ![0, 0] ![l, 0] ![0, 3 * G] = 2.7 * eps := by simp [orient]; linarith
    have o3 : orient ![0, G] ![0, 3 * G] ![0, 0] = 0 := by simp [orient]
    have o4 : orient ![0, G] ![0, 3 * G] ![l, 0] = -(1.8 * eps) := by simp [orient]; linarith
    have c1 : ccw3p eps ![0, 0] ![l, 0] ![0, G] = 0 := by
      unfold ccw3p; rw [o1]; simp only; rw [if_pos ⟨by linarith, by linarith⟩]
    have c2 : ccw3p eps ![0, 0] ![l, 0] ![0, 3 * G] = 1 := by
      unfold ccw3p; rw [o2]; simp only; rw [if_neg (by intro h; linarith [h.1]), if_pos (by linarith)]
    have c3 : ccw3p eps ![0, G] ![0, 3 * G] ![0, 0] = 0 := by
      unfold ccw3p; rw [o3]; simp only; rw [if_pos ⟨by linarith, by linarith⟩]
    have c4 : ccw3p eps ![0, G] ![0, 3 * G] ![l, 0] = -1 := by
      unfold ccw3p; rw [o4]; simp only; rw [if_neg (by intro h; linarith [h.2]), if_neg (by linarith)]
    have hcheck : checkIntersection2d eps ![0, 0] ![l, 0] ![0, G] ![0, 3 * G] = 3 := by
      unfold checkIntersection2d
      simp only [c1, c2, c3, c4]
      norm_num
    unfold intersection2d
    simp only
    rw [hcheck, if_neg (by norm_num), denom_eq, o1, o2, if_neg]
    · norm_num
    · rw [show 2.7 * eps - 0.9 * eps = 1.8 * eps by ring, abs_of_pos (by linarith)]; linarith
  · intro s t _ _ h0 _
    simp [lineAt]
    nlinarith

/-- **C27** Segment and plane: the point reported is on the plane and on the segment (extended by a fraction `eps` of its
length at both ends). Code 1 means that it is within that fraction of an end. -/
theorem C27_plane (eps : ℝ) (he : 0 ≤ eps) (a1 a2 p normal : Vec 3) (h : 0 ≤ (intersectionPlane eps a1 a2 p normal).1) :
    ∃ (q : Vec 3) (s : ℝ), intersectionPlane eps a1 a2 p normal = ((intersectionPlane eps a1 a2 p normal).1, some q) ∧
      q = lineAt a1 a2 s ∧ normal ⬝ᵥ (q - p) = 0 ∧ -eps ≤ s ∧ s ≤ 1 + eps ∧
      ((intersectionPlane eps a1 a2 p normal).1 = 1 ↔ |s| < eps ∨ |s - 1| < eps) ∧
      ((intersectionPlane eps a1 a2 p normal).1 = 0 ↔ (eps ≤ s ∧ s ≤ 1 - eps) ∨ (s = -eps ∧ s ≤ 1 - eps) ∨ (s = 1 + eps ∧ eps ≤ s)) := by
  unfold intersectionPlane at h ⊢
  simp only at h ⊢
  set denom := normal ⬝ᵥ (a2 - a1) with hden
  by_cases hd : |denom| > eps
  · rw [if_pos hd] at h ⊢
    set s := -(normal ⬝ᵥ (a1 - p)) / denom with hs
    by_cases hs01 : 0 - eps ≤ s ∧ s ≤ 1 + eps
    · rw [if_pos hs01] at h ⊢
      have hd0 : denom ≠ 0 := by
        intro h0; rw [h0, abs_zero] at hd; linarith
      refine ⟨s • (a2 - a1) + a1, s, rfl, by unfold lineAt; abel, ?_, by linarith [hs01.1], hs01.2, ?_, ?_⟩
      · rw [show s • (a2 - a1) + a1 - p = s • (a2 - a1) + (a1 - p) by abel, dotProduct_add, dotProduct_smul, ← hden, hs, smul_eq_mul]
        field_simp
        ring
      · simp only
        split_ifs with hc
        · simp [hc]
        · simp [hc]
      · simp only
        have key : (|s| < eps ∨ |s - 1| < eps) ↔ ¬((eps ≤ s ∧ s ≤ 1 - eps) ∨ (s = -eps ∧ s ≤ 1 - eps) ∨ (s = 1 + eps ∧ eps ≤ s)) := by
          constructor
          · rintro (h1 | h1)
            · rw [abs_lt] at h1
              rintro (h2 | h2 | h2)
              · linarith
              · linarith
              · linarith
            · rw [abs_lt] at h1
              rintro (h2 | h2 | h2)
              · linarith
              · linarith
              · linarith
          · intro hn
            by_contra hc
            push Not at hc
            obtain ⟨c1, c2⟩ := hc
            rw [le_abs] at c1 c2
            apply hn
            rcases c1 with c1 | c1
            · rcases c2 with c2 | c2
              · right; right; exact ⟨by linarith [hs01.2], c1⟩
              · left; exact ⟨c1, by linarith⟩
            · rcases c2 with c2 | c2
              · exfalso; linarith
              · right; left; exact ⟨by linarith [hs01.1], by linarith⟩
        split_ifs with hc
        · constructor
          · intro h; norm_num at h
          · intro h'; exact absurd h' (key.mp hc)
        · constructor
          · intro _; by_contra h'; exact hc (key.mpr h')
          · intro _; rfl
    · rw [if_neg hs01] at h; norm_num at h
  · rw [if_neg hd] at h; norm_num at h

/-- **C27** If no intersection is reported, no point of the segment is on the plane, unless the segment is parallel to the
plane within the tolerance. -/
theorem C27_plane_none {eps : ℝ} (he : 0 ≤ eps) (a1 a2 p normal : Vec 3) (h : (intersectionPlane eps a1 a2 p normal).1 < 0)
    (hpar : eps < |normal ⬝ᵥ (a2 - a1)|) {s : ℝ} (h0 : 0 ≤ s) (h1 : s ≤ 1) : normal ⬝ᵥ (lineAt a1 a2 s - p) ≠ 0 := by
  intro hs
  unfold intersectionPlane at h
  simp only at h
  rw [if_pos hpar] at h
  set denom := normal ⬝ᵥ (a2 - a1) with hden
  have hd0 : denom ≠ 0 := by
    intro h0; rw [h0, abs_zero] at hpar; linarith
  have hs' : -(normal ⬝ᵥ (a1 - p)) / denom = s := by
    unfold lineAt at hs
    rw [show a1 + s • (a2 - a1) - p = s • (a2 - a1) + (a1 - p) by abel, dotProduct_add, dotProduct_smul, ← hden, smul_eq_mul] at hs
    rw [div_eq_iff hd0]; linarith
  rw [hs', if_pos ⟨by linarith, by linarith⟩] at h
  simp only at h
  split_ifs at h <;> norm_num at h

/-- Non-vacuity of C27 (plane): a segment through a wall. -/
example : intersectionPlane (1 / 100) ![0, 0, 0] ![2, 0, 0] ![1, 5, 5] ![1, 0, 0] = (0, some ![1, 0, 0]) := by
  unfold intersectionPlane
  simp [dotProduct, Fin.sum_univ_three]
  norm_num

end Verif.Geometry
