import Verif.Shoebox.Model
import Mathlib.Algebra.BigOperators.Intervals
import Mathlib.Tactic.Ring
import Mathlib.Tactic.Linarith
import Mathlib.Tactic.LinearCombination
import Mathlib.Tactic.Positivity

/-! Helper lemmas for the shoebox model. -/

namespace Verif.Shoebox

theorem mem_irange {lo hi x : Int} : x ∈ irange lo hi ↔ lo ≤ x ∧ x ≤ hi := by
  unfold irange
  simp only [List.mem_map, List.mem_range]
  constructor
  · rintro ⟨k, hk, rfl⟩; omega
  · rintro ⟨h1, h2⟩; exact ⟨(x - lo).toNat, by omega, by omega⟩

theorem nodup_irange (lo hi : Int) : (irange lo hi).Nodup := by
  unfold irange
  apply List.Nodup.map _ List.nodup_range
  intro a b h; simpa using h

theorem length_irange (lo hi : Int) : (irange lo hi).length = (hi - lo + 1).toNat := by
  simp [irange]

theorem mem_points {D : Nat} {order : Nat} {p : Int × Int × Int} :
    p ∈ points D order ↔ (|p.1| + |p.2.1| + |p.2.2| ≤ order ∧ (D = 2 → p.2.2 = 0)) := by
  obtain ⟨x, y, z⟩ := p
  unfold points
  simp only [List.mem_flatMap, List.mem_map, mem_irange, Prod.mk.injEq]
  constructor
  · rintro ⟨z', ⟨h1, h2⟩, y', ⟨h3, h4⟩, x', ⟨h5, h6⟩, rfl, rfl, rfl⟩
    have hz : |z'| ≤ order := by
      split at h1 <;> split at h2 <;> (rw [abs_le]; constructor <;> omega)
    have hy : |y'| ≤ order - |z'| := abs_le.mpr ⟨h3, h4⟩
    rw [if_neg (by omega)] at h5 h6
    have hx : |x'| ≤ order - |z'| - |y'| := abs_le.mpr ⟨h5, h6⟩
    refine ⟨by omega, fun hD => ?_⟩
    rw [if_pos hD] at h1 h2; omega
  · rintro ⟨h, hD⟩
    have a1 := abs_nonneg x
    have a2 := abs_nonneg y
    have a3 := abs_nonneg z
    refine ⟨z, ?_, y, abs_le.mp (by omega), x, ?_, rfl, rfl, rfl⟩
    · split
      · rw [hD ‹_›]; omega
      · exact abs_le.mp (by omega)
    · rw [if_neg (by omega)]; exact abs_le.mp (by omega)

theorem nodup_points (D : Nat) (order : Int) : (points D order).Nodup := by
  unfold points
  rw [List.nodup_flatMap]
  refine ⟨fun z _ => ?_, ?_⟩
  · rw [List.nodup_flatMap]
    refine ⟨fun y _ => ?_, ?_⟩
    · apply List.Nodup.map _ (nodup_irange _ _)
      intro a b h; simpa using h
    · apply List.Nodup.pairwise_of_forall_ne (nodup_irange _ _)
      intro a _ b _ hab
      simp only [Function.onFun, List.disjoint_left, List.mem_map]
      rintro p ⟨x, _, rfl⟩ ⟨x', _, h⟩
      simp only [Prod.mk.injEq] at h
      exact hab h.2.1.symm
  · apply List.Nodup.pairwise_of_forall_ne (nodup_irange _ _)
    intro a _ b _ hab
    simp only [Function.onFun, List.disjoint_left, List.mem_map, List.mem_flatMap]
    rintro p ⟨y, _, x, _, rfl⟩ ⟨y', _, x', _, h⟩
    simp only [Prod.mk.injEq] at h
    exact hab h.2.2.symm

theorem irange_succ (n : Nat) :
    irange (-((n + 1 : Nat) : Int)) ((n + 1 : Nat) : Int) =
      (-((n + 1 : Nat) : Int)) :: (irange (-(n : Int)) n ++ [((n + 1 : Nat) : Int)]) := by
  unfold irange
  have h1 : (((n + 1 : Nat) : Int) - -((n + 1 : Nat) : Int) + 1).toNat = (2 * n + 1) + 1 + 1 := by omega
  have h2 : ((n : Int) - -(n : Int) + 1).toNat = 2 * n + 1 := by omega
  rw [h1, h2, List.range_succ_eq_map, List.map_cons, List.map_map, List.range_succ, List.map_append]
  have e1 : (List.range (2 * n + 1)).map ((fun k : Nat => -((n + 1 : Nat) : Int) + (k : Int)) ∘ Nat.succ) =
      (List.range (2 * n + 1)).map (fun k : Nat => -(n : Int) + (k : Int)) := by
    apply List.map_congr_left
    intro a _
    simp only [Function.comp_apply]; push_cast; ring
  rw [e1]
  simp only [List.map_cons, List.map_nil, Function.comp_apply]
  have e2 : -((n + 1 : Nat) : Int) + ((Nat.succ (2 * n + 1) : Nat) : Int) = ((n + 1 : Nat) : Int) := by
    push_cast; ring
  rw [e2]; simp

/-- Sum of an even function over `-n..n`. -/
theorem sum_irange (h : Nat → Nat) (n : Nat) :
    ((irange (-(n : Int)) n).map (fun z => h z.natAbs)).sum =
      h 0 + 2 * ∑ k ∈ Finset.range n, h (k + 1) := by
  induction n with
  | zero => simp [irange]
  | succ n ih =>
    rw [irange_succ, List.map_cons, List.map_append, List.sum_cons, List.sum_append, ih,
      Finset.sum_range_succ]
    have : (-((n + 1 : Nat) : Int)).natAbs = n + 1 := by omega
    rw [this]
    have h2 : (((n + 1 : Nat) : Int)).natAbs = n + 1 := by omega
    simp only [List.map_cons, List.map_nil, List.sum_cons, List.sum_nil, h2]
    ring

theorem sum_odd (n : Nat) : ∑ k ∈ Finset.range n, (2 * k + 1) = n * n := by
  induction n with
  | zero => rfl
  | succ n ih => rw [Finset.sum_range_succ, ih]; ring

theorem sum_reflect (f : Nat → Nat) (n : Nat) :
    ∑ k ∈ Finset.range n, f (n - (k + 1)) = ∑ k ∈ Finset.range n, f k := by
  rw [← Finset.sum_range_reflect]
  apply Finset.sum_congr rfl
  intro k hk
  have := Finset.mem_range.mp hk
  congr 1; omega

/-- Number of points with a given third coordinate (`k = order - |z|`). -/
theorem layer_length (k : Nat) (z : Int) :
    ((irange (-(k : Int)) k).flatMap fun y =>
      let xMax := (k : Int) - |y|
      let xMax := if xMax < 0 then 0 else xMax
      (irange (-xMax) xMax).map fun x => (x, y, z)).length = 1 + 2 * k * (k + 1) := by
  rw [List.length_flatMap]
  have : (irange (-(k : Int)) k).map (fun y => ((irange (-(if (k : Int) - |y| < 0 then 0 else (k : Int) - |y|))
      (if (k : Int) - |y| < 0 then 0 else (k : Int) - |y|)).map fun x => (x, y, z)).length) =
      (irange (-(k : Int)) k).map (fun y => (fun j => 2 * (k - j) + 1) y.natAbs) := by
    apply List.map_congr_left
    intro y hy
    rw [mem_irange] at hy
    have hy' : |y| ≤ k := abs_le.mpr hy
    have h2 : |y| = y.natAbs := Int.abs_eq_natAbs y
    rw [List.length_map, length_irange, if_neg (by omega)]
    simp only; omega
  simp only
  rw [this, sum_irange (fun j => 2 * (k - j) + 1) k, sum_reflect (fun j => 2 * j + 1) k, sum_odd]
  simp only [Nat.sub_zero]; ring

theorem points_length_2 (order : Nat) : (points 2 order).length = numberImageSources2 order := by
  unfold points numberImageSources2
  have : irange (-0) 0 = [0] := by decide
  simp only [if_true, this, List.flatMap_cons, List.flatMap_nil, List.append_nil, abs_zero, sub_zero]
  exact layer_length order 0

theorem sum_layers (n : Nat) :
    3 * ∑ k ∈ Finset.range n, (1 + 2 * k * (k + 1)) = 2 * (n * n * n) + n := by
  induction n with
  | zero => rfl
  | succ n ih => rw [Finset.sum_range_succ, mul_add, ih]; ring

theorem points_length_3 {D : Nat} (hD : D ≠ 2) (order : Nat) :
    (points D order).length = numberImageSources3 order := by
  unfold points numberImageSources3
  simp only [if_neg hD]
  rw [List.length_flatMap]
  have : (irange (-(order : Int)) order).map (fun z =>
      ((irange (-((order : Int) - |z|)) ((order : Int) - |z|)).flatMap fun y =>
        (irange (-(if (order : Int) - |z| - |y| < 0 then 0 else (order : Int) - |z| - |y|))
          (if (order : Int) - |z| - |y| < 0 then 0 else (order : Int) - |z| - |y|)).map
            fun x => (x, y, z)).length) =
      (irange (-(order : Int)) order).map
        (fun z => (fun j => 1 + 2 * (order - j) * ((order - j) + 1)) z.natAbs) := by
    apply List.map_congr_left
    intro z hz
    rw [mem_irange] at hz
    have hz' : |z| ≤ order := abs_le.mpr hz
    have h2 : |z| = z.natAbs := Int.abs_eq_natAbs z
    have h3 : (order : Int) - |z| = ((order - z.natAbs : Nat) : Int) := by omega
    rw [h3]
    exact layer_length _ z
  rw [this, sum_irange (fun j => 1 + 2 * (order - j) * ((order - j) + 1)) order,
    sum_reflect (fun j => 1 + 2 * j * (j + 1)) order]
  have h := sum_layers order
  simp only [Nat.sub_zero]
  have h3 : 2 * order * (2 * (order * order) + 3 * order + 4) =
      3 * (2 * order * (order + 1) + 2 * ∑ k ∈ Finset.range order, (1 + 2 * k * (k + 1))) := by
    generalize (∑ k ∈ Finset.range order, (1 + 2 * k * (k + 1))) = S at h
    have : 3 * (2 * order * (order + 1) + 2 * S) = 6 * order * (order + 1) + 2 * (3 * S) := by ring
    rw [this, h]; ring
  rw [h3, Nat.mul_div_cancel_left _ (by omega)]
  ring

theorem transPwr_length (room : Room) (n : Nat) : (transPwr room n).length = n + 1 := by
  fun_induction transPwr room n with
  | case1 => rfl
  | case2 => rfl
  | case3 n prev ih => simp only [List.length_append, List.length_singleton]; rw [ih]

theorem transPwr_get (room : Room) (n k : Nat) (h : k ≤ n) :
    ∃ f, (transPwr room n)[k]? = some f ∧ ∀ b c, f b c = trans1 room b c ^ k := by
  fun_induction transPwr room n generalizing k with
  | case1 =>
    obtain rfl : k = 0 := by omega
    exact ⟨_, rfl, by simp⟩
  | case2 =>
    match k, h with
    | 0, _ => exact ⟨_, rfl, by simp⟩
    | 1, _ => exact ⟨_, rfl, by simp⟩
  | case3 n prev ih =>
    have hlen : (transPwr room (n + 1)).length = n + 2 := transPwr_length room (n + 1)
    by_cases hk : k ≤ n + 1
    · obtain ⟨f, h1, h2⟩ := ih k hk
      refine ⟨f, ?_, h2⟩
      rw [List.getElem?_append_left (by rw [hlen]; omega)]
      exact h1
    · obtain rfl : k = n + 2 := by omega
      obtain ⟨f, h1, h2⟩ := ih (n + 1) le_rfl
      rw [List.getElem?_append_right (by rw [hlen]), hlen, Nat.sub_self]
      refine ⟨_, rfl, fun b c => ?_⟩
      rw [List.getD_eq_getElem?_getD, h1]
      simp only [Option.getD_some, h2]
      rw [← pow_succ]

/-- Value of the two exponents in terms of the absolute value and the sign. -/
theorem p1_eq (p : Int) : p1 p = if 0 < p then p.natAbs / 2 else (p.natAbs + 1) / 2 := by
  unfold p1
  split
  · rw [Int.tdiv_eq_ediv_of_nonneg (by omega)]; omega
  · split
    · have : Int.tdiv (p - 1) 2 = -((1 - p) / 2) := by
        rw [← Int.tdiv_eq_ediv_of_nonneg (by omega), ← Int.neg_tdiv]; congr 1; ring
      rw [this, abs_neg, abs_of_nonneg (by omega)]; omega
    · omega

theorem p2_eq (p : Int) : p2 p = if 0 < p then (p.natAbs + 1) / 2 else p.natAbs / 2 := by
  unfold p2
  split
  · rw [Int.tdiv_eq_ediv_of_nonneg (by omega)]; omega
  · split
    · have : Int.tdiv p 2 = -((-p) / 2) := by
        rw [← Int.tdiv_eq_ediv_of_nonneg (by omega), ← Int.neg_tdiv]; congr 1; ring
      rw [this, abs_neg, abs_of_nonneg (by omega)]; omega
    · omega

theorem p1_le (p : Int) : (p1 p : Int) ≤ |p| := by
  rw [p1_eq, Int.abs_eq_natAbs]; split <;> omega

theorem p2_le (p : Int) : (p2 p : Int) ≤ |p| := by
  rw [p2_eq, Int.abs_eq_natAbs]; split <;> omega

theorem tmod_abs (p : Int) : Int.tmod |p| 2 = 1 ↔ p.natAbs % 2 = 1 := by
  rw [Int.tmod_eq_emod_of_nonneg (abs_nonneg p), Int.abs_eq_natAbs]; omega

/-- Coordinate computed for one axis. -/
noncomputable def axisLoc (room : Room) (source : Nat → ℝ) (p : Int × Int × Int) (d : Nat) : ℝ :=
  (coord p d : ℝ) * room.size d +
    (if (coord p d).natAbs % 2 = 1 then room.size d - source d else source d)

/-- Result of the loop over the axes. -/
theorem axisLoop_spec (room : Room) (source : Nat → ℝ) (p : Int × Int × Int) (N : Nat)
    (n d : Nat) (is : Img) (hp : ∀ i, d ≤ i → i < d + n → |coord p i| ≤ N) :
    ∃ img, axisLoop room source (transPwr room N) p d n is = some img ∧
      (∀ i, img.loc i = if d ≤ i ∧ i < d + n then axisLoc room source p i else is.loc i) ∧
      (∀ i, img.orderXyz i = if d ≤ i ∧ i < d + n then coord p i else is.orderXyz i) ∧
      (∀ m i, img.dirs m i = if d ≤ i ∧ i < d + n then
          (if (coord p i).natAbs % 2 = 1 then axisLoc room source p i - (room.mics.getD m (fun _ => 0)) i
           else (room.mics.getD m (fun _ => 0)) i - axisLoc room source p i)
        else is.dirs m i) ∧
      img.order = is.order + ∑ i ∈ Finset.range n, |coord p (d + i)| ∧
      (∀ b, img.atten b = is.atten b * ∏ i ∈ Finset.range n,
        (trans1 room b (2 * (d + i)) ^ p1 (coord p (d + i)) *
         trans1 room b (2 * (d + i) + 1) ^ p2 (coord p (d + i)))) ∧
      img.visible = is.visible := by
  induction n generalizing d is with
  | zero =>
    refine ⟨is, rfl, fun i => ?_, fun i => ?_, fun m i => ?_, by simp, by simp, rfl⟩ <;>
      rw [if_neg (by omega)]
  | succ n ih =>
    have h0 := hp d le_rfl (by omega)
    obtain ⟨f1, e1, g1⟩ := transPwr_get room N (p1 (coord p d)) (by have := p1_le (coord p d); omega)
    obtain ⟨f2, e2, g2⟩ := transPwr_get room N (p2 (coord p d)) (by have := p2_le (coord p d); omega)
    unfold axisLoop axisStep
    simp only [e1, e2, Option.bind_some]
    obtain ⟨img, E, q1, q2, q3, q4, q5, q6⟩ := ih (d + 1) _ (fun i h1 h2 => hp i (by omega) (by omega))
    refine ⟨img, E, fun i => ?_, fun i => ?_, fun m i => ?_, ?_, fun b => ?_, q6⟩
    · rw [q1]
      by_cases hi : i = d
      · subst hi; rw [if_neg (show ¬ (i + 1 ≤ i ∧ i < i + 1 + n) by omega), if_pos (show i ≤ i ∧ i < i + (n + 1) by omega)]
        simp [axisLoc, tmod_abs]
      · by_cases h2 : d + 1 ≤ i ∧ i < d + 1 + n
        · rw [if_pos h2, if_pos (show d ≤ i ∧ i < d + (n + 1) by omega)]
        · rw [if_neg h2, if_neg (show ¬ (d ≤ i ∧ i < d + (n + 1)) by omega)]; simp [hi]
    · rw [q2]
      by_cases hi : i = d
      · subst hi; rw [if_neg (show ¬ (i + 1 ≤ i ∧ i < i + 1 + n) by omega), if_pos (show i ≤ i ∧ i < i + (n + 1) by omega)]; simp
      · by_cases h2 : d + 1 ≤ i ∧ i < d + 1 + n
        · rw [if_pos h2, if_pos (show d ≤ i ∧ i < d + (n + 1) by omega)]
        · rw [if_neg h2, if_neg (show ¬ (d ≤ i ∧ i < d + (n + 1)) by omega)]; simp [hi]
    · rw [q3]
      by_cases hi : i = d
      · subst hi; rw [if_neg (show ¬ (i + 1 ≤ i ∧ i < i + 1 + n) by omega), if_pos (show i ≤ i ∧ i < i + (n + 1) by omega)]
        simp [axisLoc, tmod_abs]
      · by_cases h2 : d + 1 ≤ i ∧ i < d + 1 + n
        · rw [if_pos h2, if_pos (show d ≤ i ∧ i < d + (n + 1) by omega)]
        · rw [if_neg h2, if_neg (show ¬ (d ≤ i ∧ i < d + (n + 1)) by omega)]; simp [hi]
    · rw [q4, Finset.sum_range_succ']
      simp only [add_zero]
      have : ∀ i, d + 1 + i = d + (i + 1) := fun i => by omega
      simp only [this]; ring
    · rw [q5, Finset.prod_range_succ']
      simp only [add_zero, g1, g2]
      have : ∀ i, d + 1 + i = d + (i + 1) := fun i => by omega
      simp only [this]; ring

end Verif.Shoebox
