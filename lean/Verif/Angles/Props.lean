import Verif.Angles.Model
import Mathlib.Tactic.Linarith
import Mathlib.Tactic.Ring
import Mathlib.Tactic.Positivity
import Mathlib.Tactic.FieldSimp
import Mathlib.Data.List.Nodup
import Mathlib.Algebra.Order.Round
import Mathlib.Logic.Function.Iterate
import Mathlib.Analysis.Real.Pi.Bounds

/-!
# Properties of the functions on angles (C45, C71)
-/

namespace Verif.Angles

open Verif.Py (Err)

/-! ## Lemmas -/

theorem arctan2_cos (y x : ℝ) : Real.sqrt (x ^ 2 + y ^ 2) * Real.cos (arctan2 y x) = x := by
  have := Complex.norm_mul_cos_arg ⟨x, y⟩
  rw [Complex.norm_def, Complex.normSq_mk] at this
  unfold arctan2
  rw [pow_two, pow_two]; exact this

theorem arctan2_sin (y x : ℝ) : Real.sqrt (x ^ 2 + y ^ 2) * Real.sin (arctan2 y x) = y := by
  have := Complex.norm_mul_sin_arg ⟨x, y⟩
  rw [Complex.norm_def, Complex.normSq_mk] at this
  unfold arctan2
  rw [pow_two, pow_two]; exact this

theorem arctan2_of {r : ℝ} (hr : 0 < r) {t : ℝ} (h1 : -Real.pi < t) (h2 : t ≤ Real.pi) : arctan2 (r * Real.sin t) (r * Real.cos t) = t := by
  have := Complex.arg_mul_cos_add_sin_mul_I hr (θ := t) ⟨h1, h2⟩
  unfold arctan2
  convert this using 2
  apply Complex.ext
  · simp [← Complex.ofReal_cos, ← Complex.ofReal_sin]
  · simp [← Complex.ofReal_cos, ← Complex.ofReal_sin]

/-! ## Conversion -/

/-- **C45.** Every point of 3-space is recovered from the angles and the radius given by `cart2spher`; the radius is the norm, the azimuth is
in `(-π, π]` and the colatitude in `[0, π]`. -/
theorem C45_round_trip (v : ℝ × ℝ × ℝ) :
    spher2cart (cart2spher v).1 (some (cart2spher v).2.1) (cart2spher v).2.2 false = v ∧
      (cart2spher v).2.2 = Real.sqrt (v.1 ^ 2 + v.2.1 ^ 2 + v.2.2 ^ 2) ∧
      -Real.pi < (cart2spher v).1 ∧ (cart2spher v).1 ≤ Real.pi ∧ 0 ≤ (cart2spher v).2.1 ∧ (cart2spher v).2.1 ≤ Real.pi := by
  obtain ⟨x, y, z⟩ := v
  refine ⟨?_, rfl, (Complex.arg_mem_Ioc _).1, (Complex.arg_mem_Ioc _).2, ?_, (Complex.arg_mem_Ioc _).2⟩
  · unfold spher2cart cart2spher
    simp only [Bool.false_eq_true, if_false, Option.getD_some]
    have hz := arctan2_cos (Real.sqrt (x ^ 2 + y ^ 2)) z
    have hr := arctan2_sin (Real.sqrt (x ^ 2 + y ^ 2)) z
    rw [Real.sq_sqrt (by positivity), show z ^ 2 + (x ^ 2 + y ^ 2) = x ^ 2 + y ^ 2 + z ^ 2 by ring] at hz hr
    refine Prod.ext ?_ (Prod.ext ?_ hz)
    · simp only
      rw [mul_assoc, mul_comm (Real.cos _), ← mul_assoc, hr, arctan2_cos]
    · simp only
      rw [mul_assoc, mul_comm (Real.sin _), ← mul_assoc, hr, arctan2_sin]
  · unfold cart2spher arctan2
    simp only
    rw [Complex.arg_nonneg_iff]
    exact Real.sqrt_nonneg _

/-- **C45, other direction.** Angles inside of the ranges and a positive radius are recovered from the point. -/
theorem C45_angles {a c r : ℝ} (ha : -Real.pi < a) (ha' : a ≤ Real.pi) (hc : 0 < c) (hc' : c < Real.pi) (hr : 0 < r) :
    cart2spher (spher2cart a (some c) r false) = (a, c, r) := by
  unfold spher2cart cart2spher
  simp only [Bool.false_eq_true, if_false, Option.getD_some]
  have hs : 0 < Real.sin c := Real.sin_pos_of_pos_of_lt_pi hc hc'
  have h1 : Real.sqrt ((r * Real.cos a * Real.sin c) ^ 2 + (r * Real.sin a * Real.sin c) ^ 2) = r * Real.sin c := by
    rw [show (r * Real.cos a * Real.sin c) ^ 2 + (r * Real.sin a * Real.sin c) ^ 2 = (r * Real.sin c) ^ 2 * (Real.sin a ^ 2 + Real.cos a ^ 2) by ring,
      Real.sin_sq_add_cos_sq, mul_one, Real.sqrt_sq (by positivity)]
  rw [h1]
  refine Prod.ext ?_ (Prod.ext ?_ ?_)
  · simp only
    rw [show r * Real.sin a * Real.sin c = (r * Real.sin c) * Real.sin a by ring, show r * Real.cos a * Real.sin c = (r * Real.sin c) * Real.cos a by ring]
    exact arctan2_of (by positivity) ha ha'
  · exact arctan2_of hr (by linarith) hc'.le
  · simp only
    rw [show (r * Real.cos a * Real.sin c) ^ 2 + (r * Real.sin a * Real.sin c) ^ 2 + (r * Real.cos c) ^ 2 =
      r ^ 2 * (Real.sin c ^ 2 * (Real.sin a ^ 2 + Real.cos a ^ 2) + Real.cos c ^ 2) by ring, Real.sin_sq_add_cos_sq, mul_one, Real.sin_sq_add_cos_sq, mul_one,
      Real.sqrt_sq hr.le]

/-- **C45, degrees.** Angles in degrees mean the same point; without a colatitude the point is in the horizontal plane. -/
theorem C45_options (a c r : ℝ) :
    spher2cart a (some c) r true = spher2cart (a * Real.pi / 180) (some (c * Real.pi / 180)) r false ∧
      spher2cart a none r true = spher2cart (a * Real.pi / 180) none r false ∧
      spher2cart a none r false = (r * Real.cos a, r * Real.sin a, 0) := by
  unfold spher2cart radians
  simp only [if_true, Bool.false_eq_true, if_false, Option.map_some, Option.map_none, Option.getD_some, Option.getD_none, mul_div_assoc]
  simp

/-! ## Distances -/

theorem circDist_le (a b r : ℝ) (k : ℤ) : circDist a b r ≤ |a - b + 2 * Real.pi * k| := by
  unfold circDist
  have e : Real.cos (a - b) = Real.cos |a - b + 2 * Real.pi * k| := by
    rw [Real.cos_abs, mul_comm, Real.cos_add_int_mul_two_pi]
  rw [e]
  by_cases h : |a - b + 2 * Real.pi * k| ≤ Real.pi
  · rw [Real.arccos_cos (abs_nonneg _) h]
  · exact (Real.arccos_le_pi _).trans (le_of_not_ge h)

theorem circDist_small {a b : ℝ} (r : ℝ) (h : |a - b| ≤ Real.pi) : circDist a b r = |a - b| := by
  unfold circDist
  rw [← Real.cos_abs, Real.arccos_cos (abs_nonneg _) h]

/-- **C71, circle.** The distance of two azimuths is the length of the shortest arc of the unit circle between them. -/
theorem C71_circle (a b r : ℝ) : IsLeast {d : ℝ | ∃ k : ℤ, d = |a - b + 2 * Real.pi * k|} (circDist a b r) := by
  refine ⟨?_, ?_⟩
  · have hp := Real.pi_pos
    refine ⟨-round ((a - b) / (2 * Real.pi)), ?_⟩
    have hb := abs_sub_round ((a - b) / (2 * Real.pi))
    have hle : |a - b + 2 * Real.pi * ((-round ((a - b) / (2 * Real.pi)) : ℤ) : ℝ)| ≤ Real.pi := by
      rw [show a - b + 2 * Real.pi * ((-round ((a - b) / (2 * Real.pi)) : ℤ) : ℝ) = 2 * Real.pi * ((a - b) / (2 * Real.pi) - round ((a - b) / (2 * Real.pi))) by
        push_cast; field_simp; ring, abs_mul, abs_of_pos (by positivity)]
      nlinarith
    unfold circDist
    have e : Real.cos (a - b) = Real.cos |a - b + 2 * Real.pi * ((-round ((a - b) / (2 * Real.pi)) : ℤ) : ℝ)| := by
      rw [Real.cos_abs, mul_comm (2 * Real.pi), Real.cos_add_int_mul_two_pi]
    rw [e, Real.arccos_cos (abs_nonneg _) hle]
  · rintro d ⟨k, rfl⟩
    exact circDist_le a b r k

/-- **C71, deviation.** The radius is ignored: on a circle of radius `r ≠ 1` the arc has `r` times the length, unless it is empty. -/
theorem C71_radius_deviation (a b r : ℝ) (hr : r ≠ 1) (hne : circDist a b 1 ≠ 0) : circDist a b r ≠ r * circDist a b 1 := by
  intro h
  have e : circDist a b r = circDist a b 1 := rfl
  rw [e] at h
  exact hr (mul_right_cancel₀ hne (by rw [one_mul]; exact h.symm))

/-- Inner product. -/
def dot (u v : ℝ × ℝ × ℝ) : ℝ := u.1 * v.1 + u.2.1 * v.2.1 + u.2.2 * v.2.2

/-- **C71, sphere.** The great circle distance is the radius times the angle between the two directions. -/
theorem C71_sphere (r c1 a1 c2 a2 : ℝ) :
    greatCircDist r c1 a1 c2 a2 = r * Real.arccos (dot (spher2cart a1 (some c1) 1 false) (spher2cart a2 (some c2) 1 false)) := by
  unfold greatCircDist
  simp only
  congr 1
  have hs : Real.sin |a1 - a2| ^ 2 = Real.sin (a1 - a2) ^ 2 := by
    rcases abs_choice (a1 - a2) with h | h <;> rw [h]
    rw [Real.sin_neg, neg_sq]
  have hdot : dot (spher2cart a1 (some c1) 1 false) (spher2cart a2 (some c2) 1 false) =
      Real.cos c1 * Real.cos c2 + Real.sin c1 * Real.sin c2 * Real.cos |a1 - a2| := by
    unfold dot spher2cart
    simp only [Bool.false_eq_true, if_false, Option.getD_some, one_mul]
    rw [Real.cos_abs, Real.cos_sub]; ring
  rw [hdot]
  set C := Real.cos c1 * Real.cos c2 + Real.sin c1 * Real.sin c2 * Real.cos |a1 - a2| with hC
  set S := Real.sqrt ((Real.sin c2 * Real.sin |a1 - a2|) ^ 2 + (Real.sin c1 * Real.cos c2 - Real.cos c1 * Real.sin c2 * Real.cos |a1 - a2|) ^ 2) with hS
  have hsq : C ^ 2 + S ^ 2 = 1 := by
    rw [hS, Real.sq_sqrt (by positivity), hC]
    have h1 := Real.sin_sq_add_cos_sq c1
    have h2 := Real.sin_sq_add_cos_sq c2
    have h3 := Real.sin_sq_add_cos_sq |a1 - a2|
    generalize Real.sin c1 = s1 at *
    generalize Real.cos c1 = k1 at *
    generalize Real.sin c2 = s2 at *
    generalize Real.cos c2 = k2 at *
    generalize Real.sin |a1 - a2| = s at *
    generalize Real.cos |a1 - a2| = k at *
    have e1 : k1 ^ 2 = 1 - s1 ^ 2 := by linarith
    have e2 : k2 ^ 2 = 1 - s2 ^ 2 := by linarith
    have e3 : k ^ 2 = 1 - s ^ 2 := by linarith
    have : (k1 * k2 + s1 * s2 * k) ^ 2 + ((s2 * s) ^ 2 + (s1 * k2 - k1 * s2 * k) ^ 2) =
        k1 ^ 2 * k2 ^ 2 + s1 ^ 2 * s2 ^ 2 * k ^ 2 + s2 ^ 2 * s ^ 2 + s1 ^ 2 * k2 ^ 2 + k1 ^ 2 * s2 ^ 2 * k ^ 2 := by ring
    rw [this, e1, e2, e3]; ring
  have hnorm : ‖(⟨C, S⟩ : ℂ)‖ = 1 := by
    rw [Complex.norm_def, Complex.normSq_mk, ← pow_two, ← pow_two, hsq, Real.sqrt_one]
  unfold arctan2
  rw [Complex.arg_of_im_nonneg_of_ne_zero (Real.sqrt_nonneg _) (by intro h; rw [h] at hnorm; simp at hnorm), hnorm, div_one]

/-! ## Pairing -/

/-- Every index is used at most once on either side. -/
def Matching (n1 n2 : Nat) (l : List (Nat × Nat)) : Prop :=
  (∀ p ∈ l, p.1 < n1 ∧ p.2 < n2) ∧ (l.map Prod.fst).Nodup ∧ (l.map Prod.snd).Nodup

/-- Each pair is one of the closest among those that are left when it is chosen. -/
def Greedy (n1 n2 : Nat) (dist : Nat → Nat → ℝ) (l : List (Nat × Nat)) : Prop :=
  ∀ k p, l[k]? = some p → ∀ i j, i < n1 → j < n2 → (∀ q ∈ l.take k, q.1 ≠ i ∧ q.2 ≠ j) → dist p.1 p.2 ≤ dist i j

theorem minOf_le {l : List (WithTop ℝ)} {x : WithTop ℝ} (h : x ∈ l) : minOf l ≤ x := by
  induction l with
  | nil => simp at h
  | cons y t ih =>
    rcases List.mem_cons.mp h with rfl | h
    · exact min_le_left _ _
    · exact (min_le_right _ _).trans (ih h)

theorem minOf_mem {l : List (WithTop ℝ)} (h : l ≠ []) : minOf l ∈ l := by
  induction l with
  | nil => exact absurd rfl h
  | cons y t ih =>
    by_cases ht : t = []
    · subst ht
      change min y ⊤ ∈ [y]
      simp
    · change min y (minOf t) ∈ y :: t
      rcases min_choice y (minOf t) with e | e <;> rw [e]
      · exact List.mem_cons_self
      · exact List.mem_cons_of_mem _ (ih ht)

theorem argmin_spec {l : List (WithTop ℝ)} (h : l ≠ []) : ∃ hl : argmin l < l.length, l[argmin l] = minOf l := by
  unfold argmin
  have hl : l.findIdx (fun x => decide (x = minOf l)) < l.length := List.findIdx_lt_length_of_exists ⟨_, minOf_mem h, by simp⟩
  exact ⟨hl, by simpa using List.findIdx_getElem (w := hl)⟩

theorem argmin_range {n : Nat} (hn : 0 < n) (f : Nat → WithTop ℝ) :
    argmin ((List.range n).map f) < n ∧ ∀ i, i < n → f (argmin ((List.range n).map f)) ≤ f i := by
  have hne : (List.range n).map f ≠ [] := by
    intro h
    have := congrArg List.length h
    simp at this; omega
  obtain ⟨hl, e⟩ := argmin_spec hne
  rw [List.length_map, List.length_range] at hl
  refine ⟨hl, fun i hi => ?_⟩
  rw [List.getElem_map, List.getElem_range] at e
  rw [e]
  exact minOf_le (List.mem_map.mpr ⟨i, List.mem_range.mpr hi, rfl⟩)

theorem minOf_range {n : Nat} (hn : 0 < n) (f : Nat → WithTop ℝ) : minOf ((List.range n).map f) = f (argmin ((List.range n).map f)) := by
  have hne : (List.range n).map f ≠ [] := by
    intro h
    have := congrArg List.length h
    simp at this; omega
  obtain ⟨hl, e⟩ := argmin_spec hne
  rw [List.getElem_map, List.getElem_range] at e
  exact e.symm

/-- State of the loop after `k` rounds. -/
def Reached (n1 n2 : Nat) (dist : Nat → Nat → ℝ) (k : Nat) (s : (Nat → Nat → WithTop ℝ) × List (Nat × Nat)) : Prop :=
  s.2.length = k ∧ Matching n1 n2 s.2 ∧ Greedy n1 n2 dist s.2 ∧
    (∀ i j, (∃ q ∈ s.2, q.1 = i ∨ q.2 = j) → s.1 j i = ⊤) ∧ (∀ i j, (¬ ∃ q ∈ s.2, q.1 = i ∨ q.2 = j) → s.1 j i = (dist i j : ℝ))

theorem exists_unused {n : Nat} {l : List Nat} (h : l.length < n) : ∃ i, i < n ∧ i ∉ l := by
  by_contra hc
  push Not at hc
  have : (List.range n).length ≤ l.length := (List.nodup_range.subperm fun i hi => hc i (List.mem_range.mp hi)).length_le
  rw [List.length_range] at this
  omega

theorem pairStep_reached {n1 n2 : Nat} {dist : Nat → Nat → ℝ} {k : Nat} {s : (Nat → Nat → WithTop ℝ) × List (Nat × Nat)} (h : Reached n1 n2 dist k s)
    (h1 : k < n1) (h2 : k < n2) : Reached n1 n2 dist (k + 1) (pairStep n1 n2 s) := by
  obtain ⟨hlen, ⟨hb, hn1, hn2⟩, hg, hused, hfree⟩ := h
  have e : pairStep n1 n2 s = (fun j i => if j = (pairStep n1 n2 s).2.getLast!.2 ∨ i = (pairStep n1 n2 s).2.getLast!.1 then ⊤ else s.1 j i,
      s.2 ++ [(pairStep n1 n2 s).2.getLast!]) := by
    unfold pairStep; simp
  obtain ⟨p, hp⟩ : ∃ p, p = (pairStep n1 n2 s).2.getLast! := ⟨_, rfl⟩
  rw [← hp] at e
  have hp1 : p.1 = argmin ((List.range n1).map fun i => minOf ((List.range n2).map fun j => s.1 j i)) := by rw [hp]; unfold pairStep; simp
  have hp2 : p.2 = argmin ((List.range n2).map fun j => s.1 j p.1) := by rw [hp1, hp]; unfold pairStep; simp
  obtain ⟨hl1, hm1⟩ := argmin_range (n := n1) (by omega) fun i => minOf ((List.range n2).map fun j => s.1 j i)
  obtain ⟨hl2, hm2⟩ := argmin_range (n := n2) (by omega) fun j => s.1 j p.1
  rw [← hp1] at hl1 hm1
  have hmin : minOf ((List.range n2).map fun j => s.1 j p.1) = s.1 p.2 p.1 := by
    rw [minOf_range (by omega), hp2]
  rw [← hp2] at hl2 hm2
  have hle : ∀ i j, i < n1 → j < n2 → s.1 p.2 p.1 ≤ s.1 j i := by
    intro i j hi hj
    have := hm1 i hi
    rw [hmin] at this
    exact this.trans (minOf_le (List.mem_map.mpr ⟨j, List.mem_range.mpr hj, rfl⟩))
  obtain ⟨i0, hi0, hi0'⟩ := exists_unused (n := n1) (l := s.2.map Prod.fst) (by rw [List.length_map]; omega)
  obtain ⟨j0, hj0, hj0'⟩ := exists_unused (n := n2) (l := s.2.map Prod.snd) (by rw [List.length_map]; omega)
  have hfin : s.1 p.2 p.1 ≠ ⊤ := by
    intro ht
    have := hle i0 j0 hi0 hj0
    rw [ht, hfree i0 j0 (by
      rintro ⟨q, hq, rfl | rfl⟩
      · exact hi0' (List.mem_map.mpr ⟨q, hq, rfl⟩)
      · exact hj0' (List.mem_map.mpr ⟨q, hq, rfl⟩))] at this
    exact absurd this (not_le_of_gt (WithTop.coe_lt_top _))
  have hnew : ¬ ∃ q ∈ s.2, q.1 = p.1 ∨ q.2 = p.2 := fun hq => hfin (hused _ _ hq)
  rw [e]
  refine ⟨by simp [hlen], ⟨?_, ?_, ?_⟩, ?_, ?_, ?_⟩
  · intro q hq
    rcases List.mem_append.mp hq with hq | hq
    · exact hb q hq
    · rw [List.mem_singleton.mp hq]; exact ⟨hl1, hl2⟩
  · rw [List.map_append, List.nodup_append]
    refine ⟨hn1, by simp, ?_⟩
    intro a ha b hb' hab
    obtain ⟨q, hq, rfl⟩ := List.mem_map.mp ha
    simp only [List.map_cons, List.map_nil, List.mem_singleton] at hb'
    exact hnew ⟨q, hq, Or.inl (hab.trans hb')⟩
  · rw [List.map_append, List.nodup_append]
    refine ⟨hn2, by simp, ?_⟩
    intro a ha b hb' hab
    obtain ⟨q, hq, rfl⟩ := List.mem_map.mp ha
    simp only [List.map_cons, List.map_nil, List.mem_singleton] at hb'
    exact hnew ⟨q, hq, Or.inr (hab.trans hb')⟩
  · intro t q hq i j hi hj hfr
    simp only at hq hfr
    by_cases ht : t < s.2.length
    · rw [List.getElem?_append_left ht] at hq
      rw [List.take_append_of_le_length ht.le] at hfr
      exact hg t q hq i j hi hj hfr
    · rw [List.getElem?_append_right (by omega)] at hq
      have ht0 : t - s.2.length = 0 := by
        by_contra hne
        rw [List.getElem?_eq_none (by simp; omega)] at hq
        simp at hq
      rw [ht0] at hq
      simp only [List.getElem?_cons_zero, Option.some.injEq] at hq
      subst hq
      rw [List.take_append_of_le_length (by omega), List.take_of_length_le (by omega)] at hfr
      have := hle i j hi hj
      rw [hfree p.1 p.2 hnew, hfree i j (by rintro ⟨q, hq, h | h⟩; exacts [(hfr q hq).1 h, (hfr q hq).2 h])] at this
      exact WithTop.coe_le_coe.mp this
  · rintro i j ⟨q, hq, hqe⟩
    simp only at hq ⊢
    rcases List.mem_append.mp hq with hq | hq
    · split
      · rfl
      · exact hused i j ⟨q, hq, hqe⟩
    · rw [List.mem_singleton.mp hq] at hqe
      rw [if_pos (by rcases hqe with h | h; exacts [Or.inr h.symm, Or.inl h.symm])]
  · intro i j hq
    simp only at hq ⊢
    push Not at hq
    have hlast := hq p (by simp)
    rw [if_neg (by rintro (h | h); exacts [hlast.2 h.symm, hlast.1 h.symm])]
    refine hfree i j ?_
    rintro ⟨q, hq', h | h⟩
    · exact (hq q (List.mem_append_left _ hq')).1 h
    · exact (hq q (List.mem_append_left _ hq')).2 h

/-- **C71, pairing.** `polar_distance` of two lists with at least two angles each pairs all angles of the shorter list with different
angles of the other, choosing each time the closest two that are left, and returns the mean distance of the pairs. -/
theorem C71_pairing (x1 x2 : List ℝ) (h1 : 1 < x1.length) (h2 : 1 < x2.length) :
    ∃ index, polarDistance x1 x2 = .ok ((index.map fun p => circDist (x1.getD p.1 0) (x2.getD p.2 0) 1).sum / index.length, index) ∧
      index.length = min x1.length x2.length ∧ Matching x1.length x2.length index ∧
      Greedy x1.length x2.length (fun i j => circDist (x1.getD i 0) (x2.getD j 0) 1) index := by
  have key : ∀ k, k ≤ min x1.length x2.length → Reached x1.length x2.length (fun i j => circDist (x1.getD i 0) (x2.getD j 0) 1) k
      ((pairStep x1.length x2.length)^[k] (fun j i => ((circDist (x1.getD i 0) (x2.getD j 0) 1 : ℝ) : WithTop ℝ), [])) := by
    intro k
    induction k with
    | zero =>
      intro _
      refine ⟨rfl, ⟨fun p hp => by simp at hp, by simp, by simp⟩, fun k p hp => by simp at hp, ?_, fun i j _ => rfl⟩
      rintro i j ⟨q, hq, _⟩
      simp at hq
    | succ k ih =>
      intro hk
      rw [Function.iterate_succ_apply']
      exact pairStep_reached (ih (by omega)) (by omega) (by omega)
  obtain ⟨hlen, hm, hg, _⟩ := key _ le_rfl
  unfold polarDistance
  simp only
  rw [if_pos (show min x1.length x2.length > 1 by omega)]
  exact ⟨_, by rw [hlen], hlen, hm, hg⟩

/-- **C71, one angle.** If one of the lists has a single angle the distance is that to the closest of the others, but in the returned index
the position of the single angle is given as one; an empty list raises. -/
theorem C71_single_deviation (a : ℝ) (x : List ℝ) (hx : x ≠ []) :
    (∃ k, k < x.length ∧ polarDistance [a] x = .ok (circDist a (x.getD k 0) 1, [(1, k)]) ∧ ∀ j, j < x.length → circDist a (x.getD k 0) 1 ≤ circDist a (x.getD j 0) 1) ∧
      polarDistance [] x = .error .valueError ∧ polarDistance x [] = .error .valueError := by
  have hpos : 0 < x.length := List.length_pos_iff.mpr hx
  refine ⟨?_, by simp [polarDistance], by simp [polarDistance]⟩
  have hflat : (List.range x.length).flatMap (fun j => (List.range [a].length).map fun i => ((circDist ([a].getD i 0) (x.getD j 0) 1 : ℝ) : WithTop ℝ)) =
      (List.range x.length).map fun j => ((circDist a (x.getD j 0) 1 : ℝ) : WithTop ℝ) := by
    rw [List.flatMap_eq_foldl]
    have : ∀ (l : List Nat) (acc : List (WithTop ℝ)), l.foldl (fun acc j => acc ++ (List.range [a].length).map fun i => ((circDist ([a].getD i 0) (x.getD j 0) 1 : ℝ) : WithTop ℝ)) acc =
        acc ++ l.map fun j => ((circDist a (x.getD j 0) 1 : ℝ) : WithTop ℝ) := by
      intro l
      induction l with
      | nil => intro acc; simp
      | cons j t ih => intro acc; rw [List.foldl_cons, ih]; simp
    simpa using this (List.range x.length) []
  obtain ⟨hl, hm⟩ := argmin_range hpos fun j => ((circDist a (x.getD j 0) 1 : ℝ) : WithTop ℝ)
  refine ⟨_, hl, ?_, fun j hj => WithTop.coe_le_coe.mp (hm j hj)⟩
  unfold polarDistance
  simp only
  rw [if_neg (show ¬ min [a].length x.length > 1 by simp), hflat, if_neg (by
    intro h
    have := congrArg List.length h
    simp at this
    exact hx this), minOf_range hpos]
  simp

/-- **C71, deviation.** The pairing is not the closest possible: of `(0, 1)` and `(9/10, 2)` it pairs 1 with 9/10 and 0 with 2, at a mean
distance of 1.05, though the pairs in the order given have a mean distance of 0.95. -/
theorem C71_greedy_deviation : polarDistance [0, 1] [9 / 10, 2] = .ok (21 / 20, [(1, 0), (0, 1)]) ∧
    (circDist 0 (9 / 10) 1 + circDist 1 2 1) / 2 < 21 / 20 := by
  have hpi := Real.pi_gt_three
  have d00 : circDist 0 (9 / 10) 1 = 9 / 10 := by rw [circDist_small _ (by norm_num [abs_le]; linarith)]; norm_num [abs_of_neg]
  have d01 : circDist 0 2 1 = 2 := by rw [circDist_small _ (by norm_num [abs_le]; linarith)]; norm_num [abs_of_neg]
  have d10 : circDist 1 (9 / 10) 1 = 1 / 10 := by rw [circDist_small _ (by rw [abs_le]; constructor <;> linarith)]; norm_num [abs_of_pos]
  have d11 : circDist 1 2 1 = 1 := by rw [circDist_small _ (by rw [abs_le]; constructor <;> linarith)]; norm_num [abs_of_neg]
  obtain ⟨index, e, hlen, ⟨hb, hn1, hn2⟩, hg⟩ := C71_pairing [0, 1] [9 / 10, 2] (by simp) (by simp)
  refine ⟨?_, by rw [d00, d11]; norm_num⟩
  obtain ⟨⟨i0, j0⟩, ⟨i1, j1⟩, rfl⟩ : ∃ p q, index = [p, q] := by
    match index, hlen with
    | [p, q], _ => exact ⟨p, q, rfl⟩
  obtain ⟨hi0, hj0⟩ := hb (i0, j0) (by simp)
  obtain ⟨hi1, hj1⟩ := hb (i1, j1) (by simp)
  simp only [List.length_cons, List.length_nil] at hi0 hj0 hi1 hj1
  have hne1 : i0 ≠ i1 := by simpa using hn1
  have hne2 : j0 ≠ j1 := by simpa using hn2
  have hfirst := hg 0 (i0, j0) rfl 1 0 (by simp) (by simp) (by simp)
  simp only [List.getD_cons_zero, List.getD_cons_succ, d10] at hfirst
  have h0 : i0 = 1 ∧ j0 = 0 := by
    rcases (show i0 = 0 ∨ i0 = 1 by omega) with rfl | rfl <;> rcases (show j0 = 0 ∨ j0 = 1 by omega) with rfl | rfl <;>
      simp only [List.getD_cons_zero, List.getD_cons_succ, d00, d01, d11] at hfirst <;> norm_num at hfirst
    exact ⟨rfl, rfl⟩
  obtain ⟨rfl, rfl⟩ := h0
  obtain rfl : i1 = 0 := by omega
  obtain rfl : j1 = 1 := by omega
  rw [e]
  simp only [List.map_cons, List.map_nil, List.sum_cons, List.sum_nil, List.getD_cons_zero, List.getD_cons_succ, d10, d01, List.length_cons, List.length_nil]
  norm_num

/-- **C71, sampling.** The points of the Fibonacci sampling are on the unit sphere, at different heights, inside of the poles. -/
theorem C71_fibonacci {n k : Nat} (hk : k < n) :
    dot (fibonacci n k) (fibonacci n k) = 1 ∧ -1 < (fibonacci n k).2.2 ∧ (fibonacci n k).2.2 < 1 ∧
      ∀ j, j < n → (fibonacci n j).2.2 = (fibonacci n k).2.2 → j = k := by
  have hn : (0 : ℝ) < n := by exact_mod_cast (by omega : 0 < n)
  have hk' : (k : ℝ) + 1 ≤ n := by exact_mod_cast hk
  have hk0 : (0 : ℝ) ≤ k := by positivity
  have hz : (fibonacci n k).2.2 = (2 * k + 1 - n) / n := by unfold fibonacci; simp only; field_simp; ring
  have h1 : -1 < (fibonacci n k).2.2 := by rw [hz, lt_div_iff₀ hn]; linarith
  have h2 : (fibonacci n k).2.2 < 1 := by rw [hz, div_lt_iff₀ hn]; linarith
  refine ⟨?_, h1, h2, ?_⟩
  · have hsq : 0 ≤ 1 - (fibonacci n k).2.2 ^ 2 := by nlinarith
    have e : dot (fibonacci n k) (fibonacci n k) = (Real.sin (k * (Real.pi * (3 - Real.sqrt 5))) ^ 2 + Real.cos (k * (Real.pi * (3 - Real.sqrt 5))) ^ 2) *
        Real.sqrt (1 - (fibonacci n k).2.2 ^ 2) ^ 2 + (fibonacci n k).2.2 ^ 2 := by
      unfold dot fibonacci; simp only; ring
    rw [e, Real.sq_sqrt hsq, Real.sin_sq_add_cos_sq]; ring
  · intro j hj hjk
    have hz' : (fibonacci n j).2.2 = (2 * j + 1 - n) / n := by unfold fibonacci; simp only; field_simp; ring
    rw [hz, hz', div_left_inj' hn.ne'] at hjk
    have : (j : ℝ) = k := by linarith
    exact_mod_cast this

/-! ## The hypotheses can be met -/

/-- A point off the axes. -/
example : (-Real.pi < (1 : ℝ) ∧ (1 : ℝ) ≤ Real.pi) ∧ (0 < (2 : ℝ) ∧ (2 : ℝ) < Real.pi) := by
  have := Real.pi_gt_three
  refine ⟨⟨by linarith, by linarith⟩, by norm_num, by linarith⟩

/-- Lists of different lengths. -/
example : 1 < [0, 1, (2 : ℝ)].length ∧ 1 < [3, (4 : ℝ)].length := by simp

end Verif.Angles
