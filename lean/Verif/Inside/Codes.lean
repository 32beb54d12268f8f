import Verif.Inside.Parity

/-!
# Result codes of the walls, and the counters
-/

namespace Verif.Inside

open Verif.Geometry Matrix

/-! ## Counters -/

theorem flags_fold (codes : List Int) (s : Flags) :
    ((codes.foldl flagStep s).ambiguous = true ↔ s.ambiguous = true ∨ 2 ∈ codes) ∧
    ((codes.foldl flagStep s).border = true ↔ s.border = true ∨ ∃ c ∈ codes, 0 < c ∧ c % 2 ≠ 0) ∧
    (codes.foldl flagStep s).count = s.count + (codes.filter fun c => decide (0 ≤ c)).length := by
  induction codes generalizing s with
  | nil => simp
  | cons c codes ih =>
    rw [List.foldl_cons]
    obtain ⟨h1, h2, h3⟩ := ih (flagStep s c)
    rw [h1, h2, h3]
    unfold flagStep
    by_cases c1 : c > 0 ∧ c % 2 ≠ 0
    · have c2 : c ≠ 2 := by rintro rfl; exact c1.2 rfl
      have c3 : c ≥ 0 := c1.1.le
      have c4 : (2 : Int) ≠ c := fun h => c2 h.symm
      simp [c1, c3, c4]
      omega
    · by_cases c2 : c = 2
      · subst c2
        simp
        omega
      · have c4 : (2 : Int) ≠ c := fun h => c2 h.symm
        by_cases c3 : c ≥ 0
        · simp [c1, c2, c3, c4]
          omega
        · simp [c1, c2, c3, c4]

theorem flags_eq (codes : List Int) :
    ((flags codes).ambiguous = true ↔ 2 ∈ codes) ∧ ((flags codes).border = true ↔ ∃ c ∈ codes, 0 < c ∧ c % 2 ≠ 0) ∧
    (flags codes).count = (codes.filter fun c => decide (0 ≤ c)).length := by
  have := flags_fold codes ⟨false, false, 0⟩
  simpa [flags] using this

/-! ## Walls of a polygon -/

theorem pathEdges_eq {α : Type} (d : α) (m : List α) :
    pathEdges m = (List.range (m.length - 1)).map fun i => (m.getD i d, m.getD (i + 1) d) := by
  induction m with
  | nil => rfl
  | cons a m ih =>
    cases m with
    | nil => rfl
    | cons b m =>
      rw [pathEdges, ih]
      simp only [List.length_cons, Nat.add_sub_cancel]
      rw [List.range_succ_eq_map, List.map_cons, List.map_map]
      rfl

theorem polygonWalls_eq (l : List (Vec 2)) : polygonWalls l = edges l := by
  cases l with
  | nil => rfl
  | cons a t =>
    unfold polygonWalls
    rw [show edges (a :: t) = pathEdges (a :: t ++ [a]) from rfl, pathEdges_eq 0]
    simp only [List.length_append, List.length_cons, List.length_nil, Nat.add_sub_cancel, zero_add]
    apply List.map_congr_left
    intro i hi
    rw [List.mem_range] at hi
    have e1 : (a :: t ++ [a]).getD i 0 = (a :: t).getD i 0 := by
      rw [List.getD_append]; simpa using hi
    have e2 : (a :: t ++ [a]).getD (i + 1) 0 = (a :: t).getD ((i + 1) % (t.length + 1)) 0 := by
      rcases Nat.lt_or_ge (i + 1) (t.length + 1) with h | h
      · rw [List.getD_append _ _ _ _ (by simpa using h), Nat.mod_eq_of_lt h]
      · have : i = t.length := by omega
        subst this
        rw [List.getD_append_right _ _ _ _ (by simp)]
        simp
    rw [e1, e2]

/-! ## Codes -/

/-- The segment from `q` to `p` crosses the edge; corners on the line count as right of it. -/
def Crossing (q p a b : Vec 2) : Prop :=
  (Straddle q p a b ∧ 0 < orient a b q ∧ orient a b p < 0) ∨ (Straddle q p b a ∧ 0 < orient b a q ∧ orient b a p < 0)

theorem code_clear {eps : ℝ} (he : 0 < eps) {q p a b : Vec 2} (hq : Clear eps a b q) (hp : Clear eps a b p) :
    ((intersection2d eps q p a b).1 ≤ 0 ∨ (intersection2d eps q p a b).1 = 2) ∧
    ((intersection2d eps q p a b).1 ≠ 2 → (0 ≤ (intersection2d eps q p a b).1 ↔ Crossing q p a b)) ∧
    (Clear eps q p a → Clear eps q p b → (intersection2d eps q p a b).1 ≠ 2) := by
  have hD := orient_diff' q p a b
  have s1 := orient_swap a b q
  have s2 := orient_swap a b p
  have hq0 : ccw3p eps a b q ≠ 0 := fun h => (ccw_zero he _ _ _).mp h hq
  have hp0 : ccw3p eps a b p ≠ 0 := fun h => (ccw_zero he _ _ _).mp h hp
  have hqc := (ccw_cases he a b q).resolve_left fun h => hq0 h.1
  have hpc := (ccw_cases he a b p).resolve_left fun h => hp0 h.1
  by_cases h1 : ccw3p eps q p a = ccw3p eps q p b
  · have hc : (intersection2d eps q p a b).1 = -1 := by
      unfold intersection2d checkIntersection2d
      simp only [h1, if_true]
      norm_num
    rw [hc]
    refine ⟨by norm_num, fun _ => ⟨fun h => absurd h (by norm_num), fun hx => ?_⟩, by norm_num⟩
    exfalso
    have ha := ccw_cases he q p a
    have hb := ccw_cases he q p b
    rcases ha with ⟨a1, a2⟩ | ⟨a1, a2⟩ | ⟨a1, a2⟩ <;> rcases hb with ⟨b1, b2⟩ | ⟨b1, b2⟩ | ⟨b1, b2⟩ <;> rw [a1, b1] at h1 <;> try (norm_num at h1)
    · rw [abs_lt] at a2 b2
      rcases hx with ⟨⟨x1, x2⟩, x3, x4⟩ | ⟨⟨x1, x2⟩, x3, x4⟩ <;>
        rcases hqc with ⟨-, q2⟩ | ⟨-, q2⟩ <;> rcases hpc with ⟨-, p2⟩ | ⟨-, p2⟩ <;> linarith
    · rcases hx with ⟨⟨x1, x2⟩, x3, x4⟩ | ⟨⟨x1, x2⟩, x3, x4⟩ <;> linarith
    · rcases hx with ⟨⟨x1, x2⟩, x3, x4⟩ | ⟨⟨x1, x2⟩, x3, x4⟩ <;> linarith
  by_cases h2 : ccw3p eps a b q = ccw3p eps a b p
  · have hc : (intersection2d eps q p a b).1 = -1 := by
      unfold intersection2d checkIntersection2d
      simp only [h1, h2, if_true, if_false]
      norm_num
    rw [hc]
    refine ⟨by norm_num, fun _ => ⟨fun h => absurd h (by norm_num), fun hx => ?_⟩, by norm_num⟩
    exfalso
    rcases hqc with ⟨q1, q2⟩ | ⟨q1, q2⟩ <;> rcases hpc with ⟨p1, p2⟩ | ⟨p1, p2⟩ <;> rw [q1, p1] at h2 <;> (try (norm_num at h2)) <;>
      rcases hx with ⟨⟨x1, x2⟩, x3, x4⟩ | ⟨⟨x1, x2⟩, x3, x4⟩ <;> linarith
  · have hE : ¬|orient q p b - orient q p a| < eps := by
      rw [← hD]
      rcases hqc with ⟨q1, q2⟩ | ⟨q1, q2⟩ <;> rcases hpc with ⟨p1, p2⟩ | ⟨p1, p2⟩ <;> rw [q1, p1] at h2 <;> (try (norm_num at h2)) <;>
        intro h <;> rw [abs_lt] at h <;> linarith
    have hcheck : checkIntersection2d eps q p a b = if ccw3p eps q p a = 0 ∨ ccw3p eps q p b = 0 then 2 else 0 := by
      unfold checkIntersection2d
      simp only [if_neg h1, if_neg h2, hq0, hp0, or_self, if_false, zero_add]
    have hc : (intersection2d eps q p a b).1 = if ccw3p eps q p a = 0 ∨ ccw3p eps q p b = 0 then 2 else 0 := by
      unfold intersection2d
      simp only
      rw [hcheck, if_neg (by split_ifs <;> norm_num), denom_eq, if_neg hE]
    rw [hc]
    refine ⟨by split_ifs <;> norm_num, fun hne => ?_, fun ca cb => ?_⟩
    · have hz : ¬(ccw3p eps q p a = 0 ∨ ccw3p eps q p b = 0) := by
        intro h; rw [if_pos h] at hne; exact hne rfl
      rw [if_neg hz]
      refine ⟨fun _ => ?_, fun _ => le_refl _⟩
      push Not at hz
      have ha := (ccw_cases he q p a).resolve_left fun h => hz.1 h.1
      have hb := (ccw_cases he q p b).resolve_left fun h => hz.2 h.1
      unfold Crossing Straddle
      rw [s1, s2]
      rcases ha with ⟨a1, a2⟩ | ⟨a1, a2⟩ <;> rcases hb with ⟨b1, b2⟩ | ⟨b1, b2⟩ <;> rw [a1, b1] at h1 <;> (try (norm_num at h1))
      · right
        rcases hqc with ⟨q1, q2⟩ | ⟨q1, q2⟩ <;> rcases hpc with ⟨p1, p2⟩ | ⟨p1, p2⟩ <;> rw [q1, p1] at h2 <;> (try (norm_num at h2))
        · linarith
        · refine ⟨⟨?_, ?_⟩, ?_, ?_⟩ <;> linarith
      · left
        rcases hqc with ⟨q1, q2⟩ | ⟨q1, q2⟩ <;> rcases hpc with ⟨p1, p2⟩ | ⟨p1, p2⟩ <;> rw [q1, p1] at h2 <;> (try (norm_num at h2))
        · refine ⟨⟨?_, ?_⟩, ?_, ?_⟩ <;> linarith
        · linarith
    · rw [if_neg]
      · norm_num
      · rintro (h | h)
        · exact (ccw_zero he _ _ _).mp h ca
        · exact (ccw_zero he _ _ _).mp h cb

/-- A point on the wall: the bit `ENDPT` is set. -/
theorem code_on {eps : ℝ} (he : 0 < eps) {q p a b : Vec 2} (hq : Clear (2 * eps) a b q) (hp : OnSeg a b p) :
    0 < (intersection2d eps q p a b).1 ∧ (intersection2d eps q p a b).1 % 2 ≠ 0 := by
  obtain ⟨t, t0, t1, e⟩ := hp
  have ep : orient a b p = 0 := by
    rw [e]; unfold orient lineAt; simp; ring
  have ea : orient q p a = t * -(orient a b q) := by
    rw [e]; unfold orient lineAt; simp; ring
  have eb : orient q p b = (1 - t) * orient a b q := by
    rw [e]; unfold orient lineAt; simp; ring
  have hD := orient_diff' q p a b
  have cp : ccw3p eps a b p = 0 := by
    rw [ccw_zero he]; unfold Clear; rw [ep, abs_zero]; exact not_le.mpr he
  unfold Clear at hq
  have h1 : ccw3p eps q p a ≠ ccw3p eps q p b := by
    intro h
    rcases le_abs.mp hq with hq | hq
    · rcases ccw_cases he q p a with ⟨a1, a2⟩ | ⟨a1, a2⟩ | ⟨a1, a2⟩ <;> rcases ccw_cases he q p b with ⟨b1, b2⟩ | ⟨b1, b2⟩ | ⟨b1, b2⟩ <;>
        rw [a1, b1] at h <;> (try (norm_num at h))
      · rw [abs_lt] at a2 b2; linarith
      · nlinarith
      · nlinarith
    · rcases ccw_cases he q p a with ⟨a1, a2⟩ | ⟨a1, a2⟩ | ⟨a1, a2⟩ <;> rcases ccw_cases he q p b with ⟨b1, b2⟩ | ⟨b1, b2⟩ | ⟨b1, b2⟩ <;>
        rw [a1, b1] at h <;> (try (norm_num at h))
      · rw [abs_lt] at a2 b2; linarith
      · nlinarith
      · nlinarith
  have cq : ccw3p eps a b q ≠ 0 := by
    rw [Ne, ccw_zero he, not_not]; unfold Clear; linarith
  have hcheck : checkIntersection2d eps q p a b = 1 + if ccw3p eps q p a = 0 ∨ ccw3p eps q p b = 0 then 2 else 0 := by
    unfold checkIntersection2d
    simp only [if_neg h1, cp, if_neg cq, or_true, if_true]
  have hE : ¬|orient q p b - orient q p a| < eps := by
    rw [← hD, ep, sub_zero]; linarith
  have hc : (intersection2d eps q p a b).1 = 1 + if ccw3p eps q p a = 0 ∨ ccw3p eps q p b = 0 then 2 else 0 := by
    unfold intersection2d
    simp only
    rw [hcheck, if_neg (by split_ifs <;> norm_num), denom_eq, if_neg hE]
  rw [hc]
  constructor <;> split_ifs <;> norm_num

/-- Code `BNDRY` alone: both ends clear of the wall, and a corner within the tolerance of the segment. -/
theorem code_bndry {eps : ℝ} (he : 0 < eps) {q p a b : Vec 2} (h : (intersection2d eps q p a b).1 = 2) :
    Clear eps a b q ∧ Clear eps a b p ∧ (¬Clear eps q p a ∨ ¬Clear eps q p b) := by
  classical
  obtain ⟨_, _, _, _, _, _, _, _, _, _, _, _, _, _, _, _, _, hcode⟩ := C27_segments he q p a b (by rw [h]; norm_num)
  rw [h] at hcode
  by_cases h1 : Clear eps a b q ∧ Clear eps a b p
  · refine ⟨h1.1, h1.2, ?_⟩
    by_contra hn
    push Not at hn
    rw [if_pos h1, if_pos hn] at hcode
    norm_num at hcode
  · rw [if_neg h1] at hcode
    split_ifs at hcode <;> norm_num at hcode

end Verif.Inside
