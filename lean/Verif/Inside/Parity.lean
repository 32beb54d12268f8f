import Verif.Inside.Model
import Verif.Geometry.Polygon
import Mathlib.Data.ZMod.Basic
import Mathlib.Tactic.LinearCombination

/-!
# Parity of the number of crossings
-/

namespace Verif.Inside

open Verif.Geometry Matrix

/-- `p` is on the segment between `a` and `b`. -/
def OnSeg (a b p : Vec 2) : Prop := ∃ t : ℝ, 0 ≤ t ∧ t ≤ 1 ∧ p = lineAt a b t

theorem orient_diff' (q p a b : Vec 2) : orient a b q - orient a b p = orient q p b - orient q p a := by
  unfold orient; ring

/-- `a` is on or right of the line from `q` to `p` and `b` left of it. -/
def Straddle (q p a b : Vec 2) : Prop := orient q p a ≤ 0 ∧ 0 < orient q p b

theorem onSeg_of_straddle {q p a b : Vec 2} (h : Straddle q p a b) (h0 : orient a b p = 0) : OnSeg a b p := by
  obtain ⟨h1, h2⟩ := h
  have hD : 0 < orient q p b - orient q p a := by linarith
  refine ⟨-orient q p a / (orient q p b - orient q p a), by apply div_nonneg <;> linarith, ?_, ?_⟩
  · rw [div_le_one hD]; linarith
  · ext i
    unfold lineAt
    simp only [Pi.add_apply, Pi.smul_apply, Pi.sub_apply, smul_eq_mul]
    rw [div_mul_eq_mul_div, eq_comm, ← eq_sub_iff_add_eq', div_eq_iff hD.ne']
    fin_cases i
    · simp only [orient, Fin.zero_eta, Fin.mk_one] at *
      linear_combination (p 0 - q 0) * h0
    · simp only [orient, Fin.zero_eta, Fin.mk_one] at *
      linear_combination (p 1 - q 1) * h0

/-- The crossing point of a straddling edge. -/
theorem straddle_point {q p a b : Vec 2} (h : Straddle q p a b) (i : Fin 2) :
    (orient q p b - orient q p a) * q i + orient a b q * (p i - q i) = orient q p b * a i - orient q p a * b i := by
  fin_cases i <;> simp only [orient, Fin.zero_eta, Fin.mk_one] <;> ring

theorem orient_comb (q p a b c : Vec 2) :
    orient b c p * orient q p a + orient c a p * orient q p b + orient a b p * orient q p c = 0 := by
  unfold orient; ring

theorem orient_total (p a b c : Vec 2) : orient b c p + orient c a p + orient a b p = orient a b c := by
  unfold orient; ring

/-- The reference point is below and left of all corners. -/
def Below (q : Vec 2) (v : Vec 2) : Prop := ∀ i, q i < v i

/-- If `p` is not below and left of `q` as well, a straddling edge is ahead. -/
theorem straddle_ahead {q p a b : Vec 2} (h : Straddle q p a b) (ha : Below q a) (hb : Below q b) {i : Fin 2} (hp : q i < p i) :
    0 < orient a b q := by
  have e := straddle_point h i
  obtain ⟨h1, h2⟩ := h
  have hq : orient q p b * q i - orient q p a * q i < orient q p b * a i - orient q p a * b i := by
    nlinarith [ha i, hb i]
  have : 0 < orient a b q * (p i - q i) := by nlinarith
  exact pos_of_mul_pos_left this (by linarith)

theorem straddle_behind {q p a b : Vec 2} (h : Straddle q p a b) (ha : Below q a) (hb : Below q b) {i : Fin 2} (hp : p i ≤ q i) (hp2 : ∀ j, p j ≤ q j) :
    orient a b q < 0 := by
  have e := straddle_point h i
  obtain ⟨h1, h2⟩ := h
  have hq : orient q p b * q i - orient q p a * q i < orient q p b * a i - orient q p a * b i := by
    nlinarith [ha i, hb i]
  by_contra hn
  nlinarith [mul_nonneg (not_lt.mp hn) (by linarith : 0 ≤ q i - p i)]

/-- The edge straddles the line and the crossing is before `p`. -/
def Cut (q p a b : Vec 2) : Prop := (Straddle q p a b ∧ orient a b p < 0) ∨ (Straddle q p b a ∧ orient b a p < 0)

open Classical in
/-- The indicator of `Cut`, for counting modulo 2. -/
noncomputable def cut (q p a b : Vec 2) : ZMod 2 := if Cut q p a b then 1 else 0

theorem cut_symm (q p a b : Vec 2) : cut q p a b = -cut q p b a := by
  classical
  rw [ZMod.neg_eq_self_mod_two]
  unfold cut
  congr 1
  rw [eq_iff_iff]
  exact or_comm

theorem cut_same {q p a b : Vec 2} (h : 0 < orient q p a ↔ 0 < orient q p b) : cut q p a b = 0 := by
  classical
  unfold cut
  rw [if_neg]
  rintro (⟨⟨h1, h2⟩, -⟩ | ⟨⟨h1, h2⟩, -⟩)
  · exact absurd (h.mpr h2) (not_lt.mpr h1)
  · exact absurd (h.mp h2) (not_lt.mpr h1)

open Classical in
theorem cut_left {q p a b : Vec 2} (ha : orient q p a ≤ 0) (hb : 0 < orient q p b) : cut q p a b = if orient a b p < 0 then 1 else 0 := by
  unfold cut
  congr 1
  rw [eq_iff_iff]
  constructor
  · rintro (⟨-, h⟩ | ⟨⟨h1, h2⟩, -⟩)
    · exact h
    · linarith
  · intro h; exact Or.inl ⟨⟨ha, hb⟩, h⟩

open Classical in
theorem cut_right {q p a b : Vec 2} (ha : 0 < orient q p a) (hb : orient q p b ≤ 0) : cut q p a b = if 0 < orient a b p then 1 else 0 := by
  have e := orient_swap a b p
  rw [cut_symm, ZMod.neg_eq_self_mod_two, cut_left hb ha, e]
  congr 1
  rw [eq_iff_iff]
  constructor <;> intro h <;> linarith

/-- `c` alone on its side of the line. -/
theorem triangle_apex {A B C u v w T : ℝ} (e : u * A + v * B + w * C = 0) (t : u + v + w = T) (hT : 0 ≤ T) (hu : u ≠ 0) (hv : v ≠ 0)
    (hw : w = 0 → 0 < u → 0 < v → False)
    (h : (A ≤ 0 ∧ B ≤ 0 ∧ 0 < C) ∨ (0 < A ∧ 0 < B ∧ C ≤ 0)) :
    ((u < 0 ↔ 0 < v) → ¬(0 < u ∧ 0 < v ∧ 0 < w)) ∧ (¬(u < 0 ↔ 0 < v) → 0 < u ∧ 0 < v ∧ 0 < w) := by
  constructor
  · intro hiff hin
    have := hiff.mpr hin.2.1
    linarith [hin.1]
  · intro hiff
    rcases lt_or_gt_of_ne hu with lu | lu
    · have lv : v < 0 := by
        rcases lt_or_gt_of_ne hv with h1 | h1
        · exact h1
        · exact absurd (by constructor <;> intro <;> assumption) hiff
      exfalso
      rcases h with ⟨hA, hB, hC⟩ | ⟨hA, hB, hC⟩
      · have : w * C ≤ 0 := by nlinarith
        have : w ≤ 0 := by by_contra hn; nlinarith
        linarith
      · have h1 : 0 < w * C := by nlinarith
        have : w ≤ 0 := by by_contra hn; nlinarith
        linarith
    · have lv : 0 < v := by
        rcases lt_or_gt_of_ne hv with h1 | h1
        · exact absurd ⟨fun h => absurd h (by linarith), fun h => absurd h (by linarith)⟩ hiff
        · exact h1
      refine ⟨lu, lv, ?_⟩
      rcases h with ⟨hA, hB, hC⟩ | ⟨hA, hB, hC⟩
      · have h1 : 0 ≤ w * C := by nlinarith
        have h2 : 0 ≤ w := by by_contra hn; nlinarith
        rcases h2.lt_or_eq with h3 | h3
        · exact h3
        · exact (hw h3.symm lu lv).elim
      · have h1 : w * C < 0 := by nlinarith
        by_contra hn
        nlinarith

/-- `p` on no side of the triangle. -/
def OffSides (p : Vec 2) (t : Vec 2 × Vec 2 × Vec 2) : Prop := ¬OnSeg t.1 t.2.1 p ∧ ¬OnSeg t.2.1 t.2.2 p ∧ ¬OnSeg t.2.2 t.1 p

theorem onSeg_symm {a b p : Vec 2} (h : OnSeg a b p) : OnSeg b a p := by
  obtain ⟨t, h0, h1, e⟩ := h
  refine ⟨1 - t, by linarith, by linarith, ?_⟩
  rw [e]
  ext i
  simp only [lineAt, Pi.add_apply, Pi.smul_apply, Pi.sub_apply, smul_eq_mul]
  ring

theorem onSeg_of_weights {p a b c : Vec 2} (hw : orient a b p = 0) (hu : 0 < orient b c p) (hv : 0 < orient c a p) : OnSeg a b p := by
  have hs : 0 < orient b c p + orient c a p := by linarith
  refine ⟨orient c a p / (orient b c p + orient c a p), (div_pos hv hs).le, ?_, ?_⟩
  · rw [div_le_one hs]; linarith
  · ext i
    simp only [lineAt, Pi.add_apply, Pi.smul_apply, Pi.sub_apply, smul_eq_mul]
    rw [div_mul_eq_mul_div, eq_comm, ← eq_sub_iff_add_eq', div_eq_iff hs.ne']
    fin_cases i
    · simp only [orient, Fin.zero_eta] at *
      linear_combination (p 0 - c 0) * hw
    · simp only [orient, Fin.mk_one] at *
      linear_combination (p 1 - c 1) * hw

open Classical in
theorem cut_apex {q p a b c : Vec 2} (hT : 0 ≤ orient a b c) (hoff : OffSides p (a, b, c)) (hab : 0 < orient q p a ↔ 0 < orient q p b)
    (hc : ¬(0 < orient q p a ↔ 0 < orient q p c)) :
    cut q p a b + cut q p b c + cut q p c a = if 0 < orient b c p ∧ 0 < orient c a p ∧ 0 < orient a b p then 1 else 0 := by
  have e := orient_comb q p a b c
  have t := orient_total p a b c
  rw [cut_same hab, zero_add]
  by_cases hA : 0 < orient q p a
  · have hB := hab.mp hA
    have hC : orient q p c ≤ 0 := by
      by_contra hn; exact hc ⟨fun _ => not_le.mp hn, fun _ => hA⟩
    have hu : orient b c p ≠ 0 := fun h0 => hoff.2.1 (onSeg_symm (onSeg_of_straddle ⟨hC, hB⟩ (by rw [orient_swap, h0, neg_zero])))
    have hv : orient c a p ≠ 0 := fun h0 => hoff.2.2 (onSeg_of_straddle ⟨hC, hA⟩ h0)
    have key := triangle_apex e t hT hu hv (fun h0 h1 h2 => hoff.1 (onSeg_of_weights h0 h1 h2)) (Or.inr ⟨hA, hB, hC⟩)
    rw [cut_right hB hC, cut_left hC hA]
    rcases lt_or_gt_of_ne hu with lu | lu <;> rcases lt_or_gt_of_ne hv with lv | lv <;>
      simp only [lu, lv, not_lt.mpr lu.le, not_lt.mpr lv.le, if_true, if_false, false_and, and_false, true_and] at key ⊢
    · exact absurd (key.2 (by simp)) (by simp)
    · rfl
    · rfl
    · rw [if_pos (key.2 (by simp))]
      rfl
  · have hA' := not_lt.mp hA
    have hB : orient q p b ≤ 0 := not_lt.mp fun h => hA (hab.mpr h)
    have hC : 0 < orient q p c := by
      by_contra hn; exact hc ⟨fun h => absurd h hA, fun h => absurd h hn⟩
    have hu : orient b c p ≠ 0 := fun h0 => hoff.2.1 (onSeg_of_straddle ⟨hB, hC⟩ h0)
    have hv : orient c a p ≠ 0 := fun h0 => hoff.2.2 (onSeg_symm (onSeg_of_straddle ⟨hA', hC⟩ (by rw [orient_swap, h0, neg_zero])))
    have key := triangle_apex e t hT hu hv (fun h0 h1 h2 => hoff.1 (onSeg_of_weights h0 h1 h2)) (Or.inl ⟨hA', hB, hC⟩)
    rw [cut_left hB hC, cut_right hC hA']
    rcases lt_or_gt_of_ne hu with lu | lu <;> rcases lt_or_gt_of_ne hv with lv | lv <;>
      simp only [lu, lv, not_lt.mpr lu.le, not_lt.mpr lv.le, if_true, if_false, false_and, and_false, true_and] at key ⊢
    · exact absurd (key.2 (by simp)) (by simp)
    · rfl
    · rfl
    · rw [if_pos (key.2 (by simp))]
      rfl

open Classical in
theorem cut_triangle {q p : Vec 2} {t : Vec 2 × Vec 2 × Vec 2} (hT : 0 ≤ orient t.1 t.2.1 t.2.2) (hoff : OffSides p t) (hqp : q ≠ p) :
    closedSum (cut q p) [t.1, t.2.1, t.2.2] = if InTriangle p t then 1 else 0 := by
  obtain ⟨a, b, c⟩ := t
  rw [closedSum_three]
  have hin : InTriangle p (a, b, c) ↔ 0 < orient a b p ∧ 0 < orient b c p ∧ 0 < orient c a p := Iff.rfl
  simp only at hT
  obtain ⟨o1, o2, o3⟩ := hoff
  by_cases hab : 0 < orient q p a ↔ 0 < orient q p b
  · by_cases hac : 0 < orient q p a ↔ 0 < orient q p c
    · rw [cut_same hab, cut_same (hab.symm.trans hac), cut_same hac.symm, if_neg]
      · simp
      rw [hin]
      rintro ⟨h1, h2, h3⟩
      have e := orient_comb q p a b c
      have t := orient_total p a b c
      by_cases hA : 0 < orient q p a
      · have := hab.mp hA
        have := hac.mp hA
        nlinarith [mul_pos h1 (hac.mp hA), mul_pos h2 hA, mul_pos h3 (hab.mp hA)]
      · have hA' := not_lt.mp hA
        have hB : orient q p b ≤ 0 := not_lt.mp fun h => hA (hab.mpr h)
        have hC : orient q p c ≤ 0 := not_lt.mp fun h => hA (hac.mpr h)
        have m1 := mul_nonneg h2.le (neg_nonneg.mpr hA')
        have m2 := mul_nonneg h3.le (neg_nonneg.mpr hB)
        have m3 := mul_nonneg h1.le (neg_nonneg.mpr hC)
        have eA : orient q p a = 0 := by nlinarith
        have eB : orient q p b = 0 := by nlinarith
        have eC : orient q p c = 0 := by nlinarith
        apply hqp
        have hT0 : orient a b c ≠ 0 := by linarith
        ext i
        have : orient a b c * (q i - p i) = 0 := by
          fin_cases i
          · simp only [orient, Fin.zero_eta] at *
            linear_combination (b 0 - c 0) * eA + (c 0 - a 0) * eB + (a 0 - b 0) * eC
          · simp only [orient, Fin.mk_one] at *
            linear_combination (b 1 - c 1) * eA + (c 1 - a 1) * eB + (a 1 - b 1) * eC
        have h0 := (mul_eq_zero.mp this).resolve_left hT0
        linarith
    · rw [cut_apex hT ⟨o1, o2, o3⟩ hab hac]
      congr 1
      rw [eq_iff_iff, hin]; tauto
  · by_cases hbc : 0 < orient q p b ↔ 0 < orient q p c
    · have hT2 : 0 ≤ orient b c a := by rw [show orient b c a = orient a b c by unfold orient; ring]; exact hT
      have := cut_apex hT2 ⟨o2, o3, o1⟩ hbc (fun h => hab h.symm)
      rw [show cut q p a b + cut q p b c + cut q p c a = cut q p b c + cut q p c a + cut q p a b by ring, this]
      congr 1
      rw [eq_iff_iff, hin]; tauto
    · have hca : 0 < orient q p c ↔ 0 < orient q p a := by tauto
      have hT2 : 0 ≤ orient c a b := by rw [show orient c a b = orient a b c by unfold orient; ring]; exact hT
      have := cut_apex hT2 ⟨o3, o1, o2⟩ hca (fun h => hbc h.symm)
      rw [show cut q p a b + cut q p b c + cut q p c a = cut q p c a + cut q p a b + cut q p b c by ring, this]
      congr 1

end Verif.Inside
