import Verif.Histogram.Model
import Mathlib.Data.Nat.Log
import Mathlib.Algebra.BigOperators.Group.List.Basic
import Mathlib.Tactic.Ring
import Mathlib.Tactic.Linarith

/-! Helper lemmas for the histogram model. -/

namespace Verif.Histogram

variable {α : Type*} {P : Type*}

/-- Closed form of the doubling loop. -/
theorem doubleUntil_eq (val cur : Nat) (h : 0 < cur) :
    doubleUntil val cur h =
      if val < cur then cur else cur * 2 ^ (Nat.log 2 (val / cur) + 1) := by
  fun_induction doubleUntil val cur h with
  | case1 cur h hge ih =>
    rw [ih, if_neg (show ¬ val < cur by omega)]
    by_cases h2 : val < cur * 2
    · rw [if_pos h2]
      have : val / cur = 1 := Nat.div_eq_of_lt_le (by omega) (by omega)
      rw [this]; simp
    · rw [if_neg h2]
      have hdiv : val / (cur * 2) = val / cur / 2 := (Nat.div_div_eq_div_mul _ _ _).symm
      have hge2 : 2 ≤ val / cur := (Nat.le_div_iff_mul_le h).mpr (by omega)
      rw [hdiv, Nat.log_div_base]
      have : 0 < Nat.log 2 (val / cur) := Nat.log_pos (by omega) hge2
      obtain ⟨k, hk⟩ : ∃ k, Nat.log 2 (val / cur) = k + 1 := ⟨_, (Nat.succ_pred_eq_of_pos this).symm⟩
      rw [hk]; simp only [Nat.add_sub_cancel]; ring
  | case2 cur h hlt => rw [if_pos (by omega)]

theorem lt_doubleUntil (val cur : Nat) (h : 0 < cur) : val < doubleUntil val cur h := by
  fun_induction doubleUntil val cur h with
  | case1 cur h hge ih => exact ih
  | case2 cur h hlt => omega

theorem le_doubleUntil (val cur : Nat) (h : 0 < cur) : cur ≤ doubleUntil val cur h := by
  fun_induction doubleUntil val cur h with
  | case1 cur h hge ih => omega
  | case2 cur h hlt => omega

/-- Size after the growth test. -/
def grown (n i : Nat) : Nat := if i < n then n else n * 2 ^ (Nat.log 2 (i / n) + 1)

theorem lt_grown {n : Nat} (hn : 0 < n) (i : Nat) : i < grown n i := by
  have := lt_doubleUntil i n hn
  rwa [doubleUntil_eq] at this

theorem le_grown {n : Nat} (hn : 0 < n) (i : Nat) : n ≤ grown n i := by
  have := le_doubleUntil i n hn
  rwa [doubleUntil_eq] at this

/-- What growing must do. -/
structure GrowsTo [Zero α] (h h' : Hist α) (nr nc : Nat) : Prop where
  rows : h'.rows = nr
  cols : h'.cols = nc
  inside : ∀ r c, r < nr → c < nc →
    h'.array r c = (if r < h.rows ∧ c < h.cols then h.array r c else 0) ∧
    h'.counts r c = (if r < h.rows ∧ c < h.cols then h.counts r c else 0)

theorem growRows_spec [Zero α] (junk : Junk α) (h : Hist α) (hr : 0 < h.rows) (row : Nat) :
    ∃ h', h.growRows junk row = some h' ∧ GrowsTo h h' (grown h.rows row) h.cols := by
  unfold Hist.growRows grown
  by_cases hlt : row < h.rows
  · refine ⟨h, by rw [if_neg (by omega)], ?_⟩
    rw [if_pos hlt]
    exact ⟨rfl, rfl, fun r c h1 h2 => by simp [h1, h2]⟩
  · rw [if_pos (by omega), if_neg hlt]
    unfold getNewSize
    rw [dif_pos hr]
    refine ⟨_, rfl, ?_⟩
    have h1 := lt_doubleUntil row h.rows hr
    have he := doubleUntil_eq row h.rows hr
    rw [if_neg hlt] at he
    rw [← he]
    unfold Hist.resizeRows
    rw [if_pos (by omega)]
    refine ⟨rfl, rfl, fun r c h2 h3 => ?_⟩
    simp only [zeroBottom, conservative]
    generalize doubleUntil row h.rows hr = n at *
    by_cases hr' : r < h.rows
    · rw [if_neg (by omega), if_pos (by omega), if_pos ⟨hr', h3⟩, if_neg (by omega),
        if_pos (by omega), if_pos ⟨hr', h3⟩]; simp
    · rw [if_pos (by omega), if_neg (by omega), if_pos (by omega), if_neg (by omega)]; simp

theorem growCols_spec [Zero α] (junk : Junk α) (h : Hist α) (hc : 0 < h.cols) (col : Nat) :
    ∃ h', h.growCols junk col = some h' ∧ GrowsTo h h' h.rows (grown h.cols col) := by
  unfold Hist.growCols grown
  by_cases hlt : col < h.cols
  · refine ⟨h, by rw [if_neg (by omega)], ?_⟩
    rw [if_pos hlt]
    exact ⟨rfl, rfl, fun r c h1 h2 => by simp [h1, h2]⟩
  · rw [if_pos (by omega), if_neg hlt]
    unfold getNewSize
    rw [dif_pos hc]
    refine ⟨_, rfl, ?_⟩
    have h1 := lt_doubleUntil col h.cols hc
    have he := doubleUntil_eq col h.cols hc
    rw [if_neg hlt] at he
    rw [← he]
    unfold Hist.resizeCols
    rw [if_pos (by omega)]
    refine ⟨rfl, rfl, fun r c h2 h3 => ?_⟩
    simp only [zeroRight, conservative]
    generalize doubleUntil col h.cols hc = n at *
    by_cases hc' : c < h.cols
    · rw [if_neg (by omega), if_pos (by omega), if_pos ⟨h2, hc'⟩, if_neg (by omega),
        if_pos (by omega), if_pos ⟨h2, hc'⟩]; simp
    · rw [if_pos (by omega), if_neg (by omega), if_pos (by omega), if_neg (by omega)]; simp

end Verif.Histogram
