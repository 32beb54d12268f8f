import Mathlib.Analysis.Complex.Norm
import Mathlib.Algebra.BigOperators.Group.Finset.Basic

/-!
# Model of the projection back onto a reference

`pyroomacoustics/bss/common.py`, `projection_back` (29-84), for complex data with frames, bins and channels. Numbers are exact.
-/

namespace Verif.Bss

/-- Line 70. -/
noncomputable def num (frames : Nat) (Y : Nat → Nat → Nat → ℂ) (ref : Nat → Nat → ℂ) (f k : Nat) : ℂ :=
  ∑ n ∈ Finset.range frames, starRingEnd ℂ (ref n f) * Y n f k

/-- Line 71. -/
noncomputable def denom (frames : Nat) (Y : Nat → Nat → Nat → ℂ) (f k : Nat) : ℝ := ∑ n ∈ Finset.range frames, ‖Y n f k‖ ^ 2

open Classical in
/-- Lines 73-75. -/
noncomputable def scale (frames : Nat) (Y : Nat → Nat → Nat → ℂ) (ref : Nat → Nat → ℂ) (f k : Nat) : ℂ :=
  if denom frames Y f k > 0 then num frames Y ref f k / denom frames Y f k else 1

open Classical in
/-- Lines 77-79. -/
noncomputable def clipUp (c : ℂ) : Option ℝ → ℂ
  | none => c
  | some up => if ‖c‖ > up ∧ ‖c‖ > 0 then c * ((up / ‖c‖ : ℝ) : ℂ) else c

open Classical in
/-- Lines 81-83. -/
noncomputable def clipDown (c : ℂ) : Option ℝ → ℂ
  | none => c
  | some down => if ‖c‖ < down ∧ ‖c‖ > 0 then c * ((down / ‖c‖ : ℝ) : ℂ) else c

/-- `projection_back` (29-84): the entry of bin `f` and channel `k`. -/
noncomputable def projectionBack (frames : Nat) (Y : Nat → Nat → Nat → ℂ) (ref : Nat → Nat → ℂ) (up down : Option ℝ) (f k : Nat) : ℂ :=
  clipDown (clipUp (scale frames Y ref f k) up) down

end Verif.Bss
