import Verif.Py
import Mathlib.Analysis.SpecialFunctions.Log.Basic

/-!
# Mel scale and mel filter bank (`acoustics.py` 968-1020)

Exact numbers. The logarithm is only modelled for positive arguments.
-/

namespace Verif.Mel

open Verif.Py

/-- `melscale` (968-970). -/
noncomputable def melscale (f : ℝ) : ℝ := 1125 * Real.log (1 + f / 700)

/-- `invmelscale` (973-975). -/
noncomputable def invmelscale (b : ℝ) : ℝ := 700 * (Real.exp (b / 1125) - 1)

/-- `f[j]`, the corners of the triangles in bins (1002-1006). -/
noncomputable def edge (M N : Nat) (fs fl fh : ℝ) (j : Nat) : ℝ :=
  (N / fs) * invmelscale (melscale (fl * fs) + (j * (melscale (fh * fs) - melscale (fl * fs)) / (M + 1)))

open Classical in
/-- `H[m - 1, k]` after the assignments of one turn of the loop (1012-1019), here counted from zero: the second assignment overwrites the first. -/
noncomputable def entry (f : Nat → ℝ) (m k : Nat) : ℝ :=
  if f (m + 1) ≤ k ∧ (k : ℝ) < f (m + 2) then 2 * (f (m + 2) - k) / ((f (m + 2) - f m) * (f (m + 2) - f (m + 1)))
  else if f m < k ∧ (k : ℝ) < f (m + 1) then 2 * (k - f m) / ((f (m + 2) - f m) * (f (m + 1) - f m))
  else 0

open Classical in
/-- `melfilterbank` (978-1021). -/
noncomputable def melfilterbank (M N : Nat) (fs fl fh : ℝ) : Except Err (List (List ℝ)) :=
  if fs = 0 then .error .zeroDivision
  else .ok ((List.range M).map fun (m : Nat) => (List.range (N / 2 + 1)).map fun (k : Nat) => entry (edge M N fs fl fh) m k)

end Verif.Mel
