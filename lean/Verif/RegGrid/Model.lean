import Verif.Py
import Mathlib.Data.List.Sort
import Mathlib.Data.Finset.Sort
import Mathlib.Analysis.SpecialFunctions.Trigonometric.Basic

/-!
# Detection of regular grids on the sphere (`doa/utils.py` 214-261)

Arrays of angles are lists of real numbers. `RegularGrid` (12) is a pair.
-/

namespace Verif.RegGrid

open Verif.Py

open Classical in
/-- `np.unique`: sorted, without repetitions. -/
noncomputable def unique (l : List ℝ) : List ℝ := l.toFinset.sort (· ≤ ·)

/-- The elementwise test of `np.allclose(a, b)` with its default tolerances. -/
def Close (a b : ℝ) : Prop := |a - b| ≤ 1e-8 + 1e-5 * |b|

/-- The order of `np.lexsort(grid.T)`: the last key, the colatitude, is the primary one. -/
def LexLe (p q : ℝ × ℝ) : Prop := p.2 < q.2 ∨ (p.2 = q.2 ∧ p.1 ≤ q.1)

open Classical in
/-- `grid[np.lexsort(grid.T), :]` (253 and 255). -/
noncomputable def lexsort (l : List (ℝ × ℝ)) : List (ℝ × ℝ) := l.insertionSort LexLe

/-- `np.meshgrid` of the two lists, flattened (251-252): one row per colatitude. -/
def mesh (A C : List ℝ) : List (ℝ × ℝ) := C.flatMap fun (c : ℝ) => A.map fun (a : ℝ) => (a, c)

/-- `np.diff(az_loop)` (244-247), where `first` is `azimuth_unique[0]`. -/
noncomputable def loopDiff (A : List ℝ) (first : ℝ) : List ℝ :=
  let loop := A ++ [first + 2 * Real.pi]
  List.zipWith (fun (x y : ℝ) => y - x) loop loop.tail

/-- Both coordinates close, entry by entry. -/
def GridClose (R O : List (ℝ × ℝ)) : Prop := List.Forall₂ (fun (r o : ℝ × ℝ) => Close r.1 o.1 ∧ Close r.2 o.2) R O

open Classical in
/-- `detect_regular_grid` (214-261). -/
noncomputable def detectRegularGrid (azimuth colatitude : List ℝ) : Except Err (Option (List ℝ × List ℝ)) :=
  if azimuth.length ≠ colatitude.length then .ok none
  else
    let A := unique azimuth
    let C := unique colatitude
    if A.length * C.length = azimuth.length then
      match A.head? with
      | none => .error .indexError
      | some first =>
        if ∀ d ∈ loopDiff A first, Close d (2 * Real.pi / A.length) then
          if GridClose (lexsort (mesh A C)) (lexsort (List.zip azimuth colatitude)) then .ok (some (A, C)) else .ok none
        else .ok none
    else .ok none

end Verif.RegGrid
