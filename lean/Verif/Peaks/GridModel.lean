import Verif.Peaks.Model
import Verif.Py

/-!
# Model of the search of peaks on grids

`pyroomacoustics/doa/grid.py`, 109-122 (`GridCircle.find_peaks`), 228-264 (`GridSphere._compute_neighbors`) and 294-317
(`GridSphere.find_peaks`). Values are real numbers. `np.argsort` is an argument, as in `Verif.Peaks.Model`.
-/

namespace Verif.Peaks

/-- `cands[np.argsort(vals)[-k:]]`, `vals` being the values at the candidates (116-122, 315-317). -/
def largest (argsort : List ℝ → List Nat) (v : Nat → ℝ) (cands : List Nat) (k : Int) : List Nat :=
  (Py.slice (argsort (cands.map v)) (some (-k)) none).map fun i => cands.getD i 0

/-- Lines 111-115: the candidates of a circular grid; `n_points` is the length of `values`. -/
noncomputable def circleCandidates (values : List ℝ) (sort : List (Option ℝ) → List Nat → List Nat) : List Nat :=
  let ext := values ++ Py.slice values none (some 10)
  unique ((detectPeaks (ext.map some) none 1 0 .rising false false sort).map (· % values.length))

/-- `GridCircle.find_peaks(k)` (109-122). -/
noncomputable def circlePeaks (values : List ℝ) (k : Int) (sort : List (Option ℝ) → List Nat → List Nat) (argsort : List ℝ → List Nat) : List Nat :=
  largest argsort (fun i => values.getD i 0) (circleCandidates values sort) k

/-- `adjacency[u].add(v)`. -/
def addEdge (adj : Nat → Finset Nat) (u v : Nat) : Nat → Finset Nat := fun w => if w = u then insert v (adj w) else adj w

/-- Lines 237-249: the neighbours from the triangles of the convex hull. -/
def adjacency (simplices : List (Nat × Nat × Nat)) : Nat → Finset Nat :=
  simplices.foldl (fun adj t =>
    let adj := addEdge adj t.1 t.2.1
    let adj := addEdge adj t.1 t.2.2
    let adj := addEdge adj t.2.1 t.1
    let adj := addEdge adj t.2.1 t.2.2
    let adj := addEdge adj t.2.2 t.1
    addEdge adj t.2.2 t.2.1) fun _ => ∅

open Classical in
/-- Lines 299-312: the candidates of a spherical grid. `neighbors` lists the neighbours in any order. -/
noncomputable def sphereCandidates (values : List ℝ) (neighbors : Nat → List Nat) : List Nat :=
  (List.range values.length).filter fun v => !(neighbors v).any fun u => decide (values.getD u 0 > values.getD v 0)

/-- `GridSphere.find_peaks(k)` (294-317). -/
noncomputable def spherePeaks (values : List ℝ) (neighbors : Nat → List Nat) (k : Int) (argsort : List ℝ → List Nat) : List Nat :=
  largest argsort (fun i => values.getD i 0) (sphereCandidates values neighbors) k

end Verif.Peaks
