import Verif.Py
import Mathlib.Analysis.SpecialFunctions.Trigonometric.Inverse
import Mathlib.Analysis.SpecialFunctions.Complex.Arg
import Mathlib.LinearAlgebra.Matrix.Notation
import Mathlib.Logic.Equiv.Fin.Rotate

/-!
# Cells on the sphere and histograms

`/repo/pyroomacoustics/directivities/integration.py` 38-144 (`robust_spherical_voronoi_areas`, `spherical_integral`) and
`/repo/pyroomacoustics/directivities/histogram.py` 36-119 (`SphericalHistogram`).

Numbers are exact reals. Three external routines are arguments: the cells of `scipy.spatial.SphericalVoronoi` (`none` when it raises
`ValueError`, which is what it does when the points are in one plane), the singular value decomposition and `np.argsort`. The search in
the k-d tree is an argument as well. A division by a norm which is zero gives NaN in the code; the theorems have points of length one.
-/

namespace Verif.Sphere

open Verif.Py

variable {n : Nat}

/-- `np.clip(x, -1.0, 1.0)` (67, 107). -/
noncomputable def clip (x : ℝ) : ℝ := max (-1) (min x 1)

/-- `np.arctan2(y, x)` (89). -/
noncomputable def arctan2 (y x : ℝ) : ℝ := Complex.arg ⟨x, y⟩

/-- `data / np.linalg.norm(data, axis=1, keepdims=True)` (65, 78). -/
noncomputable def normalise (data : Fin n → Fin 3 → ℝ) : Fin n → Fin 3 → ℝ := fun i c => data i c / Real.sqrt (∑ e, data i e ^ 2)

/-- The sums of the angles between the points (63-70). -/
noncomputable def angleSums (data : Fin n → Fin 3 → ℝ) : Fin n → ℝ := fun i => ∑ j, |Real.arccos (clip (∑ c, normalise data i c * normalise data j c))|

/-- What the code uses of `np.linalg.svd(data)` (81): the singular values and the rows of the third result. -/
structure Svd where
  s : Fin 3 → ℝ
  v : Fin 3 → Fin 3 → ℝ

/-- `np.roll(x, 1)`: the element before, around the end (104). -/
def roll {α : Type} (x : Fin n → α) : Fin n → α := fun i => x ((finRotate n).symm i)

/-- `np.roll(x, -1)`: the element after, around the end (115). -/
def rollBack {α : Type} (x : Fin n → α) : Fin n → α := fun i => x (finRotate n i)

/-- The distances of adjacent points, in the order of the angles (101-107). -/
noncomputable def deltas (data : Fin n → Fin 2 → ℝ) (sorted : Equiv.Perm (Fin n)) : Fin n → ℝ :=
  let sortedData := fun i => data (sorted i)
  fun i => Real.arccos (clip (∑ c, sortedData i c * roll sortedData i c))

open Classical in
/-- From the points in the plane to the areas (87-119). `reverse` is the inverse permutation (95-98). -/
noncomputable def planar (data : Fin n → Fin 2 → ℝ) (argsort : (Fin n → ℝ) → Equiv.Perm (Fin n)) : Except Err (Fin n → ℝ) :=
  let angles := fun i => arctan2 (data i 1) (data i 0)
  let sorted := argsort angles
  let delta := deltas data sorted
  if ∃ i, delta i < 1e-6 then .error .valueError
  else
    let areas := fun i => 0.5 * (delta i + rollBack delta i)
    .ok fun i => 2 * areas (sorted.symm i)

open Classical in
/-- The case of points in a plane (76-119): the data is divided by its norms, its coordinates along the first two right singular
vectors are used. -/
noncomputable def degenerate (data : Fin n → Fin 3 → ℝ) (svd : (Fin n → Fin 3 → ℝ) → Svd) (argsort : (Fin n → ℝ) → Equiv.Perm (Fin n)) : Except Err (Fin n → ℝ) :=
  let data := normalise data
  let r := svd data
  if r.s 1 < 1e-6 then .error .valueError else planar (fun i c => ∑ e, data i e * r.v (Fin.castLE (by omega) c) e) argsort

/-- `robust_spherical_voronoi_areas(data)` (38-119), `data` having `d` columns. -/
noncomputable def robustAreas {d : Nat} (voronoi : Option (Fin n → ℝ)) (svd : (Fin n → Fin 3 → ℝ) → Svd) (argsort : (Fin n → ℝ) → Equiv.Perm (Fin n)) (data : Fin n → Fin d → ℝ) :
    Except Err (Fin n → ℝ) :=
  if h : d = 3 then
    if n = 1 then .ok fun _ => 4 * Real.pi
    else if n = 2 then .ok fun _ => 1 * 2 * Real.pi
    else
      let data : Fin n → Fin 3 → ℝ := fun i c => data i (Fin.cast h.symm c)
      if n = 3 then .ok (angleSums data)
      else
        match voronoi with
        | some a => .ok a
        | none => degenerate data svd argsort
  else .error .valueError

/-- `spherical_integral(func, n_points)` (122-144): `f` are the values of the function at the points. -/
noncomputable def sphericalIntegral (areas : Except Err (Fin n → ℝ)) (f : Fin n → ℝ) : Except Err ℝ := do
  let w ← areas
  .ok (∑ i, w i * f i)

/-- `SphericalHistogram` (36-64): the areas of the bins, the counts, the number of points, and the cache. -/
structure Hist (n : Nat) where
  areas : Fin n → ℝ
  bins : Fin n → Nat
  total : Nat
  dirty : Bool
  cache : Fin n → ℝ

/-- `SphericalHistogram.__init__` (37-64), the areas being computed. -/
def Hist.new (areas : Fin n → ℝ) : Hist n := ⟨areas, fun _ => 0, 0, false, fun _ => 0⟩

/-- `np.unique(matches, return_counts=True)` (118): each index once, in order, and how often it is there. -/
def unique (l : List (Fin n)) : List (Fin n × Nat) := ((l.mergeSort (fun a b => decide (a ≤ b))).dedup).map fun i => (i, l.count i)

/-- `a[idx] += c` of numpy: the right side is computed from the old values, and written for each index (119). -/
def addAt (a : Fin n → Nat) (l : List (Fin n × Nat)) : Fin n → Nat := l.foldl (fun b p => Function.update b p.1 (a p.1 + p.2)) a

/-- `push` (105-119); `nearest` is the query of the k-d tree. -/
def Hist.push {P : Type} (nearest : P → Fin n) (h : Hist n) (points : List P) : Hist n :=
  let matched := points.map nearest
  { h with total := h.total + points.length, dirty := true, bins := addAt h.bins (unique matched) }

open Classical in
/-- The property `histogram` (82-90): the state after, and the array returned, which is the array of the cache. `none` in the place of
the array: a division by zero, all values are NaN or infinite. -/
noncomputable def Hist.histogram (h : Hist n) : Option (Hist n) :=
  if h.dirty then
    let Z := ∑ i, h.areas i * (h.bins i : ℝ)
    if Z = 0 then none
    else some { h with cache := fun i => (h.bins i : ℝ) / Z, dirty := false }
  else some h

end Verif.Sphere
