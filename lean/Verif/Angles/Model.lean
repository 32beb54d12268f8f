import Mathlib.Analysis.SpecialFunctions.Complex.Arg
import Mathlib.Data.List.GetD
import Verif.Py

/-!
# Model of the functions on angles

`pyroomacoustics/doa/utils.py`, 15-28 (`circ_dist`), 31-61 (`great_circ_dist`), 64-86 (`cart2spher`), 89-125 (`spher2cart`),
128-173 (`polar_distance`) and 176-211 (`fibonacci_spherical_sampling`). Numbers are exact reals; a function on arrays is given by its
values at one element. `np.arctan2` is the argument of a complex number (the sign of zero is not modelled).
-/

namespace Verif.Angles

open Verif.Py (Err)

/-- `np.arctan2(y, x)`. -/
noncomputable def arctan2 (y x : ℝ) : ℝ := Complex.arg ⟨x, y⟩

/-- `circ_dist(azimuth1, azimuth2, r)` (15-28): the radius is not used. -/
noncomputable def circDist (a1 a2 _r : ℝ) : ℝ := Real.arccos (Real.cos (a1 - a2))

/-- `great_circ_dist` (31-61). -/
noncomputable def greatCircDist (r c1 a1 c2 a2 : ℝ) : ℝ :=
  let d := |a1 - a2|
  r * arctan2 (Real.sqrt ((Real.sin c2 * Real.sin d) ^ 2 + (Real.sin c1 * Real.cos c2 - Real.cos c1 * Real.sin c2 * Real.cos d) ^ 2))
    (Real.cos c1 * Real.cos c2 + Real.sin c1 * Real.sin c2 * Real.cos d)

/-- `cart2spher` (64-86): azimuth, colatitude, radius. -/
noncomputable def cart2spher (v : ℝ × ℝ × ℝ) : ℝ × ℝ × ℝ :=
  (arctan2 v.2.1 v.1, arctan2 (Real.sqrt (v.1 ^ 2 + v.2.1 ^ 2)) v.2.2, Real.sqrt (v.1 ^ 2 + v.2.1 ^ 2 + v.2.2 ^ 2))

/-- `np.radians`. -/
noncomputable def radians (x : ℝ) : ℝ := x * (Real.pi / 180)

/-- `spher2cart` (89-125). -/
noncomputable def spher2cart (azimuth : ℝ) (colatitude : Option ℝ) (r : ℝ) (degrees : Bool) : ℝ × ℝ × ℝ :=
  let azimuth := if degrees then radians azimuth else azimuth
  let colatitude := if degrees then colatitude.map radians else colatitude
  let colatitude := colatitude.getD (Real.pi / 2)
  (r * Real.cos azimuth * Real.sin colatitude, r * Real.sin azimuth * Real.sin colatitude, r * Real.cos colatitude)

/-- `np.min`. -/
noncomputable def minOf (l : List (WithTop ℝ)) : WithTop ℝ := l.foldr min ⊤

open Classical in
/-- `np.argmin`: the first index of the minimum. -/
noncomputable def argmin (l : List (WithTop ℝ)) : Nat := l.findIdx fun x => decide (x = minOf l)

/-- Body of the loop of lines 157-164; the entry of `diffmat` in row `j` and column `i` belongs to `x2[j]` and `x1[i]`. -/
noncomputable def pairStep (n1 n2 : Nat) (s : (Nat → Nat → WithTop ℝ) × List (Nat × Nat)) : (Nat → Nat → WithTop ℝ) × List (Nat × Nat) :=
  let d2 := (List.range n1).map fun i => minOf ((List.range n2).map fun j => s.1 j i)
  let index1 := argmin d2
  let index2 := argmin ((List.range n2).map fun j => s.1 j index1)
  (fun j i => if j = index2 ∨ i = index1 then ⊤ else s.1 j i, s.2 ++ [(index1, index2)])

/-- `polar_distance` (128-173): the distance and `index`. -/
noncomputable def polarDistance (x1 x2 : List ℝ) : Except Err (ℝ × List (Nat × Nat)) :=
  let diff : Nat → Nat → WithTop ℝ := fun j i => ((circDist (x1.getD i 0) (x2.getD j 0) 1 : ℝ) : WithTop ℝ)
  let m := min x1.length x2.length
  if m > 1 then
    let index := ((pairStep x1.length x2.length)^[m] (diff, [])).2
    .ok ((index.map fun p => circDist (x1.getD p.1 0) (x2.getD p.2 0) 1).sum / m, index)
  else
    let flat := (List.range x2.length).flatMap fun j => (List.range x1.length).map fun i => diff j i
    if flat = [] then .error .valueError else
    let d := (minOf flat).untopD 0
    let index := argmin flat
    .ok (d, [if x1.length = 1 then (1, index) else (index, 1)])

/-- `fibonacci_spherical_sampling(n_points)` (176-211): the point `k`. -/
noncomputable def fibonacci (n k : Nat) : ℝ × ℝ × ℝ :=
  let offset : ℝ := 2 / n
  let increment := Real.pi * (3 - Real.sqrt 5)
  let z := (k * offset - 1) + offset / 2
  let rho := Real.sqrt (1 - z ^ 2)
  (Real.cos (k * increment) * rho, Real.sin (k * increment) * rho, z)

end Verif.Angles
