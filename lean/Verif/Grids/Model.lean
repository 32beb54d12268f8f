import Verif.Angles.Model
import Verif.Py
import Mathlib.Data.List.Sort
import Mathlib.Algebra.Order.Floor.Semiring
import Mathlib.Algebra.Order.Archimedean.Real.Basic

/-!
# Grids of directions (`pyroomacoustics/doa/grid.py`)

The peak searches are in `Verif.Peaks`, the neighbours as well. A direction that is nan is `none`.
-/

namespace Verif.Grids

open Py Angles

/-- The fields of `Grid` (28-39); `x`, `y`, `z`, `azimuth` and `colatitude` are views of the two arrays. -/
structure Grid where
  nPoints : ℕ
  dim : ℕ
  cartesian : List (Option (ℝ × ℝ × ℝ))
  spherical : List (Option (ℝ × ℝ))
  values : Option (List ℝ)

/-- The argument of `set_values`: a scalar, a vector, or an array of another dimension. -/
inductive Vals where
  | scalar (v : ℝ)
  | vector (v : List ℝ)
  | other

/-- `Grid.set_values` (52-64). -/
def Grid.setValues (g : Grid) : Vals → Except Err Grid
  | .scalar v => .ok { g with values := some (List.replicate g.nPoints v) }
  | .vector v => if v.length ≠ g.nPoints then .error .valueError else .ok { g with values := some v }
  | .other => .error .valueError

open Classical in
/-- The azimuths of `GridCircle.__init__` (79-89). -/
noncomputable def circleAzimuth (n : ℕ) : Option (List ℝ) → List ℝ
  | some a => a.insertionSort (fun x y => x ≤ y)
  | none => (List.range n).map fun i : ℕ => (i : ℝ) * (2 * Real.pi / n)

/-- `GridCircle.__init__` (79-102) with a vector of azimuths or without. -/
noncomputable def gridCircle (n : ℕ) (azimuth : Option (List ℝ)) : Grid :=
  let a := circleAzimuth n azimuth
  { nPoints := a.length
    dim := 2
    cartesian := a.map fun x => some (Real.cos x, Real.sin x, 0)
    spherical := a.map fun x => some (x, Real.pi / 2)
    values := none }

/-- Division of a column by its norm (203-205): a column of zeros becomes nan. -/
noncomputable def normalize (p : ℝ × ℝ × ℝ) : Option (ℝ × ℝ × ℝ) :=
  let r := Real.sqrt (p.1 ^ 2 + p.2.1 ^ 2 + p.2.2 ^ 2)
  if r = 0 then none else some (p.1 / r, p.2.1 / r, p.2.2 / r)

/-- The columns of a matrix of three rows. -/
def columns3 (m : List (List ℝ)) : List (ℝ × ℝ × ℝ) := (m.getD 0 []).zip ((m.getD 1 []).zip (m.getD 2 []))

/-- The columns of a matrix of two rows. -/
def columns2 (m : List (List ℝ)) : List (ℝ × ℝ) := (m.getD 0 []).zip (m.getD 1 [])

/-- `self.azimuth[:], self.colatitude[:], _ = cart2spher(self.cartesian)` (206, 216). -/
noncomputable def anglesOf (c : List (Option (ℝ × ℝ × ℝ))) : List (Option (ℝ × ℝ)) :=
  c.map fun p => p.map fun v => ((cart2spher v).1, (cart2spher v).2.1)

/-- `GridSphere.__init__` (177-220): matrices as lists of rows (of the same length); the neighbours are not computed here. -/
noncomputable def gridSphere (n : ℕ) (spher cart : Option (List (List ℝ))) : Except Err Grid :=
  match spher, cart with
  | some m, _ =>
    if m.length ≠ 2 then .error .valueError
    else
      .ok { nPoints := (columns2 m).length, dim := 3, values := none
            spherical := (columns2 m).map some
            cartesian := (columns2 m).map fun p => some (spher2cart p.1 (some p.2) 1 false) }
  | none, some m =>
    if m.length ≠ 3 then .error .valueError
    else
      let c := (columns3 m).map normalize
      .ok { nPoints := (columns3 m).length, dim := 3, values := none, cartesian := c, spherical := anglesOf c }
  | none, none =>
    let c := (List.range n).map fun k => some (fibonacci n k)
    .ok { nPoints := n, dim := 3, values := none, cartesian := c, spherical := anglesOf c }

/-- The list `dist` of `min_max_distance` (267-287): `pts` the angles of the points, `nb` the lists of neighbours. -/
noncomputable def distances (pts : List (ℝ × ℝ)) (nb : List (List ℕ)) : List ℝ :=
  (List.range pts.length).flatMap fun u =>
    (nb.getD u []).map fun v => greatCircDist 1 (pts.getD u 0).2 (pts.getD u 0).1 (pts.getD v 0).2 (pts.getD v 0).1

open Classical in
/-- The two running extrema (267-268, 282-286); infinity is `⊤`. -/
noncomputable def extrema (dist : List ℝ) : WithTop ℝ × ℝ :=
  dist.foldl (fun (s : WithTop ℝ × ℝ) (d : ℝ) => (if (d : WithTop ℝ) < s.1 then (d : WithTop ℝ) else s.1, if d > s.2 then d else s.2)) (⊤, 0)

/-- `np.mean` (nan for nothing). -/
noncomputable def mean (l : List ℝ) : Option ℝ := if l = [] then none else some (l.sum / l.length)

open Classical in
/-- `np.median` (nan for nothing). -/
noncomputable def median (l : List ℝ) : Option ℝ :=
  let s := l.insertionSort (fun x y => x ≤ y)
  if l = [] then none
  else if l.length % 2 = 1 then some (s.getD (l.length / 2) 0)
  else some ((s.getD (l.length / 2 - 1) 0 + s.getD (l.length / 2) 0) / 2)

/-- `GridSphere.min_max_distance` (264-292). -/
noncomputable def minMaxDistance (pts : List (ℝ × ℝ)) (nb : List (List ℕ)) : WithTop ℝ × ℝ × Option ℝ × Option ℝ :=
  let dist := distances pts nb
  ((extrema dist).1, (extrema dist).2, mean dist, median dist)

/-- A direction of `np.mgrid[a : b : 1j * x]`: `x` values from `a` to `b`, only `a` for one. -/
noncomputable def mgrid (a b : ℝ) (x i : ℕ) : ℝ := if x = 1 then a else a + i * ((b - a) / ((x : ℝ) - 1))

/-- The size of the mesh of `regrid` (330). -/
noncomputable def meshSize (n : ℕ) : ℕ := ⌊Real.sqrt ((n : ℝ) / 2)⌋₊

/-- `GridSphere.regrid` (319-346): the directions of the mesh and the image, or `none` without values; `nearest pts q` is the index found by `griddata(..., method="nearest")`. -/
noncomputable def regrid (nearest : List (ℝ × ℝ) → ℝ × ℝ → ℕ) (pts : List (ℝ × ℝ)) (values : Option (List ℝ)) : Option (List (List (ℝ × ℝ)) × List (List ℝ)) :=
  values.map fun vals =>
    let x := meshSize pts.length
    let mesh := (List.range (2 * x)).map fun i => (List.range x).map fun j => (mgrid (-Real.pi) Real.pi (2 * x) i, mgrid 0 Real.pi x j)
    (mesh, mesh.map fun row => row.map fun q => vals.getD (nearest pts q) 0)

end Verif.Grids
