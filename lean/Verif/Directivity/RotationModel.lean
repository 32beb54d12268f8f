import Mathlib.LinearAlgebra.Matrix.Notation
import Mathlib.Analysis.SpecialFunctions.Trigonometric.Basic
import Verif.Py

/-!
# Model of rotations and of the order of ambisonic channels

`pyroomacoustics/directivities/direction.py`, 93-231 (`_make_rot_matrix`, `Rotation3D`), and `pyroomacoustics/directivities/harmonics.py`, 59-78
(`get_mn_in_acn_order`). Numbers are exact.
-/

namespace Verif.Directivity

open Verif.Py (Err)

abbrev M3 := Matrix (Fin 3) (Fin 3) ℝ

/-- `_make_rot_matrix(a, axis)` (93-125). -/
noncomputable def makeRotMatrix (a : ℝ) (axis : Int) : Except Err M3 :=
  if ¬ (0 ≤ axis ∧ axis ≤ 2) then .error .valueError
  else if axis = 2 then .ok !![Real.cos a, -Real.sin a, 0; Real.sin a, Real.cos a, 0; 0, 0, 1]
  else if axis = 1 then .ok !![Real.cos a, 0, Real.sin a; 0, 1, 0; -Real.sin a, 0, Real.cos a]
  else .ok !![1, 0, 0; 0, Real.cos a, -Real.sin a; 0, Real.sin a, Real.cos a]

/-- An element of `rot_order`: a character of a string, or an integer. -/
inductive Ax where
  | char (c : Char)
  | int (i : Int)

/-- `_axis_map` (128). -/
def axisMap : Ax → Option Int
  | .char 'x' => some 0
  | .char 'y' => some 1
  | .char 'z' => some 2
  | .int 0 => some 0
  | .int 1 => some 1
  | .int 2 => some 2
  | _ => none

/-- The loop of lines 174-180. -/
def parseOrder : List Ax → Except Err (List Int)
  | [] => .ok []
  | ax :: t =>
    match axisMap ax with
    | none => .error .valueError
    | some i => match parseOrder t with
      | .error e => .error e
      | .ok l => .ok (i :: l)

/-- `_compute_matrix` (190-199), starting from a given matrix. -/
noncomputable def computeMatrix (mat : M3) : List (ℝ × Int) → Except Err M3
  | [] => .ok mat
  | (angle, axis) :: t =>
    match makeRotMatrix angle axis with
    | .error e => .error e
    | .ok r => computeMatrix (r * mat) t

/-- `Rotation3D(angles, rot_order, degrees)` (163-188): the matrix that it keeps. -/
noncomputable def rotation3D (angles : List ℝ) (rotOrder : List Ax) (degrees : Bool) : Except Err M3 :=
  if ¬ angles.length ≤ 3 then .error .valueError
  else
    let angles := if degrees then angles.map (fun x => x * (Real.pi / 180)) else angles
    match parseOrder rotOrder with
    | .error e => .error e
    | .ok order => if angles.length ≠ order.length then .error .valueError else computeMatrix 1 (angles.zip order)

/-- `rotate(points)` (201-215) for points of shape `(3, n)`. -/
noncomputable def rotate (mat : M3) {n : Nat} (points : Matrix (Fin 3) (Fin n) ℝ) : Matrix (Fin 3) (Fin n) ℝ := mat * points

/-- `rotate_transpose(points)` (217-231) for points of shape `(3, n)`. -/
noncomputable def rotateTranspose (mat : M3) {n : Nat} (points : Matrix (Fin 3) (Fin n) ℝ) : Matrix (Fin 3) (Fin n) ℝ := mat.transpose * points

/-- `rotate(points)` for points of shape `(d, k, n)`: `np.dot` sums over the last but one axis. -/
noncomputable def rotateArray (mat : M3) {d k n : Nat} (points : Fin d → Fin k → Fin n → ℝ) : Except Err (Fin 3 → Fin d → Fin n → ℝ) :=
  if h : k = 3 then .ok fun i j l => ∑ m : Fin 3, mat i m * points j (Fin.cast h.symm m) l else .error .valueError

/-- `get_mn_in_acn_order(degree)` (76-78) for a degree that is not negative. -/
def acnOrder (degree : Nat) : List Int × List Int :=
  ((List.range (degree + 1)).flatMap fun i => (List.range (2 * i + 1)).map fun j : Nat => (j : Int) - i,
    (List.range (degree + 1)).flatMap fun i => (List.range (2 * i + 1)).map fun _ => (i : Int))

end Verif.Directivity
