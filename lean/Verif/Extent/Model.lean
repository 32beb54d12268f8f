import Verif.Angles.Model
import Mathlib.Analysis.SpecialFunctions.Trigonometric.Basic

/-!
# The longest straight path in a room and the directions between points

`libroom_src/room.cpp` (`get_max_distance`), `pyroomacoustics/utilities.py` (`angle_function`, `all_combinations`)
-/

namespace Verif.Extent

open Py

/-- `rowwise().maxCoeff()`/`minCoeff()` of one row of the corners, the rows above the dimension being zero (room.cpp 530-539); nothing for a wall without corners (undefined there). -/
noncomputable def rowFold {D : ℕ} (op : ℝ → ℝ → ℝ) (corners : List (Fin D → ℝ)) (k : Fin 3) : Option ℝ :=
  match corners with
  | [] => none
  | c :: t => if h : k.val < D then some ((t.map (· ⟨k.val, h⟩)).foldl op (c ⟨k.val, h⟩)) else some 0

/-- The loop over the walls (room.cpp 527-563) for one coordinate: the index, and the greatest and least value so far. -/
noncomputable def extent {D : ℕ} (k : Fin 3) : ℕ → List (List (Fin D → ℝ)) → ℝ × ℝ → Option (ℝ × ℝ)
  | _, [], s => some s
  | i, w :: t, s =>
    match rowFold max w k, rowFold min w k with
    | some a, some b =>
      extent k (i + 1) t (if i = 0 then (a, b) else (if a > s.1 then a else s.1, if b < s.2 then b else s.2))
    | _, _ => none

/-- `Room<D>::get_max_distance` (room.cpp 508-571), `D` two or three. -/
noncomputable def maxDistance {D : ℕ} (walls : List (List (Fin D → ℝ))) : Option ℝ :=
  match extent 0 0 walls (0, 0), extent 1 0 walls (0, 0), extent 2 0 walls (0, 0) with
  | some x, some y, some z => some (Real.sqrt ((x.2 - x.1) ^ 2 + (y.2 - y.1) ^ 2 + (z.2 - z.1) ^ 2) + 1)
  | _, _, _ => none

/-- `angle_function` (utilities.py 821-863) for one point of two or three coordinates and one reference point: azimuth and colatitude. -/
noncomputable def angleOf (s v : List ℝ) : Except Err (ℝ × ℝ) :=
  match s, v with
  | [x, y], [a, b] => .ok ((Angles.cart2spher (x - a, y - b, 0 - 0)).1, Real.pi / 2)
  | [x, y, z], [a, b, c] => .ok ((Angles.cart2spher (x - a, y - b, z - c)).1, (Angles.cart2spher (x - a, y - b, z - c)).2.1)
  | _, _ => .error .assertionError

/-- `all_combinations` (utilities.py 809-813). -/
def allCombinations {α : Type} (l1 l2 : List α) : List (α × α) := l1.flatMap fun a => l2.map fun b => (a, b)

end Verif.Extent
