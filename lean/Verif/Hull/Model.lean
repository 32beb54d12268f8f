import Verif.Py
import Verif.Geometry.Model

/-!
# Model of the search for obstructing walls

`find_non_convex_walls` (`pyroomacoustics/room.py`, 744-793). A wall is the list of its corners. `scipy.spatial.ConvexHull` is a parameter, which gives the faces of the hull of a list of points, each by
two or three of the points. Numbers without rounding.
-/

namespace Verif.Hull

open Verif.Py Verif.Geometry Matrix

/-- `np.mean(wall.corners, axis=1)` (room.py:771). -/
noncomputable def mean {D : Nat} (corners : List (Vec D)) : Vec D := fun d => (corners.map fun x => x d).sum / corners.length

/-- Vector product (room.py:788). -/
def cross (a b : Vec 3) : Vec 3 := ![a 1 * b 2 - a 2 * b 1, a 2 * b 0 - a 0 * b 2, a 0 * b 1 - a 1 * b 0]

open Classical in
/-- The inner test in 2-D (room.py:774-780). -/
noncomputable def touch2 (eps : ℝ) (point : Vec 2) (f : Vec 2 × Vec 2) : Bool := ccw3p eps f.1 f.2 point = 0

open Classical in
/-- The inner test in 3-D (room.py:782-791). -/
noncomputable def touch3 (eps : ℝ) (point : Vec 3) (f : Vec 3 × Vec 3 × Vec 3) : Bool := |cross (f.2.1 - f.1) (f.2.2 - f.1) ⬝ᵥ (point - f.1)| < eps

/-- `find_non_convex_walls` (room.py:744-793), for one of the inner tests. With a single wall there is nothing to concatenate. -/
noncomputable def findNonConvex {D : Nat} {F : Type} (hull : List (Vec D) → List F) (touch : Vec D → F → Bool) (walls : List (List (Vec D))) : Except Err (List Nat) :=
  if walls.length ≤ 1 then .error .valueError
  else .ok ((List.range walls.length).filter fun i => !(hull (walls.drop 1).flatten).any (touch (mean (walls.getD i []))))

end Verif.Hull
