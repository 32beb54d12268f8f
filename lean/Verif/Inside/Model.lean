import Verif.Geometry.RoomModel

/-!
# Model of the tests whether a point is in the room

`Room.is_inside` (`pyroomacoustics/room.py`), `Room::contains` (`pyroomacoustics/libroom_src/room.cpp`),
`ShoeBox.is_inside`. The random numbers are an arbitrary stream of vectors. Real numbers
without rounding.
-/

namespace Verif.Inside

open Verif.Geometry

/-- A wall is represented by its method `intersects` (wall.cpp:213-218). -/
abbrev Intersects (D : Nat) := Vec D → Vec D → Int

/-- The lower corner of `get_bbox` (room.py:2529) and `min_coord` (room.cpp:1077-1094). Without walls the former
raises and the latter is zero. -/
noncomputable def lower {D : Nat} : List (Vec D) → Vec D
  | [] => 0
  | c :: rest => fun i => rest.foldl (fun m v => min m (v i)) (c i)

/-- The reference point in iteration `k` (room.py:2577, room.cpp:1113-1119): the draws are subtracted
from the previous reference point. -/
def refPoint {D : Nat} (lo : Vec D) (draws : Nat → Vec D) : Nat → Vec D
  | 0 => lo - draws 0
  | k + 1 => refPoint lo draws k - draws (k + 1)

/-- The variables of one iteration (room.py:2579-2581). -/
structure Flags where
  ambiguous : Bool
  border : Bool
  count : Nat

/-- Body of the loop on the walls (room.py:2583-2599). `ENDPT` is 1 and `BNDRY` is 2 (wall.hpp:36-37). -/
def flagStep (s : Flags) (ret : Int) : Flags :=
  let s :=
    if ret > 0 ∧ ret % 2 ≠ 0 then { s with border := true }
    else if ret = 2 then { s with ambiguous := true } else s
  if ret ≥ 0 then { s with count := s.count + 1 } else s

/-- The loop on the walls (room.py:2582-2599). -/
def flags (codes : List Int) : Flags := codes.foldl flagStep ⟨false, false, 0⟩

/-- The `while` loop of `is_inside` (room.py:2575-2615); the first argument is the number of iterations left and `it` the
number of the iteration. -/
def insideIter {D : Nat} (walls : List (Intersects D)) (lo : Vec D) (draws : Nat → Vec D) (p : Vec D) (include_borders : Bool) : Nat → Nat → Bool
  | 0, _ => false
  | n + 1, it =>
    let s := flags (walls.map fun w => w (refPoint lo draws it) p)
    if s.ambiguous then insideIter walls lo draws p include_borders n (it + 1)
    else if s.border && !include_borders then false
    else if s.border && include_borders then true
    else s.count % 2 == 1

/-- `Room.is_inside` (room.py:2534-2615) for a point of the right dimension. -/
def isInside {D : Nat} (maxIter : Nat) (walls : List (Intersects D)) (lo : Vec D) (draws : Nat → Vec D) (p : Vec D) (include_borders : Bool) : Bool :=
  insideIter walls lo draws p include_borders maxIter 0

/-- The `do while` loop of `Room::contains` (room.cpp:1104-1132); `none` if it has not ended after `fuel` iterations. -/
def contains {D : Nat} (walls : List (Intersects D)) (lo : Vec D) (draws : Nat → Vec D) (p : Vec D) : Nat → Nat → Option Bool
  | 0, _ => none
  | fuel + 1, it =>
    let codes := walls.map fun w => w (refPoint lo draws it) p
    if codes.any (fun result => result > 0) then contains walls lo draws p fuel (it + 1)
    else some ((codes.filter fun result => result > -1).length % 2 == 1)

/-- The walls of a two-dimensional room with these corners (`Wall<2>::intersection`, wall.cpp:147-154). -/
noncomputable def walls2 (eps : ℝ) (corners : List (Vec 2)) : List (Intersects 2) :=
  (polygonWalls corners).map fun e a b => (intersection2d eps a b e.1 e.2).1

/-- The lower corner of the bounding box of that room. -/
noncomputable def lower2 (corners : List (Vec 2)) : Vec 2 := lower ((polygonWalls corners).flatMap fun e => [e.1, e.2])

open Classical in
/-- `ShoeBox.is_inside` (room.py:2940-2952). -/
noncomputable def shoeboxInside {D : Nat} (dim p : Vec D) : Bool := decide (∀ i, p i ≥ 0) && decide (∀ i, p i ≤ dim i)

end Verif.Inside
