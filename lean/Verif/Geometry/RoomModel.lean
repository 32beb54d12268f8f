import Verif.Geometry.Model

/-!
# Model of room construction from polygons, and of the volume

`pyroomacoustics/room.py`: `Room.from_corners`, `Room.extrude`, `Room.wall_area`, `Room.get_volume`,
`ShoeBox.get_volume`; `libroom_src/room.cpp`: `make_shoebox_walls`. Only the geometry; the singular vectors that the constructor of
`Wall<3>` computes are part of the data of a wall.
-/

namespace Verif.Geometry

open Matrix

/-- The ordering of the corners (room.py:1264-1265, 1365-1366). -/
noncomputable def orderCorners (corners : List (Vec 2)) : List (Vec 2) :=
  if area2dPolygon corners ≤ 0 then corners.reverse else corners

/-- The corners of the walls of a 2-D room (room.py:1296-1305): wall `i` goes from corner `i` to corner `i+1`. -/
def polygonWalls (corners : List (Vec 2)) : List (Vec 2 × Vec 2) :=
  (List.range corners.length).map fun i => (corners.getD i 0, corners.getD ((i + 1) % corners.length) 0)

/-- `np.r_[c, 0]`. -/
def lift3 (c : Vec 2) : Vec 3 := ![c 0, c 1, 0]

/-- The corners of the walls of the extruded room (room.py:1368-1378, 1426-1432) for ordered floor corners: the side
walls, the floor, the ceiling. -/
def extrudeCorners (floor : List (Vec 2)) (height : ℝ) (v : Vec 3) : List (List (Vec 3)) :=
  ((List.range floor.length).map fun i =>
    [lift3 (floor.getD i 0), lift3 (floor.getD ((i + 1) % floor.length) 0),
      lift3 (floor.getD ((i + 1) % floor.length) 0) + height • v, lift3 (floor.getD i 0) + height • v]) ++
  [(floor.map lift3).reverse, (floor.map lift3).map fun c => c + height • v]

/-- The corners of the walls of a 3-D shoebox (room.cpp:126-156). -/
def shoeboxCorners3 (rs : Vec 3) : List (List (Vec 3)) :=
  [[![0, rs 1, 0], ![0, 0, 0], ![0, 0, rs 2], ![0, rs 1, rs 2]],
   [![rs 0, 0, 0], ![rs 0, rs 1, 0], ![rs 0, rs 1, rs 2], ![rs 0, 0, rs 2]],
   [![0, 0, 0], ![rs 0, 0, 0], ![rs 0, 0, rs 2], ![0, 0, rs 2]],
   [![rs 0, rs 1, 0], ![0, rs 1, 0], ![0, rs 1, rs 2], ![rs 0, rs 1, rs 2]],
   [![rs 0, 0, 0], ![0, 0, 0], ![0, rs 1, 0], ![rs 0, rs 1, 0]],
   [![rs 0, 0, rs 2], ![rs 0, rs 1, rs 2], ![0, rs 1, rs 2], ![0, 0, rs 2]]]

/-- The corners of the walls of a 2-D shoebox (room.cpp:107-124). -/
def shoeboxCorners2 (rs : Vec 2) : List (Vec 2 × Vec 2) :=
  [(![0, 0], ![rs 0, 0]), (![rs 0, 0], ![rs 0, rs 1]), (![rs 0, rs 1], ![0, rs 1]), (![0, rs 1], ![0, 0])]

/-- What `get_volume` reads of a wall: normal, first corner, `area()`. -/
structure VolWall (D : Nat) where
  normal : Vec D
  corner : Vec D
  area : ℝ

/-- `Room.get_volume` (room.py:2652-2669). -/
noncomputable def getVolume {D : Nat} (walls : List (VolWall D)) : ℝ :=
  walls.foldl (fun s w => s + (((norm w.normal)⁻¹ • w.normal) ⬝ᵥ w.corner) * w.area) 0 / 3

/-- A wall object of a 3-D room as `get_volume` sees it (wall.cpp:41-45, 94-144). -/
noncomputable def volWall3 (corners : List (Vec 3)) (u0 u1 : Vec 3) : VolWall 3 :=
  ⟨(wall3 corners u0 u1).1.normal, corners.getD 0 0, area2dPolygon (wall3 corners u0 u1).2.2⟩

/-- A wall object of a 2-D room as `get_volume` sees it (wall.cpp:35-39, 74-92). -/
noncomputable def volWall2 (c : Vec 2 × Vec 2) : VolWall 2 :=
  ⟨(wall2 c.1 c.2).normal, c.1, wall2Area c.1 c.2⟩

/-- `Room.wall_area` (room.py:2623-2650) for a 3-D wall. -/
noncomputable def wallArea (normal : Vec 3) (corners : List (Vec 3)) : ℝ :=
  |((norm normal)⁻¹ • normal) ⬝ᵥ
    (List.range corners.length).foldl (fun s i =>
      s + crossProduct (corners.getD ((i + corners.length - 1) % corners.length) 0) (corners.getD i 0)) 0| / 2

/-- `ShoeBox.get_volume` (room.py:2929-2938). -/
def shoeboxVolume {D : Nat} (dim : Vec D) : ℝ := ∏ i, dim i

end Verif.Geometry
