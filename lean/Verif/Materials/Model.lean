import Verif.Bands.Model
import Verif.Params.Model
import Verif.Geometry.RoomModel

/-!
# Model of materials and of their assignment to walls

`pyroomacoustics/parameters.py`: `Material` (403-566); `room.py`: `Room.from_corners` (1210-1314) and `Room.extrude`
(1316-1462) with the materials. Dictionaries are objects with an address, since the constructor of `Material` keeps and changes the
dictionary of the caller.
-/

namespace Verif.Materials

open Py (Err)
open Verif.Bands Verif.Params

/-- What the code reads of a dictionary with coefficients: the entries `coeffs` (and if it is an array) and `center_freqs`, if they exist. -/
structure DictObj where
  coeffs : Option (List ℝ)
  isArray : Bool
  centers : Option (List ℝ)

/-- The dictionaries that exist, by address. -/
abbrev Heap := List DictObj

/-- An argument of the constructor: a number, a name, a dictionary, or anything else. -/
inductive Spec
  | num (x : ℝ)
  | name (s : String)
  | ref (a : Nat)
  | other

/-- A material refers to two dictionaries. -/
structure Material where
  absorption : Nat
  scattering : Nat

/-- Read the dictionary at an address. -/
def Heap.at (h : Heap) (a : Nat) : DictObj := h.getD a ⟨none, false, none⟩

/-- `d["coeffs"]`. -/
def DictObj.getCoeffs (d : DictObj) : Except Err (List ℝ) :=
  match d.coeffs with
  | some l => .ok l
  | none => .error .keyError

/-- `d["center_freqs"]`. -/
def DictObj.getCenters (d : DictObj) : Except Err (List ℝ) :=
  match d.centers with
  | some l => .ok l
  | none => .error .keyError

/-- The first part of the constructor (436-450): the address of the dictionary with the absorption. A name gives a (shallow) copy of the entry of the
database. -/
def initAbsorption (table : Dict Nat) (h : Heap) : Spec → Except Err (Heap × Nat)
  | .num x => .ok (h ++ [⟨some [x], false, none⟩], h.length)
  | .name s =>
    match table.get s with
    | some a => .ok (h ++ [h.at a], h.length)
    | none => .error .keyError
  | .ref a => .ok (h, a)
  | .other => .error .typeError

/-- The second part of the constructor (452-477): the address of the dictionary with the scattering. -/
def initScattering (table : Dict Nat) (h : Heap) (ea : Nat) : Option Spec → Except Err (Heap × Nat)
  | none => initNum 0
  | some (.num x) => initNum x
  | some (.name s) =>
    match table.get s with
    | some a => .ok (h ++ [h.at a], h.length)
    | none => .error .keyError
  | some (.ref a) => .ok (h, a)
  | some .other => .error .typeError
where
  /-- A number is repeated for each coefficient of the absorption (456-465). -/
  initNum (x : ℝ) : Except Err (Heap × Nat) := do
    let c ← (h.at ea).getCoeffs
    if c.length > 1 then
      let f ← (h.at ea).getCenters
      return (h ++ [⟨some (List.replicate c.length x), false, some f⟩], h.length)
    else return (h ++ [⟨some [x], false, none⟩], h.length)

/-- The third part (479-483): flat absorption and scattering by bands; the dictionary of the absorption is changed. -/
noncomputable def broadcastAbsorption (h : Heap) (ea sc : Nat) : Except Err Heap := do
  let s ← (h.at sc).getCoeffs
  -- `and` does not look at the absorption if the first test fails
  if s.length > 1 then
    let c ← (h.at ea).getCoeffs
    if c.length = 1 then
      let f ← (h.at sc).getCenters
      return h.set ea ⟨some (pyMul (h.at ea).isArray c s.length), (h.at ea).isArray, some f⟩
    else return h
  else return h

/-- The checks of one dictionary (485-517). -/
def checkDict (d : DictObj) : Except Err Unit := do
  match d.coeffs with
  | none => .error .assertionError
  | some c =>
    if c.length > 1 then
      let f ← d.getCenters
      if c.length = f.length then return () else .error .assertionError
    else return ()

/-- `Material.__init__` (433-520). -/
noncomputable def materialInit (absTable scTable : Dict Nat) (h : Heap) (absorption : Spec) (scattering : Option Spec) : Except Err (Heap × Material) := do
  let (h, ea) ← initAbsorption absTable h absorption
  let (h, sc) ← initScattering scTable h ea scattering
  let h ← broadcastAbsorption h ea sc
  checkDict (h.at ea)
  checkDict (h.at sc)
  return (h, ⟨ea, sc⟩)

/-- `Material.is_freq_flat` (522-530). The constructor makes sure that both entries exist. -/
def isFlat (h : Heap) (m : Material) : Bool :=
  ((h.at m.absorption).coeffs.getD []).length == 1 && ((h.at m.scattering).coeffs.getD []).length == 1

/-- `octave_bands(**d)`. -/
noncomputable def callDict (centers : List ℝ) (d : DictObj) : Except Err (List ℝ) := do
  let c ← d.getCoeffs
  octaveCall centers (if d.isArray then .array c else .list c) d.centers

/-- `Material.resample` (542-551): two new dictionaries. The result of `__call__` is a list if it was repeated, else an array. -/
noncomputable def resample (centers : List ℝ) (h : Heap) (m : Material) : Except Err (Heap × Material) := do
  let d := h.at m.absorption
  let a ← callDict centers d
  let arr := d.isArray || (d.coeffs.getD []).length != 1
  let h := h ++ [⟨some a, arr, some centers⟩]
  let d' := h.at m.scattering
  let s ← callDict centers d'
  let arr' := d'.isArray || (d'.coeffs.getD []).length != 1
  return (h ++ [⟨some s, arr', some centers⟩], ⟨h.length - 1, h.length⟩)

/-- The materials of a room: the objects by number, and for each wall the number of its object (the same object may be used for several walls). -/
structure Store where
  heap : Heap
  mats : List Material

/-- `mat.resample(octave_bands)` for the object number `i`. -/
noncomputable def Store.resample (centers : List ℝ) (st : Store) (i : Nat) : Except Err Store := do
  let (h, m) ← Materials.resample centers st.heap (st.mats.getD i ⟨0, 0⟩)
  return ⟨h, st.mats.set i m⟩

/-- `if not Material.all_flat(materials): for mat in materials: mat.resample(octave_bands)` (room.py:1290-1292, 1440-1442). -/
noncomputable def resampleAll (centers : List ℝ) (st : Store) (ids : List Nat) : Except Err Store :=
  if ids.all fun i => isFlat st.heap (st.mats.getD i ⟨0, 0⟩) then .ok st
  else ids.foldlM (fun st i => st.resample centers i) st

/-- The argument `materials` of `from_corners`: nothing, one object, or a list of objects. -/
inductive MatArg
  | none
  | one (i : Nat)
  | list (l : List Nat)

/-- The material of each wall (1267-1282); `rigid` is the new object `Material(0.0, 0.0)`. -/
def wallMaterials (rigid : Nat) (n : Nat) : MatArg → Except Err (List Nat)
  | .none => .ok (List.replicate n rigid)
  | .one i => .ok (List.replicate n i)
  | .list l => if l.length = n then .ok l else .error .valueError

/-- `Room.from_corners` (1255-1303): the corners and the number of the material of each wall. -/
noncomputable def fromCorners (corners : List (Geometry.Vec 2)) (rigid : Nat) (materials : MatArg) :
    Except Err (List ((Geometry.Vec 2 × Geometry.Vec 2) × Nat)) := do
  let n := corners.length
  if n < 3 then .error .valueError
  else
    let corners := Geometry.orderCorners corners
    let mats ← wallMaterials rigid n materials
    return (List.range n).map fun i => ((corners.getD i 0, corners.getD ((i + 1) % n) 0), mats.getD i 0)

/-- `Room.extrude` (1337-1452): the corners and the material of each wall of the new room, in order: side walls, floor, ceiling. `close` is
`np.allclose` on points; `floorMat` and `ceilMat` are the materials given for floor and ceiling. -/
noncomputable def extrude {M : Type} (close : Geometry.Vec 2 → Geometry.Vec 2 → Prop) [DecidableRel close]
    (walls : List ((Geometry.Vec 2 × Geometry.Vec 2) × M)) (height : ℝ) (v : Geometry.Vec 3) (floorMat ceilMat : M) :
    Except Err (List (List (Geometry.Vec 3) × M)) :=
  let nw := walls.length
  let floor := walls.map fun w => w.1.1
  let ordered := (List.range nw).all fun i =>
    decide (close ((walls.map fun w => w.1.2).getD i 0) (floor.getD ((i + 1) % nw) 0))
  if !ordered then .error .valueError
  else
    let floor := Geometry.orderCorners floor
    .ok (List.zip (Geometry.extrudeCorners floor height v) (walls.map (fun w => w.2) ++ [floorMat, ceilMat]))

end Verif.Materials
