import Verif.Py
import Verif.Angles.Model

/-!
# Reading measured responses (`pyroomacoustics/directivities/sofa.py`)
-/

namespace Verif.SofaRead

open Py

/-- A location of three numbers. -/
abbrev Loc := ℝ × ℝ × ℝ

/-- `Units` of a position (sofa.py 181-186): one text for all coordinates, or several between commas (stripped). -/
inductive Units where
  | one (u : String)
  | many (u : List String)

/-- `pos_units` (sofa.py 181-186). -/
def Units.toList : Units → List String
  | .one u => [u, u, u]
  | .many u => u

/-- What `_parse_locations` is given: the locations (after dropping a last dimension of size one), the units and the type. -/
structure Position where
  values : List Loc
  units : Units
  kind : String

/-- Azimuth and colatitude of the stored angles (sofa.py 202-208): the unit of the first decides for both; any negative colatitude makes all of them elevations. -/
noncomputable def readAngles (deg : Bool) (rows : List Loc) : List Loc :=
  let rows := rows.map fun p => if deg then (Angles.radians p.1, Angles.radians p.2.1, p.2.2) else p
  open Classical in
  if ∃ p ∈ rows, p.2.1 < 0 then rows.map fun p => (p.1, Real.pi / 2 - p.2.1, p.2.2) else rows

/-- `_parse_locations` (146-212). -/
noncomputable def parseLocations (pos : Position) (target : String) : Except Err (List Loc) :=
  if target ≠ "spherical" ∧ target ≠ "cartesian" then .error .valueError
  else if pos.kind = "cartesian" then
    if pos.units.toList.any (· ≠ "metre") then .error .valueError
    else if target = "spherical" then .ok (pos.values.map Angles.cart2spher)
    else .ok pos.values
  else if pos.kind = "spherical" then
    match pos.units.toList with
    | [] => .error .indexError
    | u :: _ =>
      let rows := readAngles (u = "degree") pos.values
      if target = "cartesian" then .ok (rows.map fun p => Angles.spher2cart p.1 (some p.2.1) p.2.2 false)
      else .ok rows
  else .error .notImplemented

/-- `np.reshape(pos, [q, -1, 3])`, `np.swapaxes(., 0, 1).reshape([n, -1])` (sofa.py 304-305, 319-320). -/
noncomputable def regroup (q : ℕ) (rows : List Loc) : Except Err (List Loc) :=
  if rows.length = 0 ∨ rows.length % q ≠ 0 then .error .valueError
  else .ok ((List.range rows.length).map fun r => rows.getD (r % q * (rows.length / q) + r / q) (0, 0, 0))

/-- Elevations to colatitudes when there is any negative (sofa.py 307-309, 322-324). -/
noncomputable def fixElevation (rows : List Loc) : List Loc :=
  open Classical in
  if ∃ p ∈ rows, p.2.1 < 0 then rows.map fun p => (p.1, Real.pi / 2 - p.2.1, p.2.2) else rows

/-- The locations of `_read_dirpat` (293-333): sources and microphones, of `nSrc` and `nMic` responses. -/
noncomputable def readDirpat (known : Bool) (loudspeakers : Bool) (nSrc nMic : ℕ) (src mic : List Loc) : Except Err (List Loc × List Loc) :=
  if !known then .error .valueError
  else if loudspeakers then
    match regroup 36 mic with
    | .error e => .error e
    | .ok m => .ok (List.replicate nSrc (0, 0, 0), (fixElevation m).map fun p => Angles.spher2cart p.1 (some p.2.1) p.2.2 false)
  else
    match regroup 30 src with
    | .error e => .error e
    | .ok s => .ok (fixElevation s, List.replicate nMic (0, 0, 0))

/-- An entry of the database: its type and the labels of what it contains. -/
structure Info where
  kind : String
  contains : Option (List String)

/-- The labels of `open_sofa_file` (121-141) for `n0` sources and `n1` microphones. -/
def labels (info : Option Info) (n0 n1 : ℕ) : Except Err (Option (List String) × Option (List String)) :=
  match info with
  | none => .ok (none, none)
  | some i =>
    if i.kind = "sources" then
      match i.contains with
      | some l => if l.length ≠ n0 then .error .valueError else .ok (some l, none)
      | none => .ok (none, none)
    else if i.kind = "microphones" then
      match i.contains with
      | some l => if l.length ≠ n1 then .error .valueError else .ok (none, some l)
      | none => .ok (none, none)
    else .ok (none, none)

/-- The responses and the rate (sofa.py 238-243, 264-269, 287-292). -/
def atRate {R : Type} (resample : R → ℕ → ℕ → R) (msr : R) (fsFile : ℕ) (fs : Option ℕ) : R × ℕ :=
  match fs with
  | none => (msr, fsFile)
  | some fs => (resample msr fsFile fs, fs)

/-- The reader chosen by `open_sofa_file` (101-117). -/
inductive Reader where
  | dirpat
  | freeField
  | generalFir

/-- `open_sofa_file` (101-117). -/
def reader (isDirpat : Bool) (convention : String) : Except Err Reader :=
  if isDirpat then .ok .dirpat
  else if convention = "SimpleFreeFieldHRIR" then .ok .freeField
  else if convention = "GeneralFIR" then .ok .generalFir
  else .error .notImplemented

end Verif.SofaRead
