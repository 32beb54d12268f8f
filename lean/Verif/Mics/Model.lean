import Verif.Py
import Mathlib.Data.Real.Basic
import Mathlib.Logic.Function.Basic

/-!
# Model of microphone arrays and of the microphones of rooms

`pyroomacoustics/beamforming.py`: `MicrophoneArray` (343-557); `room.py`: `Room.add` (1916-1971), `Room.add_microphone_array` (2005-2053),
`Room.extrude` (1316-1462, only that a new engine without microphones is made); `libroom_src/room.hpp`: `add_mic` (194-199).

Arrays are objects in a heap, because `Room.add` keeps the array that it is given, and changes it later. A location is a function from
coordinates to real numbers, of which the first `dim` are used. Directivities are opaque.
-/

namespace Verif.Mics

open Py (Err)

/-- Location of a microphone (column of `R`). -/
abbrev Loc := Nat → ℝ

/-- The attributes of a `MicrophoneArray`. `Dir` is the type of directivities (`None` is one of them). -/
structure MicArray (Dir : Type) where
  dim : Nat
  R : List Loc
  fs : ℝ
  directivity : List Dir
  signals : Option (List (List ℝ))
  center : Loc

/-- `np.mean(R, axis=1)`; not a number for an empty array (here zero). -/
noncomputable def meanLoc (R : List Loc) : Loc := fun i => (R.map fun r => r i).sum / R.length

/-- Argument of `set_directivity`: one directivity or a list. -/
inductive DirArg (Dir : Type)
  | one (d : Dir)
  | many (l : List Dir)

/-- `set_directivity` (381-421); the types are right. -/
def setDirectivity {Dir : Type} (a : MicArray Dir) : DirArg Dir → Except Err (MicArray Dir)
  | .one d => .ok { a with directivity := List.replicate a.R.length d }
  | .many l => if l.length = a.R.length then .ok { a with directivity := l } else .error .valueError

/-- `MicrophoneArray.__init__` (346-370). -/
noncomputable def MicArray.new {Dir : Type} (dim : Nat) (R : List Loc) (fs : ℝ) (d : DirArg Dir) : Except Err (MicArray Dir) :=
  if dim ≠ 2 ∧ dim ≠ 3 then .error .valueError else
  match setDirectivity { dim := dim, R := R, fs := fs, directivity := [], signals := none, center := fun _ => 0 } d with
  | .error e => .error e
  | .ok a => .ok { a with signals := none, center := meanLoc R }

/-- `record` (423-465). With another sampling frequency the resampled signals are an argument, with as many rows as microphones; the exception that is raised
without the package `samplerate` comes after the assignment. -/
noncomputable def record {Dir : Type} (a : MicArray Dir) (signals : List (List ℝ)) (sameFs : Bool) (resampled : Nat → List ℝ) : Except Err (MicArray Dir) :=
  if signals.length ≠ a.R.length then .error .nameError else
  if sameFs then .ok { a with signals := some signals } else .ok { a with signals := some ((List.range a.R.length).map resampled) }

/-- Adding rows of zeros to the signals (547-556). -/
def padSignals (signals : Option (List (List ℝ))) (n : Nat) : Option (List (List ℝ)) :=
  signals.map fun rows => rows ++ List.replicate n (List.replicate (rows.headD []).length 0)

/-- `append` with an array of locations (541-556). -/
def appendLocs {Dir : Type} (omni : Dir) (a : MicArray Dir) (dim : Nat) (locs : List Loc) : Except Err (MicArray Dir) :=
  if dim ≠ a.dim then .error .valueError else
  .ok { a with R := a.R ++ locs, directivity := a.directivity ++ List.replicate locs.length omni, signals := padSignals a.signals locs.length }

/-- Objects. -/
abbrev Heap (Dir : Type) := Nat → MicArray Dir

/-- `append` with another array object (537-556), statement by statement: the two may be the same object. -/
def append {Dir : Type} (h : Heap Dir) (self other : Nat) : Except Err (Heap Dir) :=
  if (h self).dim ≠ (h other).dim then .error .valueError else
  let h := Function.update h self { h self with R := (h self).R ++ (h other).R }
  let h := Function.update h self { h self with directivity := (h self).directivity ++ (h other).directivity }
  let n := (h other).R.length
  .ok (Function.update h self { h self with signals := padSignals (h self).signals n })

/-- The part of a room that has to do with microphones. -/
structure Room where
  dim : Nat
  micArray : Option Nat
  engine : List Loc

/-- Rooms and arrays. -/
structure Sys (Dir : Type) where
  heap : Heap Dir
  rooms : Nat → Room

/-- `Room.add` with a microphone array (1942-1964). -/
def addArray {Dir : Type} (y : Sys Dir) (r id : Nat) : Except Err (Sys Dir) :=
  let room := y.rooms r
  if (y.heap id).dim ≠ room.dim then .error .valueError else
  match room.micArray with
  | none => .ok { y with rooms := Function.update y.rooms r { room with micArray := some id, engine := room.engine ++ (y.heap id).R } }
  | some own =>
    match append y.heap own id with
    | .error e => .error e
    | .ok h => .ok { heap := h, rooms := Function.update y.rooms r { room with engine := room.engine ++ (h id).R } }

/-- The end of `Room.extrude` (1458-1462): the new engine has no microphones. -/
def extrude {Dir : Type} (y : Sys Dir) (r : Nat) : Except Err (Sys Dir) :=
  if (y.rooms r).dim ≠ 2 then .error .valueError else
  .ok { y with rooms := Function.update y.rooms r { y.rooms r with dim := 3, engine := [] } }

/-- Calls of the interface. `new` makes an object with the name `id` (not used before). -/
inductive Op (Dir : Type)
  | new (id dim : Nat) (R : List Loc) (fs : ℝ) (d : DirArg Dir)
  | add (r id : Nat)
  | append (self other : Nat)
  | appendLocs (self dim : Nat) (locs : List Loc)
  | setDirectivity (self : Nat) (d : DirArg Dir)
  | record (self : Nat) (signals : List (List ℝ)) (sameFs : Bool) (resampled : Nat → List ℝ)
  | extrude (r : Nat)

/-- One call on the heap and the rooms. -/
noncomputable def step {Dir : Type} (omni : Dir) (y : Sys Dir) : Op Dir → Except Err (Sys Dir)
  | .new id dim R fs d => (MicArray.new dim R fs d).map fun a => { y with heap := Function.update y.heap id a }
  | .add r id => addArray y r id
  | .append self other => (append y.heap self other).map fun h => { y with heap := h }
  | .appendLocs self dim locs => (appendLocs omni (y.heap self) dim locs).map fun a => { y with heap := Function.update y.heap self a }
  | .setDirectivity self d => (setDirectivity (y.heap self) d).map fun a => { y with heap := Function.update y.heap self a }
  | .record self signals sameFs resampled =>
    (record (y.heap self) signals sameFs resampled).map fun a => { y with heap := Function.update y.heap self a }
  | .extrude r => extrude y r

/-- A history of calls; a call that raises leaves everything as it was. -/
noncomputable def run {Dir : Type} (omni : Dir) (y : Sys Dir) (ops : List (Op Dir)) : Sys Dir :=
  ops.foldl (fun y op => match step omni y op with
    | .ok y' => y'
    | .error _ => y) y

end Verif.Mics
