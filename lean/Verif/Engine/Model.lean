import Mathlib.Data.Real.Basic
import Mathlib.Algebra.Order.Floor.Ring
import Mathlib.Algebra.Order.Floor.Semiring
import Mathlib.Analysis.Real.Pi.Bounds
import Verif.Py

/-!
# Model of the parameters and receivers of the simulation engine

`pyroomacoustics/libroom_src/room.hpp` (171-219), `room.cpp` (48-104, 158-184), `wall.hpp` (100-111), `wall.cpp` (58-75), `microphone.hpp` (40-127) and the methods of
`pyroomacoustics/room.py` that set the options of the simulation (920-1040, 1049-1157, 1197-1200) and run the ray tracer on the receivers (2195-2264).

Memory: the search trees of the receivers are raw pointers. A tree has a number that is never used again; deleting or reading one that is not alive is undefined and
gives `none`. The storage of the vector of receivers is a capacity; `grow` is how the library enlarges it, and elements are copied when it does because the destructor of
`Microphone` takes away its move constructor. Numbers are exact; `Pos` is the type of positions.
-/

namespace Verif.Engine

open Verif.Py (Err)

variable {Pos : Type}

/-! ## Walls -/

/-- The coefficients of a `Wall` (wall.hpp 58-65). -/
structure Wall where
  absorption : List ℝ
  scatter : List ℝ
  averageScatter : ℝ
  doesScatter : Prop
  transmission : List ℝ
  reflection : List ℝ

/-- `Wall<D>::init` (wall.cpp 58-75). -/
noncomputable def Wall.new (absorption scatter : List ℝ) : Except Err Wall :=
  if absorption.length ≠ scatter.length then .error .runtimeError
  else .ok ⟨absorption, scatter, scatter.sum / scatter.length, ∃ s ∈ scatter, 0 < s, absorption.map fun a => Real.sqrt (1 - a), absorption.map fun a => 1 - a⟩

/-- `get_n_bands` (wall.hpp 98). -/
def Wall.nBands (w : Wall) : Nat := w.transmission.length

/-- `Wall::broadcast_bands_to` (wall.hpp 100-111); the average and the flag stay. -/
def Wall.broadcast (w : Wall) (n : Nat) : Except Err Wall :=
  if w.nBands = 1 ∨ n = 1 then
    .ok { w with
      absorption := List.replicate n (w.absorption.headD 0), scatter := List.replicate n (w.scatter.headD 0),
      transmission := List.replicate n (w.transmission.headD 0), reflection := List.replicate n (w.reflection.headD 0) }
  else .error .runtimeError

/-! ## The engine -/

/-- Parameters (room.hpp 91-102). -/
structure Params where
  c : ℝ
  order : Int
  energyThres : ℝ
  timeThres : ℝ
  radius : ℝ
  radiusSq : ℝ
  histRes : ℝ
  hybrid : Bool

/-- A receiver (microphone.hpp 40-73). -/
structure Mic (Pos : Type) where
  loc : Pos
  nBands : Nat
  resolution : ℝ
  binsInit : Nat
  nDirs : Nat
  tree : Option Nat

/-- The engine with its memory: the trees that are alive and the next number of a tree. -/
structure Core (Pos : Type) where
  params : Params
  walls : List Wall
  nBands : Nat
  mics : List (Mic Pos)
  capacity : Nat
  live : List Nat
  next : Nat

/-- The constructors with no microphones (room.cpp 48-104) and `init` (158-184) for rooms of dimension `dim`. -/
def Core.new (dim : Nat) (walls : List Wall) (p : Params) : Except Err (Core Pos) :=
  match walls with
  | [] => .error .runtimeError
  | w :: t =>
    if (w :: t).length ≤ dim then .error .runtimeError
    else if ∃ v ∈ w :: t, w.nBands ≠ v.nBands then .error .runtimeError
    else .ok ⟨p, w :: t, w.nBands, [], 0, [], 0⟩

/-- `delete kdtree` (microphone.hpp 99-104). -/
def Core.delete (e : Core Pos) : Option Nat → Option (Core Pos)
  | none => some e
  | some p => if p ∈ e.live then some { e with live := e.live.erase p } else none

/-- The destructors of receivers (microphone.hpp 75). -/
def Core.deleteAll (e : Core Pos) : List (Mic Pos) → Option (Core Pos)
  | [] => some e
  | m :: t => (e.delete m.tree).bind fun e => e.deleteAll t

open Classical in
/-- `add_mic` (room.hpp 194-199) with the constructor of the receiver (microphone.hpp 66-73). A resolution of zero makes the conversion to `size_t` undefined. -/
noncomputable def Core.addMic (grow : Nat → Nat) (e : Core Pos) (loc : Pos) : Option (Core Pos) :=
  let res := e.params.histRes * e.params.c
  let maxDist := e.params.timeThres * e.params.c
  if res = 0 then none
  else
    let mic : Mic Pos := ⟨loc, e.nBands, res, ⌊maxDist / res⌋₊ + 1, 1, none⟩
    if e.mics.length < e.capacity then some { e with mics := e.mics ++ [mic] }
    else ({ e with mics := e.mics ++ [mic], capacity := grow e.capacity } : Core Pos).deleteAll e.mics

/-- `set_directions` with `k` directions (microphone.hpp 77-85); a receiver that does not exist is an exception in Python. -/
def Core.setDirections (e : Core Pos) (r k : Nat) : Option (Core Pos) :=
  match e.mics[r]? with
  | none => some e
  | some m => (e.delete m.tree).map fun e =>
    { e with mics := e.mics.set r { m with nDirs := k, tree := some e.next }, live := e.next :: e.live, next := e.next + 1 }

/-- `make_omni` (microphone.hpp 87-94). -/
def Core.makeOmni (e : Core Pos) (r : Nat) : Option (Core Pos) :=
  match e.mics[r]? with
  | none => some e
  | some m => (e.delete m.tree).map fun e => { e with mics := e.mics.set r { m with nDirs := 1, tree := none } }

/-- `get_dir_bin` reads the tree unless there is one direction (microphone.hpp 116-131). -/
def Core.query (e : Core Pos) (r : Nat) : Option (Core Pos) :=
  match e.mics[r]? with
  | none => some e
  | some m =>
    if m.nDirs = 1 then some e
    else
      match m.tree with
      | none => none
      | some p => if p ∈ e.live then some e else none

/-- The destructor of the engine. -/
def Core.destroy (e : Core Pos) : Option (Core Pos) := (e.deleteAll e.mics).map fun e => { e with mics := [] }

/-- The walls of `broadcast_bands_to`, up to the one that throws. -/
def broadcastWalls (n : Nat) : List Wall → List Wall × Option Err
  | [] => ([], none)
  | w :: t =>
    match w.broadcast n with
    | .error e => (w :: t, some e)
    | .ok w' => (w' :: (broadcastWalls n t).1, (broadcastWalls n t).2)

/-- `Room::broadcast_bands_to` (room.hpp 207-219): the engine afterwards and the exception. -/
def Core.broadcast (e : Core Pos) (n : Nat) : Core Pos × Option Err :=
  match broadcastWalls n e.walls with
  | (walls, some err) => ({ e with nBands := n, walls := walls }, some err)
  | (walls, none) => ({ e with nBands := n, walls := walls, mics := e.mics.map fun m => { m with nBands := n } }, none)

/-- What Python does to an engine. -/
inductive Op (Pos : Type) where
  | addMic (loc : Pos)
  | setDirections (r k : Nat)
  | makeOmni (r : Nat)
  | query (r : Nat)
  | setParams (p : Params)

/-- One of them. -/
noncomputable def step (grow : Nat → Nat) (e : Core Pos) : Op Pos → Option (Core Pos)
  | .addMic loc => e.addMic grow loc
  | .setDirections r k => e.setDirections r k
  | .makeOmni r => e.makeOmni r
  | .query r => e.query r
  | .setParams p => some { e with params := p }

/-- A history. -/
noncomputable def run (grow : Nat → Nat) (e : Core Pos) : List (Op Pos) → Option (Core Pos)
  | [] => some e
  | o :: t => (step grow e o).bind fun e => run grow e t

/-- What `ray_tracing` does to the receivers (room.py 2202-2227), and then the rays that reach them; `dirs` has the number of directions of every receiver with a
directivity. Emptying the histograms does not matter here. -/
def traceOps (dirs : List (Option Nat)) : List (Op Pos) :=
  ((List.range dirs.length).map fun r =>
    match (dirs[r]?).getD none with
    | none => .makeOmni r
    | some k => .setDirections r k) ++ (List.range dirs.length).map .query

/-! ## The room in Python -/

/-- `rt_args`; `nRays` is missing while the call that sets it has not ended. -/
structure Args where
  energyThres : ℝ
  timeThres : ℝ
  radius : ℝ
  binSize : ℝ
  binSamples : Int
  nDirs : Nat
  nRays : Option Int

/-- The room: what the options use. -/
structure Room (Pos : Type) where
  fs : ℝ
  c : ℝ
  maxOrder : Int
  volume : ℝ
  ismNeeded : Bool
  rtNeeded : Bool
  args : Args
  engine : Option (Core Pos)

/-- The keyword arguments of `set_ray_tracing` (room.py 1049-1057). -/
structure Opts where
  nRays : Option Int := none
  radius : ℝ := 1 / 2
  energyThres : ℝ := 1 / 10 ^ 7
  timeThres : ℝ := 10
  binSize : ℝ := 4 / 1000
  nDirs : Nat := 720

/-- The parameters handed to the engine (room.py 1009-1017, 1028-1039). -/
def Room.params (r : Room Pos) : Params :=
  ⟨r.c, r.maxOrder, r.args.energyThres, r.args.timeThres, r.args.radius, r.args.radius * r.args.radius, r.args.binSize, r.ismNeeded && r.rtNeeded⟩

/-- `_update_room_engine_params` (1025-1039). -/
def Room.update (r : Room Pos) : Room Pos := { r with engine := r.engine.map fun e => { e with params := r.params } }

/-- `int(x)`. -/
noncomputable def trunc (x : ℝ) : Int := if 0 ≤ x then ⌊x⌋ else ⌈x⌉

/-- `_set_ray_tracing_options` (1088-1152): the room afterwards and the exception, if any. A bin of no samples, a radius or a speed of zero make the number of rays
infinite, which cannot be converted to an integer. -/
noncomputable def Room.setOptions (r : Room Pos) (use : Bool) (o : Opts) : Room Pos × Option Err :=
  let samples := ⌊r.fs * o.binSize⌋
  let bin : ℝ := samples / r.fs
  let args : Args := ⟨o.energyThres, o.timeThres, o.radius, bin, samples, o.nDirs, o.nRays⟩
  let r : Room Pos := { r with rtNeeded := use, args := args }
  match o.nRays with
  | some _ => (r.update, none)
  | none =>
    let den := Real.pi * o.radius ^ 2 * r.c * bin
    open Classical in
    if den = 0 then (r, some .zeroDivision)
    else
      let n := trunc (20 * (r.volume / den))
      ({ r with args := { args with nRays := some n } }.update, none)

/-- `_var_init` and `_init_room_engine` (920-1023), as far as the options go. -/
noncomputable def Room.new (dim : Nat) (walls : List Wall) (fs c : ℝ) (maxOrder : Int) (volume : ℝ) (rayTracing : Bool) : Except Err (Room Pos) :=
  let r : Room Pos := ⟨fs, c, maxOrder, volume, decide (0 ≤ maxOrder), rayTracing, ⟨0, 0, 0, 0, 0, 0, none⟩, none⟩
  match r.setOptions rayTracing {} with
  | (_, some e) => .error e
  | (r, none) =>
    match Core.new dim walls r.params with
    | .error e => .error e
    | .ok e => .ok { r with engine := some e }

/-- The calls on a room. -/
inductive Call (Pos : Type) where
  | setRayTracing (o : Opts)
  | unsetRayTracing
  | setSoundSpeed (c : ℝ)
  | add (loc : Pos)

/-- One call (1080-1086, 1154-1157, 1197-1200, 1961-1963): `none` when it is undefined, otherwise the room and the exception. -/
noncomputable def Room.call (grow : Nat → Nat) (r : Room Pos) : Call Pos → Option (Room Pos × Option Err)
  | .setRayTracing o => some (r.setOptions true o)
  | .unsetRayTracing => some ({ r with rtNeeded := false }.update, none)
  | .setSoundSpeed c => some ({ r with c := c }.update, none)
  | .add loc =>
    match r.engine with
    | none => some (r, some .attributeError)
    | some e => (e.addMic grow loc).map fun e => ({ r with engine := some e }, none)

end Verif.Engine
