import Verif.Py
import Mathlib.Logic.Function.Basic

/-!
# Model of the caches of a room

`pyroomacoustics/room.py`: `simulator_state` (959-967), `set_ray_tracing`, `_set_ray_tracing_options`, `unset_ray_tracing` (1049-1157), `Room.add` (1916-1971),
`image_source_model` (2117-2181), `ray_tracing` (2183-2267), `compute_rir` (2269-2355), the test at the start of `simulate` (2418-2420).

Only what is computed from which state is modelled. The computations themselves are parameters (`Eng`): what the engine returns for a source, and what
`compute_ism_rir` and `compute_rt_rir` make of it. Sources are objects in a heap: the images are stored in the source, not in the room. The microphones of
the engine are those of the room (see C40). The random displacement of images is not modelled, nor are rooms without microphones (`AttributeError`, modelled
as an empty list of microphones).
-/

namespace Verif.RirState

open Py (Err)

/-- The computations. `Cfg`: options of engine and ray tracer; `Post`: options used when the responses are assembled; `I`: what is stored in the source;
`V`: visibility; `H`: histogram; `R`: impulse response. -/
structure Eng (S Mic Cfg Post I V H R : Type) where
  ism : Cfg → Bool → List Mic → S → I × V
  rt : Cfg → Bool → List Mic → S → Nat → H
  asmIsm : Post → S → Mic → Nat → I → V → R
  asmRt : Post → S → Mic → H → R
  /-- Sum with padding (2340-2347). -/
  add : R → R → R

/-- Room. Visibility has an entry for every source, which has a row for every microphone (`Nat`: number of rows). -/
structure Room (Mic Cfg Post V H R : Type) where
  sources : List Nat
  mics : List Mic
  cfg : Cfg
  post : Post
  ismNeeded : Bool
  rtNeeded : Bool
  ismDone : Bool
  rtDone : Bool
  visibility : List (V × Nat)
  hist : List (List H)
  rir : Option (List (List R))

/-- Sources, their images (with the number of microphones for which there are directions), and rooms. -/
structure Sys (S Mic Cfg Post I V H R : Type) where
  src : Nat → S
  cache : Nat → Option (I × Nat)
  rooms : Nat → Room Mic Cfg Post V H R

variable {S Mic Cfg Post I V H R : Type}

/-- The engine is told whether both methods are used (1014-1016, 1032-1040). -/
def Room.hybrid (r : Room Mic Cfg Post V H R) : Bool := r.ismNeeded && r.rtNeeded

/-- `image_source_model` (2117-2181). -/
def imageSourceModel (E : Eng S Mic Cfg Post I V H R) (y : Sys S Mic Cfg Post I V H R) (r : Nat) : Sys S Mic Cfg Post I V H R :=
  let room := y.rooms r
  if room.ismNeeded then
    let res := fun id => E.ism room.cfg room.hybrid room.mics (y.src id)
    { y with
      cache := room.sources.foldl (fun c id => Function.update c id (some ((res id).1, room.mics.length))) y.cache
      rooms := Function.update y.rooms r { room with visibility := room.sources.map fun id => ((res id).2, room.mics.length), ismDone := true } }
  else y

/-- `ray_tracing` (2183-2267). -/
def rayTracing (E : Eng S Mic Cfg Post I V H R) (y : Sys S Mic Cfg Post I V H R) (r : Nat) : Sys S Mic Cfg Post I V H R :=
  let room := y.rooms r
  if room.rtNeeded then
    let hist := (List.range room.mics.length).map fun m => room.sources.map fun id => E.rt room.cfg room.hybrid room.mics (y.src id) m
    { y with rooms := Function.update y.rooms r { room with hist := hist, rtDone := true } }
  else y

/-- The image part of one response (2306-2320): images of the source, then visibility. -/
def ismPart (E : Eng S Mic Cfg Post I V H R) (y : Sys S Mic Cfg Post I V H R) (room : Room Mic Cfg Post V H R) (m : Nat) (mic : Mic) (s id : Nat) : Except Err R :=
  match y.cache id with
  | none => .error .attributeError
  | some (img, n) =>
    if n ≤ m then .error .indexError else
    match room.visibility[s]? with
    | none => .error .indexError
    | some (vis, k) => if k ≤ m then .error .indexError else .ok (E.asmIsm room.post (y.src id) mic m img vis)

/-- The ray tracing part of one response (2322-2337). -/
def rtPart (E : Eng S Mic Cfg Post I V H R) (y : Sys S Mic Cfg Post I V H R) (room : Room Mic Cfg Post V H R) (m : Nat) (mic : Mic) (s id : Nat) : Except Err R :=
  match room.hist[m]? with
  | none => .error .indexError
  | some row =>
    match row[s]? with
    | none => .error .indexError
    | some h => .ok (E.asmRt room.post (y.src id) mic h)

/-- One response (2291-2347). -/
def oneRir (E : Eng S Mic Cfg Post I V H R) (y : Sys S Mic Cfg Post I V H R) (room : Room Mic Cfg Post V H R) (m : Nat) (mic : Mic) (s id : Nat) : Except Err R :=
  match room.ismNeeded, room.rtNeeded with
  | false, false => .error .valueError
  | true, false => ismPart E y room m mic s id
  | false, true => rtPart E y room m mic s id
  | true, true =>
    match ismPart E y room m mic s id with
    | .error e => .error e
    | .ok a =>
      match rtPart E y room m mic s id with
      | .error e => .error e
      | .ok b => .ok (E.add a b)

/-- The double loop (2286-2353). -/
def allRir (E : Eng S Mic Cfg Post I V H R) (y : Sys S Mic Cfg Post I V H R) (room : Room Mic Cfg Post V H R) : Except Err (List (List R)) :=
  room.mics.zipIdx.mapM fun mm => room.sources.zipIdx.mapM fun si => oneRir E y room mm.2 mm.1 si.2 si.1

/-- The simulations that are needed and not marked as done (2274-2278). -/
def prepare (E : Eng S Mic Cfg Post I V H R) (y : Sys S Mic Cfg Post I V H R) (r : Nat) : Sys S Mic Cfg Post I V H R :=
  let y := if (y.rooms r).ismNeeded && !(y.rooms r).ismDone then imageSourceModel E y r else y
  if (y.rooms r).rtNeeded && !(y.rooms r).rtDone then rayTracing E y r else y

/-- `compute_rir` (2269-2355). -/
def computeRir (E : Eng S Mic Cfg Post I V H R) (y : Sys S Mic Cfg Post I V H R) (r : Nat) : Except Err (Sys S Mic Cfg Post I V H R) :=
  let y := prepare E y r
  match allRir E y (y.rooms r) with
  | .error e => .error e
  | .ok rir => .ok { y with rooms := Function.update y.rooms r { y.rooms r with rir := some rir } }

/-- The impulse responses that `simulate` uses (2418-2420). -/
def simulateRir (E : Eng S Mic Cfg Post I V H R) (y : Sys S Mic Cfg Post I V H R) (r : Nat) (recompute : Bool) : Except Err (Sys S Mic Cfg Post I V H R) :=
  match (y.rooms r).rir with
  | none => computeRir E y r
  | some [] => computeRir E y r
  | some _ => if recompute then computeRir E y r else .ok y

/-- Changes of a room that the interface offers. -/
inductive Change (Mic Cfg Post : Type)
  | addSource (id : Nat)
  | addMics (l : List Mic)
  | setCfg (c : Cfg)
  | setPost (p : Post)
  | setRt (b : Bool)

/-- None of them touches results or the marks for what is done. -/
def change (y : Sys S Mic Cfg Post I V H R) (r : Nat) (c : Change Mic Cfg Post) : Sys S Mic Cfg Post I V H R :=
  let room := y.rooms r
  { y with rooms := Function.update y.rooms r (match c with
    | .addSource id => { room with sources := room.sources ++ [id] }
    | .addMics l => { room with mics := room.mics ++ l }
    | .setCfg c => { room with cfg := c }
    | .setPost p => { room with post := p }
    | .setRt b => { room with rtNeeded := b }) }

end Verif.RirState
