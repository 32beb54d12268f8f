import Verif.Py
import Mathlib.Data.EReal.Basic
import Mathlib.Analysis.SpecialFunctions.Trigonometric.Basic

/-!
# Walls, boxes, sources and levels of a room (`pyroomacoustics/room.py`)
-/

namespace Verif.RoomInfo

open Py

/-- One turn of the loop of `Room._wall_mapping` (1205-1207). -/
def mapStep (names : List (Option String)) (d : String → Option ℕ) (i : ℕ) : String → Option ℕ :=
  match names.getD i none with
  | some n => Function.update d n (some i)
  | none => d

/-- `Room._wall_mapping` (1202-1207): the dictionary from the names to the indices. -/
def wallMapping (names : List (Option String)) : String → Option ℕ :=
  (List.range names.length).foldl (mapStep names) fun _ => none

/-- `Room.get_wall_by_name` (2506-2524): the index of the wall. -/
def wallByName (names : List (Option String)) (name : String) : Except Err ℕ :=
  match wallMapping names name with
  | some i => .ok i
  | none => .error .valueError

open Classical in
/-- `Room.get_bbox` (2526-2532): the bounds of coordinate `k`; `walls` the corners of each wall. Nothing to concatenate is a ValueError. -/
noncomputable def bbox {dim : ℕ} (walls : List (List (Fin dim → ℝ))) (k : Fin dim) : Except Err (ℝ × ℝ) :=
  match walls.flatten with
  | [] => .error .valueError
  | c :: t => .ok ((t.map (· k)).foldl min (c k), (t.map (· k)).foldl max (c k))

/-- `AnechoicRoom.get_bbox` (3040-3057): the bounds of coordinate `k`; `mics` is None or the locations. -/
noncomputable def anechoicBbox {dim : ℕ} (mics : Option (List (Fin dim → ℝ))) (sources : List (Fin dim → ℝ)) (k : Fin dim) : Except Err (EReal × EReal) :=
  if mics = none ∧ sources = [] then .error .valueError
  else
    let lower := ((mics.getD []).map fun m => ((m k : ℝ) : EReal)).foldl min ⊤
    let upper := ((mics.getD []).map fun m => ((m k : ℝ) : EReal)).foldl max ⊥
    .ok ((sources.map fun s => ((s k : ℝ) : EReal)).foldl min lower, (sources.map fun s => ((s k : ℝ) : EReal)).foldl max upper)

/-- A source: its position and signal. -/
structure Source (dim : ℕ) where
  position : Fin dim → ℝ
  signal : Option (List ℝ)

/-- `np.mean(x ** 2)`. -/
noncomputable def power (x : List ℝ) : ℝ := (x.map (· ^ 2)).sum / x.length

/-- `Room.direct_snr` (2488-2504) for an index that is not negative; `⊤` is infinity, also (the variance being no negative number) for divisions by zero of a positive power. A missing signal of the first source cannot be squared (TypeError); an empty one, or zero over zero, is nan (modelled as `runtimeError`). -/
noncomputable def directSnr {dim : ℕ} (sources : List (Source dim)) (sigma2 : Option ℝ) (x : Fin dim → ℝ) (source : ℕ) : Except Err EReal :=
  match sources[source]? with
  | none => .error .valueError
  | some s =>
    if s.signal = none then .error .valueError
    else
      match sigma2 with
      | none => .ok ⊤
      | some v =>
        match (sources[0]?).bind Source.signal with
        | none => .error .typeError
        | some sig =>
          let d2 := ∑ k, (x k - s.position k) ^ 2
          if sig = [] then .error .runtimeError
          else if v = 0 ∨ d2 = 0 then (if power sig = 0 then .error .runtimeError else .ok ⊤)
          else .ok ((power sig / v / (16 * Real.pi ^ 2 * d2) : ℝ) : EReal)

/-- The kinds of the argument `directivity` of `add_source`. -/
inductive Dir where
  | none_
  | cardioid
  | measured
  | other
deriving DecidableEq

/-- The argument `position`: a `SoundSource` (`dim`, inside or not), or coordinates. -/
inductive Pos (P S : Type) where
  | source (s : S)
  | coords (p : P)

/-- `Room.add` (1916-1968) for a source. -/
def addObj {S : Type} (dimOf : S → ℕ) (inside : S → Bool) (dim : ℕ) (sources : List S) (s : S) : Except Err (List S) :=
  if dimOf s ≠ dim then .error .valueError else if !inside s then .error .valueError else .ok (sources ++ [s])

/-- `Room.add_source` (2055-2102): the sources afterwards; `mk` makes a source of coordinates (with the signal and the delay) and a directivity, or raises. `SoundSource(position)` of a `SoundSource` is an array without dimensions, whose `shape[0]` is an IndexError. -/
def addSource {P S : Type} (dimOf : S → ℕ) (inside : S → Bool) (mk : P → Dir → Except Err S) (dim : ℕ) (sources : List S) (pos : Pos P S) (d : Dir) : Except Err (List S) :=
  if dim ≠ 3 ∧ d ≠ .none_ then .error .notImplemented
  else
    match pos with
    | .source s => if d = .none_ then addObj dimOf inside dim sources s else if d = .cardioid ∨ d = .measured then .error .indexError else .ok sources
    | .coords p =>
      if d = .none_ ∨ d = .cardioid ∨ d = .measured then
        match mk p d with
        | .error e => .error e
        | .ok s => addObj dimOf inside dim sources s
      else .ok sources

/-- The state of the air absorption: the flag of `simulator_state` and the coefficients. -/
structure Air where
  needed : Bool
  coeffs : Option (List ℝ)

/-- What is called on a room. -/
inductive AirCall where
  | set (c : Option (List ℝ))
  | unset

/-- `set_air_absorption` (1159-1191) and `unset_air_absorption` (1193-1195): `physics` the coefficients for the temperature and humidity, `bands` the interpolation to the octave bands. -/
def Air.call (physics : List ℝ) (bands : List ℝ → List ℝ) (a : Air) : AirCall → Air
  | .set none => { needed := true, coeffs := some (bands physics) }
  | .set (some c) => { needed := true, coeffs := some (bands c) }
  | .unset => { a with needed := false }

/-- The coefficients used by `compute_rir` (2318, 2335): the attribute, whatever the flag. -/
def Air.used (a : Air) : Option (List ℝ) := a.coeffs

end Verif.RoomInfo
