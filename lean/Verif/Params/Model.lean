import Mathlib.Data.Real.Basic
import Verif.Py

/-!
# Model of the global parameters

`pyroomacoustics/parameters.py`: `get_num_threads` (149-173), `Constants` (199-217), `calculate_speed_of_sound` and
`_calculate_temperature` (226-253), `Physics` (283-365), `Material` (403-566). `room.py`: the choice of the `Physics` object
in `Room._var_init` (964-970).

Numbers are real numbers. A Python dictionary is the list of its pairs in the order of insertion.
-/

namespace Verif.Params

open Py (Err)

/-! ## Dictionaries -/

/-- A dictionary with string keys. -/
abbrev Dict (V : Type) := List (String × V)

variable {V : Type}

/-- `d[k]`, `none` for a `KeyError`. -/
def Dict.get (d : Dict V) (k : String) : Option V := (d.find? fun e => e.1 == k).map (·.2)

/-- `d[k] = v`. -/
def Dict.set (d : Dict V) (k : String) (v : V) : Dict V :=
  match d with
  | [] => [(k, v)]
  | e :: rest => if e.1 == k then (k, v) :: rest else e :: Dict.set rest k v

/-! ## Constants (parameters.py:177-221) -/

/-- The module globals `_constants` and `_constants_default`. -/
structure Globals (V : Type) where
  constants : Dict V
  default : Dict V

/-- `Constants.set` (204-206). -/
def Globals.set (g : Globals V) (name : String) (v : V) : Globals V :=
  { g with constants := g.constants.set name v }

/-- `Constants.get` (208-217). -/
def Globals.get (g : Globals V) (name : String) : Except Err V :=
  match g.constants.get name with
  | some v => .ok v
  | none =>
    match g.default.get name with
    | some v => .ok v
    | none => .error .nameError

/-- `get_num_threads` (149-173) for the environment `env` (values already read as integers) and the attributes `attrs` of the object `os.environ`;
`getattr(os.environ, var, num_cores)` reads an attribute of the object, not the variable. -/
def getNumThreads (env attrs : Dict Int) (numCores : Int) : Int :=
  match env.get "PRA_NUM_THREADS" with
  | some v => v
  | none =>
    min ((attrs.get "OMP_NUM_THREADS").getD numCores) ((attrs.get "MKL_NUM_THREADS").getD numCores)

/-! ## Physics -/

/-- `calculate_speed_of_sound` (226-247). -/
noncomputable def calculateSpeedOfSound (t h _p : ℝ) : ℝ := 331.4 + 0.6 * t + 0.0124 * h

/-- `_calculate_temperature` (250-253). -/
noncomputable def calculateTemperature (c h : ℝ) : ℝ := (c - 331.4 - 0.0124 * h) / 0.6

/-- `air_absorption_table` (272-280), without the entry `center_freqs`. -/
noncomputable def airAbsorptionTable : Dict (List ℝ) :=
  [("10C_30-50%", [0.1, 0.2, 0.5, 1.1, 2.7, 9.4, 29.0].map (· * 1e-3)),
   ("10C_50-70%", [0.1, 0.2, 0.5, 0.8, 1.8, 5.9, 21.1].map (· * 1e-3)),
   ("10C_70-90%", [0.1, 0.2, 0.5, 0.7, 1.4, 4.4, 15.8].map (· * 1e-3)),
   ("20C_30-50%", [0.1, 0.3, 0.6, 1.0, 1.9, 5.8, 20.3].map (· * 1e-3)),
   ("20C_50-70%", [0.1, 0.3, 0.6, 1.0, 1.7, 4.1, 13.5].map (· * 1e-3)),
   ("20C_70-90%", [0.1, 0.3, 0.6, 1.1, 1.7, 3.5, 10.6].map (· * 1e-3))]

/-- The entry `center_freqs` of the table. -/
noncomputable def airCenterFreqs : List ℝ := [125, 250, 500, 1000, 2000, 4000, 8000]

/-- A `Physics` object. -/
structure Physics where
  T : ℝ
  H : ℝ
  p : ℝ

open Classical in
/-- `Physics.__init__` (297-312); `c` is `constants.get("c")`. -/
noncomputable def Physics.mk' (c : ℝ) (temperature humidity : Option ℝ) : Except Err Physics :=
  let p : ℝ := 100
  let H := humidity.getD 0
  if H < 0 ∨ H > 100 then .error .valueError
  else .ok ⟨temperature.getD (calculateTemperature c H), H, p⟩

/-- `Physics.get_sound_speed` (314-320). -/
noncomputable def Physics.soundSpeed (ph : Physics) : ℝ := calculateSpeedOfSound ph.T ph.H ph.p

open Classical in
/-- The key made by `get_air_absorption` (330-342). -/
noncomputable def Physics.airKey (ph : Physics) : String :=
  let key := if ph.T < 15 then "" ++ "10C_" else "20C_"
  if ph.H < 50 then key ++ "30-50%" else if 50 ≤ ph.H ∧ ph.H < 70 then key ++ "50-70%" else key ++ "70-90%"

/-- `Physics.get_air_absorption` (322-347). -/
noncomputable def Physics.airAbsorption (ph : Physics) : Except Err (List ℝ × List ℝ) :=
  match airAbsorptionTable.get ph.airKey with
  | some coeffs => .ok (coeffs, airCenterFreqs)
  | none => .error .keyError

/-- `Physics.from_speed` (349-356). -/
noncomputable def Physics.fromSpeed (constC c : ℝ) : Except Err Physics :=
  let H : ℝ := 0.3
  let T := calculateTemperature c H
  Physics.mk' constC (some T) (some H)

/-- The physics of a room (room.py:964-970); `c` is `constants.get("c")`. -/
noncomputable def roomPhysics (c : ℝ) (temperature humidity : Option ℝ) : Except Err Physics :=
  if temperature.isNone && humidity.isNone then
    match Physics.mk' c none none with
    | .error e => .error e
    | .ok _ => Physics.fromSpeed c c
  else Physics.mk' c temperature humidity

end Verif.Params
