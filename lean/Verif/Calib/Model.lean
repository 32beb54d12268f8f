import Verif.Py
import Verif.Sync.Model
import Mathlib.Algebra.BigOperators.Group.Finset.Basic

/-!
# `experimental/delay_calibration.py` and `experimental/physics.py`

Exact numbers: the signals are not rounded to single precision. The sequence of `scipy.signal.max_len_seq` and `sounddevice.playrec` are parameters, the numbers of output channels are not negative.
-/

namespace Verif.Calib

open Verif.Py Finset

/-- `calculate_speed_of_sound` (physics.py 1-20). -/
noncomputable def speedOfSound (t h _p : ℝ) : ℝ := 331.4 + 0.6 * t + 0.0124 * h

/-- The object (delay_calibration.py 10-48). -/
structure Cal where
  fs : ℝ
  pad : ℝ := 0
  temperature : ℝ := 25
  humidity : ℝ := 50
  pressure : ℝ := 1000

/-- `self.c` (48). -/
noncomputable def Cal.c (k : Cal) : ℝ := speedOfSound k.temperature k.humidity k.pressure

/-- `int(x)`. -/
noncomputable def trunc (x : ℝ) : Int := if 0 ≤ x then ⌊x⌋ else ⌈x⌉

/-- The sequence as a signal (69-71). -/
noncomputable def mls (bits : List Bool) : List ℝ := bits.map fun b => 0.95 * (2 * (if b then 1 else 0) - 1)

/-- `scipy.signal.correlate(x, y, mode="valid")` for a first signal that is not shorter. -/
noncomputable def correlateLong (x y : List ℝ) : List ℝ := (List.range (x.length - y.length + 1)).map fun (l : Nat) => ∑ n ∈ range y.length, x.getD (l + n) 0 * y.getD n 0

/-- `scipy.signal.correlate(x, y, mode="valid")`. -/
noncomputable def correlate (x y : List ℝ) : List ℝ := if y.length ≤ x.length then correlateLong x y else (correlateLong y x).reverse

/-- `delays[ich, och] = v` for an array of the given size (103). -/
def setDelay (rows cols : Nat) (d : Nat → Nat → ℝ) (i o : Nat) (v : ℝ) : Except Err (Nat → Nat → ℝ) :=
  if i < rows ∧ o < cols then .ok fun i' o' => if i' = i ∧ o' = o then v else d i' o' else .error .indexError

/-- All channels of a recording (101-105). -/
noncomputable def readAll (rows cols : Nat) (m : List ℝ) (recorded : List (List ℝ)) (o : Nat) (d : Nat → Nat → ℝ) : Except Err (Nat → Nat → ℝ) :=
  (List.range recorded.length).foldlM (fun d i => do
    let p ← Sync.argmax ((correlate (recorded.getD i []) m).map some)
    setDelay rows cols d i o p) d

/-- One output channel (93-105): the state is the output signal, as a list of its channels, and the delays. -/
noncomputable def step (playrec : List (List ℝ) → List (List ℝ)) (rows cols : Nat) (m : List ℝ) (st : List (List ℝ) × (Nat → Nat → ℝ)) (o : Nat) : Except Err (List (List ℝ) × (Nat → Nat → ℝ)) := do
  match st.1[o]? with
  | none => .error .indexError
  | some col =>
    if col.length < m.length then .error .valueError
    else
      let s := st.1.set o (m.map (0.1 * ·) ++ col.drop m.length)
      let recorded := playrec s
      let s := s.set o (List.replicate col.length 0)
      let d ← readAll rows cols m recorded o st.2
      .ok (s, d)

/-- `run` (50-110): `sd` is the number of input and output channels of the device, if the name is known; this is only so if the file is run as a script. -/
noncomputable def run (k : Cal) (bits : List Bool) (sd : Option (Nat × Nat)) (matplotlib : Bool) (playrec : List (List ℝ) → List (List ℝ)) (distance : ℝ) (chOut : Option (List Nat)) : Except Err (Option (Nat → Nat → ℝ)) := do
  let chOut := chOut.getD [0]
  let m := mls bits
  match sd with
  | none => .error .nameError
  | some (ins, outs) =>
    let n := (m.length : Int) + trunc (k.pad * k.fs)
    if n < 0 then .error .valueError
    else if matplotlib = false then .ok none
    else
      let (_, d) ← chOut.foldlM (step playrec ins chOut.length m) (List.replicate outs (List.replicate n.toNat 0), fun _ _ => 0)
      if k.c = 0 then .error .zeroDivision
      else .ok (some fun i o => d i o - trunc (distance / k.c * k.fs))

end Verif.Calib
