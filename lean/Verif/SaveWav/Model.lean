import Verif.Py
import Mathlib.Algebra.Order.Archimedean.Real.Basic
import Mathlib.Data.Finset.Lattice.Fold
import Mathlib.Data.Fintype.Prod

/-!
# Saving the signals of a microphone array (`pyroomacoustics/beamforming.py`)

`MicrophoneArray.to_wav` (478-525). The result is what is given to `scipy.io.wavfile.write`. Signals are floating-point arrays with exact entries; the rounding of `np.float32` is left out.
-/

namespace Verif.SaveWav

open Verif.Py

/-- Values of `bitdepth` told apart by `to_wav` (503-517). -/
inductive BitDepth where
  | float | int8 | int16 | int32 | int64 | other

/-- A sample of the file; `undefined` for `nan`, and for a number that does not fit into the integer type. -/
inductive Sample where
  | real (v : ℝ)
  | int (z : Int)
  | undefined

/-- `bits` (503-517). -/
def bits : BitDepth → Except Err (Option Nat)
  | .float => .ok none
  | .int8 => .ok (some 8)
  | .int16 => .ok (some 16)
  | .int32 => .ok (some 32)
  | .int64 => .ok (some 64)
  | .other => .error .nameError

/-- `clip` (utilities.py 199-206) of one sample. -/
noncomputable def clip (v high low : ℝ) : ℝ :=
  let s := if v > high then high else v
  if s < low then low else s

/-- `normalize` (utilities.py 210-226) of an array with index set `ι`. The maximum of no numbers raises; `none` for the division of zero by zero. -/
noncomputable def normalize {ι : Type} [Fintype ι] (x : ι → ℝ) (b : Option Nat) : Except Err (ι → Option ℝ) :=
  if h : (Finset.univ : Finset ι).Nonempty then
    let m := Finset.univ.sup' h fun i => |x i|
    .ok fun i =>
      if m = 0 then none
      else match b with
        | none => some (x i / m)
        | some k => some (clip (x i / m * (2 ^ (k - 1) - 1)) (2 ^ (k - 1) - 1) (-(2 ^ (k - 1))))
  else .error .valueError

/-- One entry of `np.array(signal, dtype=bitdepth)` (523): integers are cut towards zero. -/
noncomputable def cast (b : Option Nat) (v : Option ℝ) : Sample :=
  match v, b with
  | none, none => .undefined
  | none, some _ => .undefined
  | some v, none => .real v
  | some v, some k =>
    let z : Int := if 0 ≤ v then ⌊v⌋ else ⌈v⌉
    if -2 ^ (k - 1) ≤ z ∧ z ≤ 2 ^ (k - 1) - 1 then .int z else .undefined

/-- Lines 503-523 for the array chosen. -/
noncomputable def convert {ι : Type} [Fintype ι] (x : ι → ℝ) (norm : Bool) (d : BitDepth) : Except Err (ι → Sample) := do
  let b ← bits d
  let y ← if norm then normalize x b else .ok fun i => some (x i)
  .ok fun i => cast b (y i)

/-- The array given to the writer: one channel, or one row for every instant. -/
inductive Data (R L : Nat) where
  | mono (x : Fin L → Sample)
  | frames (x : Fin L → Fin R → Sample)

/-- `to_wav` (478-525) of an array of `M` microphones with `R` signals of `L` samples; `none` before anything is recorded. -/
noncomputable def toWav {R L : Nat} (M fs : Nat) (signals : Option (Fin R → Fin L → ℝ)) (mono norm : Bool) (d : BitDepth) : Except Err (Nat × Data R L) :=
  match signals, mono with
  | none, true => .error .typeError
  | none, false => .error .attributeError
  | some s, true =>
    if h : M / 2 < R then (convert (s ⟨M / 2, h⟩) norm d).map fun x => (fs, .mono x)
    else .error .indexError
  | some s, false => (convert (fun p : Fin L × Fin R => s p.2 p.1) norm d).map fun x => (fs, .frames fun t c => x (t, c))

end Verif.SaveWav
