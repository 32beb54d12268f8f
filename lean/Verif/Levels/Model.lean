import Verif.Py
import Mathlib.Analysis.Real.Sqrt
import Mathlib.Analysis.SpecialFunctions.Pow.Real

/-!
# Levels and number formats of signals

`/repo/pyroomacoustics/utilities.py` 73-236: `create_noisy_signal`, `rms`, `to_float32`, `to_16b`, `clip`, `normalize`, `normalize_pwr`. Signals have one channel;
floating-point numbers are exact, `none` stands for a signal that contains `nan` or infinity. Files are given by their rate and samples.
-/

namespace Verif.Levels

open Verif.Py

/-- Integer types of numpy. -/
structure IntType where
  signed : Bool
  bits : Nat

/-- `np.iinfo(t).min`. -/
def IntType.min (t : IntType) : Int := if t.signed then -2 ^ (t.bits - 1) else 0

/-- `np.iinfo(t).max`. -/
def IntType.max (t : IntType) : Int := if t.signed then 2 ^ (t.bits - 1) - 1 else 2 ^ t.bits - 1

/-- A signal with its type. -/
inductive Signal where
  | ints (t : IntType) (x : List Int)
  | floats (x : List ℝ)

/-- `to_float32` (168-187). A division by zero gives no number. -/
noncomputable def toFloat32 : Signal → Option (List ℝ)
  | .ints t x => if |t.min| = 0 ∧ x ≠ [] then none else some (x.map fun (v : Int) => (v : ℝ) / (|t.min| : Int))
  | .floats x => some x

/-- `astype(np.int16)` of a number: towards zero; not defined if the result does not fit. -/
noncomputable def toInt16 (v : ℝ) : Option Int :=
  let r := if 0 ≤ v then ⌊v⌋ else ⌈v⌉
  if -32768 ≤ r ∧ r ≤ 32767 then some r else none

/-- `to_16b` (190-196) of one sample. -/
noncomputable def to16b (v : ℝ) : Option Int := toInt16 ((2 ^ 15 - 1) * v)

/-- `clip` (199-206). -/
noncomputable def clip (x : List ℝ) (high low : ℝ) : List ℝ :=
  let s := x.map fun v => if v > high then high else v
  s.map fun v => if v < low then low else v

/-- `np.abs(x).max()`. -/
noncomputable def absMax (x : List ℝ) : Except Err ℝ :=
  match x with
  | [] => .error .valueError
  | a :: l => .ok (l.foldl (fun m v => max m |v|) |a|)

/-- `normalize` (209-225). Division in place is refused for integers. -/
noncomputable def normalize (s : Signal) (bits : Option Nat) : Except Err (Option (List ℝ)) :=
  match s with
  | .ints _ x => if x = [] then .error .valueError else .error .typeError
  | .floats x => (absMax x).map fun m =>
      if m = 0 then none
      else
        let y := x.map (· / m)
        match bits with
        | none => some y
        | some b => some (clip (y.map (· * (2 ^ (b - 1) - 1))) (2 ^ (b - 1) - 1) (-(2 ^ (b - 1))))

/-- `np.mean`; not defined for no samples. -/
noncomputable def mean (x : List ℝ) : ℝ := x.sum / x.length

/-- `rms` (152-165). -/
noncomputable def rms (x : List ℝ) : ℝ := √(mean (x.map fun v => v * v))

/-- `normalize_pwr` (228-236); `none` without samples or for a first signal of zeros. -/
noncomputable def normalizePwr (x1 x2 : List ℝ) : Option (List ℝ) :=
  let p1 := mean (x1.map (· ^ 2))
  let p2 := mean (x2.map (· ^ 2))
  if x1 = [] ∨ x2 = [] ∨ p1 = 0 then none else some (x1.map (· * √(p2 / p1)))

/-- Sum of two arrays with broadcasting. -/
noncomputable def addArrays (x y : List ℝ) : Except Err (List ℝ) :=
  if x.length = y.length then .ok (List.zipWith (· + ·) x y)
  else if x.length = 1 then .ok (y.map (x.headD 0 + ·))
  else if y.length = 1 then .ok (x.map (· + y.headD 0))
  else .error .valueError

/-- Conversion of a float to an integer, `int(x)`. -/
noncomputable def pyInt (v : ℝ) : Int := if 0 ≤ v then ⌊v⌋ else ⌈v⌉

/-- Number of samples. -/
def Signal.length : Signal → Nat
  | .ints _ x => x.length
  | .floats x => x.length

/-- The noise of `create_noisy_signal` (103-125). `noise`: rate and samples of the noise file; `g`: normal random numbers, one for each position. -/
noncomputable def takeNoise (fs : Nat) (outputLen : Int) (noise : Option (Nat × Signal)) (g : Nat → ℝ) : Except Err (Option (List ℝ)) :=
  match noise with
  | some (fsN, s) =>
    if fsN ≠ fs then .error .valueError
    else if (s.length : Int) < outputLen then .error .valueError
    else .ok ((toFloat32 s).map fun x => slice x (some 0) (some outputLen))
  | none => if outputLen < 0 then .error .valueError else normalize (.floats ((List.range outputLen.toNat).map g)) none

/-- The four answers. -/
structure Noisy where
  noisy : List ℝ
  clean : List ℝ
  noise : List ℝ
  fs : Nat

/-- `offset_samp` (98-101). -/
noncomputable def offsetSamples (fs : Nat) : Option ℝ → Int
  | some o => pyInt (o * fs)
  | none => 0

/-- Weighting, addition and scaling (127-149), once both signals are there. -/
noncomputable def mix (fs : Nat) (clean : List ℝ) (snr : ℝ) (n : List ℝ) (off : Int) : Except Err (Option Noisy) :=
  let tail := slice n (some off) none
  let noiseLevel := rms tail
  let fact := rms clean / noiseLevel * (10 : ℝ) ^ (-snr / 20)
  let weighted := n.map (· * fact)
  (addArrays clean weighted).bind fun sum => (absMax sum).map fun norm =>
    if clean = [] ∨ tail = [] ∨ noiseLevel = 0 ∨ norm = 0 then none
    else
      let y := sum.map (· / norm)
      some ⟨y.map (· - mean y), clean.map (· / norm), weighted.map (· / norm), fs⟩

/-- `create_noisy_signal` (73-149). Simplified: if one of the signals is not made of numbers, so is the answer, without looking at the lengths. -/
noncomputable def createNoisy (fs : Nat) (signal : Signal) (snr : ℝ) (noise : Option (Nat × Signal)) (offset : Option ℝ) (g : Nat → ℝ) :
    Except Err (Option Noisy) :=
  (takeNoise fs (signal.length + offsetSamples fs offset) noise g).bind fun n? =>
    match toFloat32 signal, n? with
    | some clean, some n => mix fs clean snr n (offsetSamples fs offset)
    | _, _ => .ok none

end Verif.Levels
