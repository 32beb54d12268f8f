import Verif.Py
import Verif.Deconv.Model
import Verif.Delays.Model
import Mathlib.Analysis.SpecialFunctions.Log.Basic
import Mathlib.Analysis.SpecialFunctions.Trigonometric.Basic

/-!
# `experimental/signals.py` and `experimental/measure_ir.py`

Exact numbers; a sample is `none` if it is not a number. The times and frequencies are Python numbers, so that a division by zero of these raises. Of `measure_ir` the plots and the setting of the device numbers are not
modelled; `sounddevice.playrec` is a parameter.
-/

namespace Verif.Sweep

open Verif.Py

/-- `np.hanning(n)` as an array. -/
noncomputable def hanning (n : Nat) : List ℝ := (List.range n).map fun (k : Nat) => Delays.hanning n k

/-- A number times a sample. -/
noncomputable def scale (s : Option ℝ) (w : ℝ) : Option ℝ := s.map (· * w)

/-- `a *= b` for arrays: the second is repeated if it has one element, and has the length of the first otherwise. -/
noncomputable def mulInto (a : List (Option ℝ)) (b : List ℝ) : Except Err (List (Option ℝ)) :=
  if b.length = a.length then .ok (List.zipWith scale a b)
  else match b with
    | [w] => .ok (a.map (scale · w))
    | _ => .error .valueError

/-- `window` (signals.py 10-20). -/
noncomputable def window (sig : List (Option ℝ)) (n : Nat) : Except Err (List (Option ℝ)) := do
  let win := hanning (2 * n)
  let head ← mulInto (slice sig none (some (n : Int))) (slice win none (some (n : Int)))
  let sig := head ++ sig.drop head.length
  let tail ← mulInto (slice sig (some (-(n : Int))) none) (slice win (some (-(n : Int))) none)
  .ok (sig.take (sig.length - tail.length) ++ tail)

/-- The highest frequency (42-47, 95-100). -/
noncomputable def top (fs : ℝ) (fhi : Option ℝ) : ℝ :=
  match fhi with
  | none => fs / 2
  | some f => if f < 0 then fs / 2 + f else if f > fs / 2 then fs / 2 else f

/-- The lowest frequency (49-50, 102-103). -/
noncomputable def bottom (least flo : ℝ) : ℝ := if flo < least then least else flo

/-- The number of samples (56, 110). -/
noncomputable def count (T fs : ℝ) : Int := ⌊T / (1 / fs)⌋

/-- Reversal and fading (66-72, 118-124). -/
noncomputable def finish (fs : ℝ) (sweep : List (Option ℝ)) (fade : Option ℝ) (ascending : Bool) : Except Err (List (Option ℝ)) :=
  let sweep := if ascending then sweep else sweep.reverse
  match fade with
  | none => .ok sweep
  | some d => if d > 0 then window sweep ⌊fs * d⌋.toNat else .ok sweep

/-- `exponential_sweep` (23-72). With equal frequencies the quotient is infinite and is multiplied by zero. -/
noncomputable def exponential (T fs flo : ℝ) (fhi fade : Option ℝ) (ascending : Bool) : Except Err (List (Option ℝ)) :=
  let hi := top fs fhi
  let lo := bottom 1 flo
  if lo > hi then .error .valueError
  else if fs = 0 then .error .zeroDivision
  else
    let ts := 1 / fs
    let n : ℝ := count T fs
    let om1 := 2 * Real.pi * lo
    let om2 := 2 * Real.pi * hi
    finish fs ((List.range (count T fs).toNat).map fun (i : Nat) =>
      if Real.log (om2 / om1) = 0 then none
      else some (Real.sin (om1 * n * ts / Real.log (om2 / om1) * (Real.exp (i / n * Real.log (om2 / om1)) - 1)))) fade ascending

/-- `linear_sweep` (75-124). -/
noncomputable def linear (T fs flo : ℝ) (fhi fade : Option ℝ) (ascending : Bool) : Except Err (List (Option ℝ)) :=
  let hi := top fs fhi
  let lo := bottom 0 flo
  if lo > hi then .error .valueError
  else if fs = 0 then .error .zeroDivision
  else if T = 0 then .error .zeroDivision
  else
    let ts := 1 / fs
    let rate := (hi - lo) / T
    finish fs ((List.range (count T fs).toNat).map fun (i : Nat) =>
      let t : ℝ := i * ts
      some (Real.sin (2 * Real.pi * (lo + 0.5 * rate * t) * t))) fade ascending

/-- `int(x)`. -/
noncomputable def trunc (x : ℝ) : Int := if 0 ≤ x then ⌊x⌋ else ⌈x⌉

/-- `np.zeros(n)`. -/
noncomputable def zeros (n : Int) : Except Err (List (Option ℝ)) := if n < 0 then .error .valueError else .ok (List.replicate n.toNat (some 0))

/-- The samples as numbers, if they all are. -/
def numbers (l : List (Option ℝ)) : Option (List ℝ) := l.mapM id

/-- The arguments of `measure_ir` that are modelled (measure_ir.py 18-35). -/
structure Args where
  length : ℝ := 1
  kind : String := "exponential"
  fs : ℝ := 48000
  flo : ℝ := 0
  fhi : Option ℝ := none
  volume : ℝ := 0.9
  pre : ℝ := 0
  post : ℝ := 0.1
  fade : ℝ := 0
  inputs : Nat := 1
  ascending : Bool := false
  deconvolution : Bool := true
  plot : Bool := true

/-- The sweep (91-97). -/
noncomputable def sweepOf (a : Args) : Except Err (List (Option ℝ)) :=
  if a.kind = "exponential" then exponential a.length a.fs a.flo a.fhi (some a.fade) a.ascending
  else if a.kind = "linear" then linear a.length a.fs a.flo a.fhi (some a.fade) a.ascending
  else .error .keyError

/-- The sweep and the signal that is played (91-107). -/
noncomputable def testSignal (a : Args) : Except Err (List (Option ℝ) × List (Option ℝ)) := do
  let sweep ← sweepOf a
  let sweep := sweep.map (scale · a.volume)
  let before ← zeros (trunc (a.pre * a.fs))
  let behind ← zeros (trunc (a.post * a.fs))
  .ok (sweep, before ++ sweep ++ behind)

/-- `measure_ir` (18-181). `playrec` gives the channels of the recording. With samples that are not numbers `lstsq` raises `LinAlgError`. The result is the recording and, if asked for, the responses; `None` if there
should be plots and there is no matplotlib. -/
noncomputable def measure (lstsq : (K J : Nat) → (Nat → Fin J → ℂ) → (Nat → ℂ) → Fin J → ℂ) (sounddevice matplotlib : Bool) (playrec : List (Option ℝ) → List (List ℝ)) (a : Args) :
    Except Err (Option (List (List ℝ) × Option (List (Option (List ℝ))))) := do
  if sounddevice = false then (.error .runtimeError : Except Err Unit)
  let (sweep, test) ← testSignal a
  let recorded := playrec test
  let h ← if a.deconvolution then
      match numbers sweep with
      | none => (.error .runtimeError : Except Err (Option (List (Option (List ℝ)))))
      | some x => do
        let l ← (List.range a.inputs).mapM fun c => match recorded[c]? with
          | none => (.error .indexError : Except Err (Option (List ℝ)))
          | some y => Deconv.wiener lstsq y x none 1 15 2
        .ok (some l)
    else .ok none
  if a.plot = true ∧ matplotlib = false then .ok none else .ok (some (recorded, h))

end Verif.Sweep
