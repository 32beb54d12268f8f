import Mathlib.Analysis.SpecialFunctions.Log.Base
import Mathlib.Analysis.SpecialFunctions.Pow.Real
import Mathlib.Analysis.SpecialFunctions.Trigonometric.Basic
import Verif.Py

/-!
# Model of octave bands

`pyroomacoustics/acoustics.py`: `octave_bands` (102-129), `BaseOctaveFilterBank.__call__` (312-359),
`cosine_magnitude_octave_filter_response` (182-233), `antoni_magnitude_octave_filter_response` (236-289).

Numbers are real numbers. `scipy.interpolate.interp1d(kind="linear", fill_value="extrapolate")` is modelled after
`interp1d._call_linear` of scipy: the data are sorted by abscissa (stable), `searchsorted` on the left, indices clipped to
`1 .. len - 1`, line through the two points. Other kinds of interpolation are not modelled.
-/

namespace Verif.Bands

open Py (Err)

/-- `octave_bands` (102-129) with `start = 0` (the classes use no other): centre frequencies. `div` is 1, or 3 for third octaves. -/
noncomputable def octaveCenters (fc : ℝ) (div n : Nat) : List ℝ :=
  (List.range (n * div - (div - 1))).map fun i : Nat => fc * (2 : ℝ) ^ ((i : ℝ) / div)

/-- `octave_bands` (102-129): lower and upper edges. -/
noncomputable def octaveEdges (fc : ℝ) (div n : Nat) : List (ℝ × ℝ) :=
  let fd := (2 : ℝ) ^ (0.5 / (div : ℝ))
  (octaveCenters fc div n).map fun f => (f / fd, f * fd)

/-- The argument `coeffs` of `__call__`: a number, a list or an array. -/
inductive Coeffs
  | scalar (x : ℝ)
  | list (l : List ℝ)
  | array (l : List ℝ)

/-- The order of the abscissas. -/
noncomputable def leFst (a b : ℝ × ℝ) : Bool := decide (a.1 ≤ b.1)

/-- Linear interpolation through at least two points (scipy, see above). -/
noncomputable def interpLinear (pts : List (ℝ × ℝ)) (x : ℝ) : ℝ :=
  let s := pts.mergeSort leFst
  let idx := min (max (s.countP fun p => decide (p.1 < x)) 1) (s.length - 1)
  let lo := s.getD (idx - 1) (0, 0)
  let hi := s.getD idx (0, 0)
  (hi.2 - lo.2) / (hi.1 - lo.1) * (x - lo.1) + lo.2

/-- `ret[ret < 0.0] = 0.0; ret[ret > 1.0] = 1.0` (354-356). -/
noncomputable def clip01 (x : ℝ) : ℝ :=
  let x := if x < 0 then 0 else x
  if x > 1 then 1 else x

/-- `coeffs * n` for a list or an array. -/
noncomputable def pyMul (isArray : Bool) (l : List ℝ) (n : Nat) : List ℝ :=
  if isArray then l.map fun a => a * n else (List.replicate n l).flatten

/-- `BaseOctaveFilterBank.__call__` (312-359) with linear interpolation. For a number the first branch makes a list, but the next test asks for the length
of the number. -/
noncomputable def octaveCall (centers : List ℝ) (coeffs : Coeffs) (centerFreqs : Option (List ℝ)) : Except Err (List ℝ) :=
  let go (isArray : Bool) (l : List ℝ) : Except Err (List ℝ) :=
    if l.length = 1 then .ok (pyMul isArray l centers.length)
    else
      let cf := centerFreqs.getD (centers.take l.length)
      if l.length = 0 ∨ cf.length ≠ l.length then .error .valueError
      else .ok (centers.map fun c => clip01 (interpLinear (List.zip (cf.map (Real.logb 2)) l) (Real.logb 2 c)))
  match coeffs with
  | .scalar _ => .error .typeError
  | .list l => go false l
  | .array l => go true l

end Verif.Bands
