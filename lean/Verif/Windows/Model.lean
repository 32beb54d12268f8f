import Verif.Py
import Mathlib.Analysis.SpecialFunctions.Trigonometric.Basic
import Mathlib.Topology.Algebra.InfiniteSum.Real

/-!
# Windows

`/repo/pyroomacoustics/windows.py` 60-772. Numbers are exact. A result is an exception, or `none` if a number is not finite (a division by zero of
numpy), or the list of the samples. The length `N` is a natural number.
-/

namespace Verif.Windows

open Verif.Py

/-- The argument `flag`; other strings mean `asymmetric`. -/
inductive Flag
  | asymmetric | symmetric | mdct
  deriving DecidableEq

/-- The argument `length`; other strings mean `full`. -/
inductive Part
  | full | left | right
  deriving DecidableEq

/-- What a function gives. -/
abbrev Result := Except Err (Option (List ℝ))

/-- The indices of the points (91-96 and the same in every function). `numpy.arange` goes from its first to its second argument in steps of one;
`N / 2` is a floating point number. -/
noncomputable def indices (N : Nat) (part : Part) : List ℝ :=
  match part with
  | .left => (List.range ((N + 1) / 2)).map fun (i : Nat) => (i : ℝ)
  | .right => (List.range ((N + 1) / 2)).map fun (i : Nat) => (N : ℝ) / 2 + i
  | .full => (List.range N).map fun (i : Nat) => (i : ℝ)

/-- `t / float(N - 1)` or `t / float(N)` (98-102). -/
noncomputable def denominator (N : Nat) (symmetric : Bool) : ℝ := if symmetric then (N : ℝ) - 1 else N

/-- The points at which a window is computed; not finite for one sample and the symmetric flag. -/
noncomputable def points (N : Nat) (symmetric : Bool) (part : Part) : Option (List ℝ) :=
  if symmetric = true ∧ N = 1 then none else some ((indices N part).map (· / denominator N symmetric))

/-- Flags for which the denominator is `N - 1` in functions that know `mdct` (99). -/
def isSymmetric (flag : Flag) : Bool := flag = .symmetric || flag = .mdct

/-- The condition of the MDCT (106-111): `w[: N / 2]` is a slice with a floating point number, a `TypeError`. -/
def mdct (flag : Flag) (w : Option (List ℝ)) : Result := if flag = .mdct then .error .typeError else .ok w

/-- `bart` (60-114). `2 / (N - 1)` is a division of Python numbers. -/
noncomputable def bart (N : Nat) (flag : Flag) (part : Part) : Result :=
  if N = 1 then .error .zeroDivision else
  mdct flag ((points N (isSymmetric flag) part).map fun l => l.map fun (t : ℝ) => 2 / ((N : ℝ) - 1) * (((N : ℝ) - 1) / 2 - |t - ((N : ℝ) - 1) / 2|))

/-- `bart_hann` (118-172): the points are divided by `N` a second time. -/
noncomputable def bartHann (N : Nat) (flag : Flag) (part : Part) : Result :=
  mdct flag ((points N (isSymmetric flag) part).map fun l => l.map fun (t : ℝ) =>
    0.62 - 0.48 * |t / N - 0.5| + 0.38 * Real.cos (2 * Real.pi * (t / N - 0.5)))

/-- `blackman` (176-231): the points are divided by `N - 1` a second time, which is not finite for one sample. -/
noncomputable def blackman (N : Nat) (flag : Flag) (part : Part) : Result :=
  mdct flag (if N = 1 then none else (points N (isSymmetric flag) part).map fun l => l.map fun (t : ℝ) =>
    0.42 - 0.5 * Real.cos (2 * Real.pi * t / ((N : ℝ) - 1)) + 0.08 * Real.cos (4 * Real.pi * t / ((N : ℝ) - 1)))

/-- `blackman_harris` (235-287): no flag `mdct`. -/
noncomputable def blackmanHarris (N : Nat) (flag : Flag) (part : Part) : Result :=
  .ok ((points N (flag = .symmetric) part).map fun l => l.map fun (t : ℝ) =>
    0.35875 - 0.48829 * Real.cos (2 * Real.pi * t) + 0.14128 * Real.cos (4 * Real.pi * t) + 0.01168 * Real.cos (6 * Real.pi * t))

/-- `bohman` (291-345): the points are computed and not used; `numpy.linspace(-1, 1, N)` without its ends, framed by zeros. -/
noncomputable def bohman (N : Nat) (flag : Flag) (_part : Part) : Result :=
  let x := (List.range (N - 2)).map fun (i : Nat) => |(-1 : ℝ) + 2 * ((i : ℝ) + 1) / ((N : ℝ) - 1)|
  let w := x.map fun x => (1 - x) * Real.cos (Real.pi * x) + 1 / Real.pi * Real.sin (Real.pi * x)
  mdct flag (some ([0] ++ w ++ [0]))

/-- `cosine` (349-402). -/
noncomputable def cosine (N : Nat) (flag : Flag) (part : Part) : Result :=
  mdct flag ((points N (isSymmetric flag) part).map fun l => l.map fun (t : ℝ) => Real.cos (Real.pi * (t - 0.5)) ^ 2)

/-- `flattop` (406-468): no flag `mdct`. -/
noncomputable def flattop (N : Nat) (flag : Flag) (part : Part) : Result :=
  .ok ((points N (flag = .symmetric) part).map fun l => l.map fun (t : ℝ) =>
    0.21557895 - 0.41663158 * Real.cos (2 * Real.pi * t) + 0.277263158 * Real.cos (4 * Real.pi * t) + 0.083578947 * Real.cos (6 * Real.pi * t)
      + 0.006947368 * Real.cos (8 * Real.pi * t))

/-- `gaussian` (472-518): the points are computed and not used; not finite for the standard deviation zero (unless there is no sample). -/
noncomputable def gaussian (N : Nat) (std : ℝ) (_flag : Flag) (_part : Part) : Result :=
  if std = 0 ∧ N ≠ 0 then .ok none else
  .ok (some ((List.range N).map fun (n : Nat) => Real.exp (-((n : ℝ) - ((N : ℝ) - 1) / 2) ^ 2 / (2 * std ^ 2))))

/-- `hamming` (522-574). -/
noncomputable def hamming (N : Nat) (flag : Flag) (part : Part) : Result :=
  mdct flag ((points N (isSymmetric flag) part).map fun l => l.map fun (t : ℝ) => 0.54 - 0.46 * Real.cos (2 * Real.pi * t))

/-- `hann` (578-630). -/
noncomputable def hann (N : Nat) (flag : Flag) (part : Part) : Result :=
  mdct flag ((points N (isSymmetric flag) part).map fun l => l.map fun (t : ℝ) => 0.5 * (1 - Real.cos (2 * Real.pi * t)))

/-- `scipy.special.i0`, the modified Bessel function of order zero, by its power series. -/
noncomputable def i0 (x : ℝ) : ℝ := ∑' k : Nat, (x ^ 2 / 4) ^ k / (k.factorial : ℝ) ^ 2

/-- `kaiser` (634-697): the points are computed and not used; not finite for one sample. -/
noncomputable def kaiser (N : Nat) (beta : ℝ) (flag : Flag) (_part : Part) : Result :=
  mdct flag (if N = 1 then none else some ((List.range N).map fun (n : Nat) =>
    i0 (beta * √(1 - (((n : ℝ) - ((N : ℝ) - 1) / 2) / (((N : ℝ) - 1) / 2)) ^ 2)) / i0 beta))

/-- `rect` (701-715). -/
def rect (N : Nat) : List ℝ := List.replicate N 1

/-- `triang` (719-772). -/
noncomputable def triang (N : Nat) (flag : Flag) (part : Part) : Result :=
  mdct flag ((points N (isSymmetric flag) part).map fun l => l.map fun (t : ℝ) => 1 - |2 * t - 1|)

end Verif.Windows
