import Verif.Py
import Mathlib.Analysis.SpecialFunctions.Complex.Circle
import Mathlib.Analysis.SpecialFunctions.Trigonometric.Basic

/-!
# Model of the steered response power with phase transform

`pyroomacoustics/doa/srp.py`, `_process` (70-134), with the steering vectors of `doa/doa.py` (53-92) for plane waves. Complex numbers without rounding; the products
of arrays are written with indices.
-/

namespace Verif.Srp

open Finset Complex
open scoped ComplexConjugate

/-- What the object knows: microphones, candidate directions, sampling frequency, length of the transform, speed of sound, bins that are used, snapshots. -/
structure Finder where
  M : Nat
  mic : Nat → ℝ × ℝ × ℝ
  dir : Nat → ℝ × ℝ × ℝ
  fs : ℝ
  nfft : Nat
  c : ℝ
  bins : List Nat
  numSnap : Nat

/-- Time of flight from a direction to a microphone (doa.py:66-86). -/
noncomputable def Finder.tau (p : Finder) (i n : Nat) : ℝ :=
  ((p.dir n).1 * (p.mic i).1 + (p.dir n).2.1 * (p.mic i).2.1 + (p.dir n).2.2 * (p.mic i).2.2) / p.c

/-- Angular frequency of a bin (doa.py:89). -/
noncomputable def Finder.omega (p : Finder) (k : Nat) : ℝ := 2 * Real.pi * p.fs * k / p.nfft

/-- Entry of the steering vector (doa.py:92, 131). -/
noncomputable def Finder.steer (p : Finder) (k i n : Nat) : ℂ := Complex.exp (I * (p.omega k * p.tau i n : ℝ))

/-- `tol` (doa.py:18). -/
noncomputable def tol : ℝ := 1e-14

/-- Phase transform of a value (srp.py:78-81). -/
noncomputable def phat (x : ℂ) : ℂ := x / ((if ‖x‖ < tol then tol else ‖x‖ : ℝ) : ℂ)

/-- Entry of the matrix of cross correlations of a bin (srp.py:83-86). -/
noncomputable def Finder.cc (p : Finder) (X : Nat → Nat → Nat → ℂ) (k i j : Nat) : ℂ := ∑ s ∈ range p.numSnap, phat (X i k s) * conj (phat (X j k s))

/-- The entries above the diagonal (srp.py:88-101). -/
def Finder.upper (p : Finder) : Finset (Nat × Nat) := (range p.M ×ˢ range p.M).filter fun q => q.1 < q.2

/-- Real part of the product of two entries (srp.py:119-126). -/
noncomputable def Finder.term (p : Finder) (X : Nat → Nat → Nat → ℂ) (n k i j : Nat) : ℝ :=
  let m := conj (p.steer k i n) * p.steer k j n
  (p.cc X k i j).re * m.re - (p.cc X k i j).im * m.im

/-- The sum before the normalisation (srp.py:109, 128). -/
noncomputable def Finder.sumVal (p : Finder) (X : Nat → Nat → Nat → ℂ) (n : Nat) : ℝ :=
  2 * (p.bins.map fun k => ∑ q ∈ p.upper, p.term X n k q.1 q.2).sum + (p.numSnap * p.M * p.bins.length : ℝ)

/-- Number of pairs of microphones (srp.py:68). -/
noncomputable def Finder.numPairs (p : Finder) : ℝ := p.M * (p.M - 1) / 2

/-- The value at a point of the grid (srp.py:131). `none` stands for a division by zero; without any bin the shape of the correlations is not there (srp.py:100). -/
noncomputable def Finder.cost (p : Finder) (X : Nat → Nat → Nat → ℂ) (n : Nat) : Except Verif.Py.Err (Option ℝ) :=
  if p.bins = [] then .error .indexError
  else if p.numSnap = 0 ∨ p.numPairs = 0 then .ok none
  else .ok (some (p.sumVal X n / p.numSnap / p.bins.length / p.numPairs))

end Verif.Srp
