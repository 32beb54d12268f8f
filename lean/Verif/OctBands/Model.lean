import Verif.Bands.FilterModel
import Mathlib.Analysis.SpecialFunctions.Log.Base

/-!
# Octave bands: edges, widths, energies (`acoustics.py`, `simulation/ism.py`)
-/

namespace Verif.OctBands

open Py Bands DFT Finset

/-- `octave_bands` (102-129): the bands and the centres; `np.arange` has as many values as the ceiling of the difference of its ends. -/
noncomputable def octaveBands (fc : ℝ) (third : Bool) (start : ℝ) (n : ℕ) : List (ℝ × ℝ) × List ℝ :=
  let div : ℕ := if third then 3 else 1
  let first := start * div
  let last := (start + n) * div - (div - 1)
  let centre := (List.range ⌈last - first⌉.toNat).map fun i : ℕ => fc * (2 : ℝ) ^ ((first + (i : ℝ)) / div)
  let fd := (2 : ℝ) ^ (0.5 / (div : ℝ))
  (centre.map fun f => (f / fd, f * fd), centre)

/-- The number of octaves of the filter banks (407, 606). -/
noncomputable def nOctaves (base fs : ℝ) : ℕ := ⌊Real.logb 2 (fs / base)⌋.toNat

/-- `OctaveBandsFactory.get_bw` (415-422). -/
noncomputable def cosBw (bands : List (ℝ × ℝ)) (keepDc : Bool) (fs : ℝ) : List ℝ :=
  bands.mapIdx fun b p => min p.2 (fs / 2) - if b = 0 ∧ keepDc then 0 else p.1

/-- `AntoniOctaveFilterBank.get_bw` (616-629): IndexError without bands; a sum of zero gives nan, modelled as `runtimeError`. -/
noncomputable def antoniBw (bands : List (ℝ × ℝ)) (fs : ℝ) (nfft : ℕ) : Except Err (List ℝ) :=
  let k1 := (bands.map fun p => npRound (p.1 / fs * nfft)).set 0 0
  let k2 := (bands.map fun p => npRound (p.2 / fs * nfft)).set (bands.length - 1) ((nfft / 2 + 1 : ℕ) : ℤ)
  let diff : List ℤ := List.zipWith (fun b a => b - a) k2 k1
  if bands = [] then .error .indexError
  else if diff.sum = 0 then .error .runtimeError
  else .ok (diff.map fun d : ℤ => (d : ℝ) / (diff.sum : ℝ) * fs / 2)

/-- `OctaveBandsFactory.energy` (486-501): the output of `analysis` has the shape `(n_samples, n_bands)`, or `(n_samples,)` for one band; the sum is over the last axis. -/
noncomputable def cosEnergy (nfft nBands : ℕ) (mag : ℕ → ℕ → ℝ) (x : List ℝ) : List ℝ :=
  if nBands = 1 then [∑ t ∈ range x.length, cosAnalysis nfft mag x 0 t ^ 2]
  else (List.range x.length).map fun t => ∑ b ∈ range nBands, cosAnalysis nfft mag x b t ^ 2

/-- `binning` (43-52): the entry of a row of `S` for the band `b`; the mean of nothing is nan (`none`). -/
noncomputable def binning (row : List ℝ) (b : ℤ × ℤ) : Option ℝ :=
  let s := slice row (some b.1) (some b.2)
  if s.length = 0 then none else some (s.sum / s.length)

/-- `interpolate_octave_bands` (simulation/ism.py, 69-108) with `min_phase=False`: sample `t` of the filter with the attenuations `att`; `filters` are those of the bank, whose transforms are `filters_freq_domain`. -/
noncomputable def interpolateBands (nfft nBands : ℕ) (filters : ℕ → ℕ → ℝ) (att : ℕ → ℝ) (t : ℕ) : ℝ :=
  (idft nfft (fun k => ∑ b ∈ range nBands, (att b : ℂ) * dft nfft (fun s => (filters b s : ℂ)) k) t).re

end Verif.OctBands
