import Verif.Py
import Mathlib.Analysis.SpecialFunctions.Pow.Real
import Mathlib.Analysis.SpecialFunctions.Trigonometric.Basic
import Mathlib.Algebra.BigOperators.Fin
import Mathlib.Algebra.Order.Floor.Ring
import Mathlib.Algebra.Order.Archimedean.Real.Basic

/-!
# Model of the construction of the tail of the room impulse response

`pyroomacoustics/simulation/rt.py`: from the histograms of the ray tracing to an impulse response. Real numbers without rounding. The random numbers are
streams given as arguments; the filters of the octave bands are a function given as argument.
-/

namespace Verif.Tail

open Verif.Py Finset

/-! ## The times of the pulses -/

/-- The loop of `poisson_sequence` (rt.py:52-60): the times after `last`. `none` stands for a loop that has not ended after `fuel` draws. The draw `z i` is a
Python float, so that `1 / z` raises `ZeroDivisionError` for 0. -/
noncomputable def poissonLoop (fpcv maxRate t0 stop : ℝ) (z : Nat → ℝ) : Nat → Nat → ℝ → Option (Except Err (List ℝ))
  | 0, _, last => if last < stop then none else some (.ok [])
  | fuel + 1, i, last =>
    if last < stop then
      if z i = 0 then some (.error .zeroDivision)
      else
        let mu := min (fpcv * (t0 + last) ^ 2) maxRate
        let next := last + Real.log (1 / z i) / mu
        (poissonLoop fpcv maxRate t0 stop z fuel (i + 1) next).map fun r => r.map fun l => next :: l
    else some (.ok [])

/-- `poisson_sequence` (rt.py:39-62). -/
noncomputable def poissonSequence (volume duration c maxRate : ℝ) (t0 : Option ℝ) (z : Nat → ℝ) (fuel : Nat) : Option (Except Err (ℝ × List ℝ)) :=
  let fpcv := 4 * Real.pi * c ^ 3 / volume
  let t := t0.getD ((2 * Real.log 2 / fpcv) ^ ((1 : ℝ) / 3))
  (poissonLoop fpcv maxRate t (t + duration) z fuel 0 t).map fun r => r.map fun l => (t, t :: l)

/-! ## The sequence of pulses -/

/-- `(times * fs).astype(np.int64)` (rt.py:69, 113) for times that are not negative. -/
noncomputable def sampleOf (fs t : ℝ) : Nat := ⌊t * fs⌋.toNat

/-- `binary_sequence` (rt.py:65-73): the last assignment to a sample counts. The times are sorted, so that no index is out of range. -/
noncomputable def binarySequence (idx : List Nat) (signs : Nat → ℝ) : List ℝ :=
  idx.zipIdx.foldl (fun s p => s.set p.1 (signs p.2)) (List.replicate (idx.getLastD 0 + 1) 0)

/-- `seq_rolling_power` (rt.py:174-177) with `filter_length_mult = 2`: `fftconvolve` with `mode="same"` and a filter of `2 * hbss` coefficients 1/2, sample `i`. -/
noncomputable def rollingPower (seq : List ℝ) (hbss i : Nat) : ℝ :=
  ∑ m ∈ range (2 * hbss), if m ≤ i + (2 * hbss - 1) / 2 then seq.getD (i + (2 * hbss - 1) / 2 - m) 0 ^ 2 * (1 / 2) else 0

/-- `seq_power_norm` (rt.py:109-110). -/
noncomputable def powerNorm (p : ℝ) : ℝ := if p > 1e-10 then 1 / p else 0

/-- The bin of a pulse (rt.py:115-116). -/
noncomputable def binOf (t0 binSize : ℝ) (nBins : Nat) (t : ℝ) : Nat := min ⌊(t - t0) / binSize⌋.toNat (nBins - 1)

/-- Column of the cumulative distribution of the directions (rt.py:120-124) for the energies `h d` of the `n` directions. -/
noncomputable def cdf (n : Nat) (h : Nat → ℝ) (d : Nat) : ℝ :=
  if ∑ e ∈ range n, h e > 1e-10 then (∑ e ∈ range (d + 1), h e) / ∑ e ∈ range n, h e else ((d : ℝ) + 1) / n

open Classical in
/-- The drawn direction (rt.py:130-131): the number of entries of the column less than `z`. -/
noncomputable def drawn (n : Nat) (h : Nat → ℝ) (z : ℝ) : Nat := ((range n).filter fun d => z > cdf n h d).card

/-- The random numbers of `directional_sequence`: signs of the binary sequence, draws of the directions, signs. -/
structure Draws where
  signs0 : Nat → ℝ
  z : Nat → ℝ
  signs : Nat → ℝ

/-- `directional_sequence` (rt.py:76-144): length and samples. `resp d` are the `taps` coefficients of direction `d`, `hist d k` is the energy of direction `d`
in bin `k`. -/
noncomputable def directionalSequence (t0 : ℝ) (times : List ℝ) (nDirs taps : Nat) (resp : Nat → Nat → ℝ) (nBins : Nat) (hist : Nat → Nat → ℝ)
    (binSize fs : ℝ) (r : Draws) : Nat × (Nat → ℝ) :=
  let idx := times.map (sampleOf fs)
  let norm := fun i => powerNorm (rollingPower (binarySequence idx r.signs0) ⌊binSize * fs⌋.toNat i)
  (idx.getLastD 0 + taps + 1, fun n => ∑ k ∈ range times.length,
    let t := times.getD k 0
    let i := sampleOf fs t
    if i ≤ n ∧ n < i + taps then
      r.signs k * resp (drawn nDirs (fun d => hist d (binOf t0 binSize nBins t)) (r.z k)) (n - i) * Real.sqrt (norm i)
    else 0)

/-! ## Interpolation of the histogram -/

/-- The anchors `np.linspace(pad, N - 1 - pad, n_input)` (rt.py:165). -/
noncomputable def anchor (n N pad k : Nat) : ℝ := pad + k * (((N : ℝ) - 1 - pad - pad) / ((n : ℝ) - 1))

open Classical in
/-- `interp1d` (linear) at `x`: the first anchor that is not less than `x`, but at least number 1 and at most the last. -/
noncomputable def linear (n N pad : Nat) (hist : Nat → ℝ) (x : ℝ) : ℝ :=
  let hi := min (max ((range n).filter fun k => anchor n N pad k < x).card 1) (n - 1)
  let lo := hi - 1
  (hist hi - hist lo) / (anchor n N pad hi - anchor n N pad lo) * (x - anchor n N pad lo) + hist lo

/-- `interp_hist` (rt.py:147-171) for one row of at least two bins. -/
noncomputable def interpHist (n : Nat) (hist : Nat → ℝ) (N : Nat) : Except Err (List ℝ) :=
  let hbss := N / n
  let pad := hbss / 2
  if pad = 0 then .error .valueError  -- `out[..., 0:-0]` is empty
  else
    let out := fun j : Nat => if pad ≤ j ∧ j < N - pad then linear n N pad hist j else 0
    let out := fun j : Nat => if j < pad then out pad else out j
    let out := fun j : Nat => if N - pad ≤ j then out (N - pad) else out j
    .ok ((List.range N).map out)

/-! ## The impulse response -/

/-- Histogram of one direction: number of bins, and energy by band and bin. -/
abbrev Hist := Nat × (Nat → Nat → ℝ)

open Classical in
/-- `last_el(np.nonzero(h.sum(axis=0))[0])` (rt.py:210-213). -/
noncomputable def lastEl (nBands : Nat) (h : Hist) : Nat := ((range h.1).filter fun k => ∑ b ∈ range nBands, h.2 b k ≠ 0).sup (· + 1)

/-- `adjust_length` (rt.py:181-188) to any number of bins greater than `k`. -/
def adjusted (h : Hist) (b k : Nat) : ℝ := if k < h.1 then h.2 b k else 0

/-- Arguments of `compute_rt_rir` (rt.py:193-205). The directional responses are given as impulse responses, after the conversion in rt.py:245-256. -/
structure Args where
  t0 : ℝ
  hists : List Hist
  nBands : Nat
  taps : Nat
  resp : Nat → Nat → ℝ
  binSize : ℝ
  hbss : Nat
  volume : ℝ
  fdl : Nat
  c : ℝ
  fs : ℝ
  /-- `octave_bands.analysis(x, band=b)`. -/
  analysis : Nat → List ℝ → List ℝ
  /-- `octave_bands.n_bands`. -/
  nOctave : Nat
  air : Option (Nat → ℝ)

/-- Number of bins of the histograms (rt.py:213). -/
noncomputable def Args.used (a : Args) : Nat := (a.hists.map (lastEl a.nBands)).foldl max 0

/-- Number of bins that is used (rt.py:231). -/
noncomputable def Args.bins (a : Args) : Nat := ⌈(a.used : ℝ) * a.binSize * a.fs / a.hbss⌉.toNat

/-- Number of samples (rt.py:232). -/
noncomputable def Args.N (a : Args) : Nat := a.bins * a.hbss

/-- `hist_directions` (rt.py:240). -/
noncomputable def Args.dirHist (a : Args) (d k : Nat) : ℝ := ∑ b ∈ range a.nBands, adjusted (a.hists.getD d (0, fun _ _ => 0)) b k

/-- `hist_bands` (rt.py:243). -/
noncomputable def Args.bandHist (a : Args) (b k : Nat) : ℝ := (a.hists.map fun h => adjusted h b k).sum

/-- The attenuation by the air (rt.py:299-301). -/
noncomputable def airFactor (alpha c fs : ℝ) (n : Nat) : ℝ := Real.exp (-0.5 * alpha * n / fs * c)

/-- One row of `rir_bands` (rt.py:267-287). -/
noncomputable def bandRow (a : Args) (seq : List ℝ) (b : Nat) : Except Err (List ℝ) := do
  let s := if a.nBands > 1 then a.analysis b seq else seq
  let hist ← interpHist a.bins (a.bandHist b) a.N
  if s.length ≠ hist.length then .error .valueError
  else .ok (List.zipWith (fun x h => x * Real.sqrt (max h 0)) s hist)

/-- The rows after the attenuation by the air (rt.py:289-303). -/
noncomputable def applyAir (a : Args) (rows : List (List ℝ)) : List (List ℝ) :=
  match a.air with
  | none => rows
  | some alpha =>
    let rows := if rows.length = 1 then (List.range a.nOctave).map fun b => a.analysis b (rows.headD []) else rows
    rows.mapIdx fun b row => row.mapIdx fun n x => x * airFactor (alpha b) a.c a.fs n

/-- Sum of the rows and delay (rt.py:306). -/
noncomputable def finish (a : Args) (rows : List (List ℝ)) : List ℝ :=
  List.replicate (a.fdl / 2) 0 ++ (List.range a.N).map fun n => (rows.map fun row => row.getD n 0).sum

/-- The body of `compute_rt_rir` after the draw of the times (rt.py:260-306). -/
noncomputable def tailOf (a : Args) (t0 : ℝ) (times : List ℝ) (r : Draws) : Except Err (List ℝ) := do
  let seq := directionalSequence t0 times a.hists.length a.taps a.resp a.bins a.dirHist a.binSize a.fs r
  let seq := (List.range (min a.N seq.1)).map seq.2
  let rows ← (List.range a.nBands).mapM (bandRow a seq)
  .ok (finish a (applyAir a rows))

/-- `compute_rt_rir` (rt.py:193-306). -/
noncomputable def computeRtRir (a : Args) (z : Nat → ℝ) (r : Draws) (fuel : Nat) : Option (Except Err (List ℝ)) :=
  if a.used = 0 then some (.ok (List.replicate (a.fdl / 2) 0))
  else (poissonSequence a.volume (a.N / a.fs) a.c 10000 (some a.t0) z fuel).map fun res => do
    let p ← res
    tailOf a p.1 p.2 r

end Verif.Tail
