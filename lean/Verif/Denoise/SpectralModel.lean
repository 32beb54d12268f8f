import Mathlib.Analysis.SpecialFunctions.Pow.Real
import Mathlib.Data.Complex.Basic
import Verif.Py

/-!
# Model of spectral subtraction

`pyroomacoustics/denoise/spectral_subtraction.py`, class `SpectralSub` (29-167). Numbers are exact; a quotient `0 / 0` is not a number, and
zero to a negative power is infinite. A spectrum of one bin is not broadcast to all bins.
-/

namespace Verif.Denoise

open Verif.Py (Err)

/-- Floating point results of line 157-158. -/
inductive Val where
  | nan
  | inf
  | fin (x : ℝ)

/-- The object (123-132). `pPrev` has a row per bin. -/
structure SpectralSub where
  beta : ℝ
  alpha : ℝ
  nBins : Nat
  pPrev : List (List ℝ)
  gmin : ℝ
  pSn : List ℝ
  pN : List ℝ

/-- `__init__` (123-132). -/
noncomputable def SpectralSub.init (nfft : Nat) (dbReduc : ℝ) (lookback : Nat) (beta : ℝ) (alpha : ℝ) : SpectralSub :=
  let nBins := nfft / 2 + 1
  ⟨beta, alpha, nBins, List.replicate nBins (List.replicate (lookback + 1) 0), (10 : ℝ) ^ (-dbReduc / 20), List.replicate nBins 0, List.replicate nBins 0⟩

/-- `row[-1] = p` (151). -/
def setLast (row : List ℝ) (p : ℝ) : List ℝ := row.set (row.length - 1) p

/-- `np.min(row)` (152); rows are not empty. -/
noncomputable def rowMin : List ℝ → ℝ
  | [] => 0
  | a :: t => t.foldl min a

/-- `np.roll(row, -1)` (165). -/
def rollLeft (row : List ℝ) : List ℝ := row.drop 1 ++ row.take 1

open Classical in
/-- Division, power and maximum of lines 156-160. `max(nan, gmin)` of python returns its first argument as the comparison fails; `nan ** 0` is 1. -/
noncomputable def gain (s : SpectralSub) (pSn pN : ℝ) : Val :=
  if pSn = 0 then (if s.alpha = 0 then .fin (max 1 s.gmin) else .nan)
  else
    let base := max (pSn - s.beta * pN) 0 / pSn
    if base = 0 ∧ s.alpha < 0 then .inf else .fin (max (base ^ s.alpha) s.gmin)

/-- `compute_gain_filter` (134-167). -/
noncomputable def SpectralSub.computeGainFilter (s : SpectralSub) (X : List ℂ) : Except Err (List Val × SpectralSub) :=
  if X.length ≠ s.nBins then .error .valueError
  else
    let pSn := X.map Complex.normSq
    let prev := List.zipWith setLast s.pPrev pSn
    let pN := prev.map rowMin
    let filt := (List.range s.nBins).map fun k => gain s (pSn.getD k 0) (pN.getD k 0)
    .ok (filt, { s with pSn := pSn, pN := pN, pPrev := prev.map rollLeft })

/-- The object after the spectra of a stream; the newest spectrum comes first. -/
noncomputable def SpectralSub.after (s : SpectralSub) : List (List ℂ) → Except Err SpectralSub
  | [] => .ok s
  | X :: older => (s.after older).bind fun s => (s.computeGainFilter X).map Prod.snd

end Verif.Denoise
