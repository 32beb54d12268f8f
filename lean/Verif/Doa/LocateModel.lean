import Verif.Doa.Model
import Verif.Bands.FilterModel
import Verif.Peaks.GridModel

/-!
# Model of the localisation of sources

`pyroomacoustics/doa/doa.py`, 177-366 (`DOA.__init__`, `DOA.locate_sources`) and 570-583 (`_check_num_src`). The spectrum that the algorithm
(`_process`) computes from the signals with the selected bins and the number of sources is a function, so is the search of peaks of
the grid. Plots, warnings and the algorithms `FRIDA` (own peaks), `CSSM` and `WAVES` (which drop bins) are not modelled.
-/

namespace Verif.Doa

open Verif.Py (Err)
open Verif.Bands (npRound)

/-- `_check_num_src` (570-583), without the warning. -/
def checkNumSrc (n : Int) : Int := if n < 1 then 1 else n

/-- The fields that matter. -/
structure DOA where
  nMics : Nat
  fs : ℝ
  nfft : Nat
  numSrc : Int
  bins : List Int

/-- `self.max_bin` (198). -/
def DOA.maxBin (d : DOA) : Nat := d.nfft / 2 + 1

/-- Lines 209-218: the candidate distances; several of them cannot be compared to one. -/
def checkDistances (mode : Mode) (r : Option (List ℝ)) : Except Err Unit :=
  match mode with
  | .far => .ok ()
  | _ =>
    match r with
    | none => .ok ()
    | some l => if l.length > 1 then .error .valueError else .ok ()

/-- `DOA.__init__` (177-275) for a given grid; the mode is not handed to the steering vectors. -/
noncomputable def DOA.init (mics : List (ℝ × ℝ × Option ℝ)) (fs : ℝ) (nfft : Nat) (c : ℝ) (numSrc : Int) (mode : Mode) (r : Option (List ℝ))
    (grid : List (ℝ × ℝ × ℝ)) : Except Err (DOA × ModeVector) :=
  match checkDistances mode r with
  | .error e => .error e
  | .ok _ =>
    match Doa.init mics fs nfft c grid .far false with
    | .error e => .error e
    | .ok v => .ok (⟨mics.length, fs, nfft, checkNumSrc numSrc, []⟩, v)

/-- The arguments of one call. -/
structure Call where
  shape : Nat × Nat × Nat
  numSrc : Option Int
  freqRange : ℝ × ℝ
  freqBins : Option (List Int)
  freqHz : Option (List ℝ)
  process : List Int → Int → Except Err (List ℝ)

/-- `np.arange(a, b)`. -/
def arange (a b : Int) : List Int := (List.range (b - a).toNat).map fun i => a + (i : Nat)

/-- Lines 333-339: the frequency bins asked for; the list of frequencies iterates over `None`. -/
noncomputable def requested (d : DOA) (a : Call) : Except Err (List Int) :=
  match a.freqBins, a.freqHz with
  | some l, _ => .ok l
  | none, some _ => .error .typeError
  | none, none => .ok (arange (npRound (a.freqRange.1 / d.fs * d.nfft)) (npRound (a.freqRange.2 / d.fs * d.nfft)))

/-- Lines 320-324. -/
def setNumSrc (d : DOA) (n : Option Int) : DOA :=
  match n with
  | none => d
  | some n => if n ≠ d.numSrc then { d with numSrc := checkNumSrc n } else d

/-- Lines 341-364: keeps the valid bins, runs the algorithm and looks for peaks; their number is stored. -/
noncomputable def search (d : DOA) (a : Call) (bins : List Int) (findPeaks : List ℝ → Int → List Nat) : DOA × Except Err (List Nat) :=
  let bins := bins.filter fun b => b < (d.maxBin : Int)
  let bins := bins.filter fun b => b ≥ 0
  let d := { d with bins := bins }
  match a.process d.bins d.numSrc with
  | .error e => (d, .error e)
  | .ok values =>
    let idx := findPeaks values d.numSrc
    ({ d with numSrc := idx.length }, .ok idx)

/-- `locate_sources` (291-366): the object afterwards and the indices of the peaks. -/
noncomputable def locate (d : DOA) (a : Call) (findPeaks : List ℝ → Int → List Nat) : DOA × Except Err (List Nat) :=
  let d := setNumSrc d a.numSrc
  if a.shape.1 ≠ d.nMics then (d, .error .valueError) else
  if a.shape.2.1 ≠ d.maxBin then (d, .error .valueError) else
  match requested d a with
  | .error e => (d, .error e)
  | .ok bins => search d a bins findPeaks

/-- A history of calls. -/
noncomputable def locateAll (d : DOA) (l : List Call) (findPeaks : List ℝ → Int → List Nat) : DOA := l.foldl (fun d a => (locate d a findPeaks).1) d

end Verif.Doa
