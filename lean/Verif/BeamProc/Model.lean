import Verif.Simulate.Model
import Verif.STFT.Model
import Mathlib.LinearAlgebra.Matrix.ConjTranspose
import Mathlib.Algebra.Order.Floor.Ring

/-!
# Model of the processing of a `Beamformer`

`pyroomacoustics/beamforming.py`, 584-671 and 950-1007: the lengths, the conversion between weights and filters, the processing in the time and in the frequency domain. The least squares routine of numpy is a
parameter. The channels of the transform are independent of each other (transform/stft.py), so each is computed by an object of its own. Numbers without rounding.
-/

namespace Verif.BeamProc

open Verif.Py Verif.DFT Verif.STFT Verif.Simulate Matrix

/-- The attributes of a `Beamformer` of `M` microphones (beamforming.py:584-614). The weights of a microphone are a function on the `N/2+1` frequencies, its filter a list. -/
structure Bf (M : Nat) where
  N : Nat
  Lg : Nat
  L : Nat
  hop : Nat
  zpf : Nat
  zpb : Nat
  weights : Option (Fin M → Nat → ℂ)
  filters : Option (Fin M → List ℝ)
  signals : Option (Fin M → List ℝ)

/-- The constructor (beamforming.py:584-614). Padding that is longer than the frame is not modelled (`L` would be negative). -/
def new {M : Nat} (N : Nat) (Lg hop : Option Nat) (zpf zpb : Nat) : Bf M :=
  let N := if N % 2 = 1 then N + 1 else N
  let L := N - zpf - zpb
  ⟨N, Lg.getD N, L, hop.getD (L / 2), zpf, zpb, none, none, none⟩

/-- `__add__` (beamforming.py:616-622), apart from the positions. -/
def add {M M' : Nat} (b : Bf M) (_y : Bf M') : Bf (M + M') := new b.Lg (some b.N) (some b.hop) b.zpf b.zpb

/-- The complete spectrum (beamforming.py:652). -/
noncomputable def spectrum (N : Nat) (w : Nat → ℂ) (k : Nat) : ℂ := if k ≤ N / 2 then star (w k) else w (N - k)

/-- The delays of the taps (beamforming.py:656), `minus` of them negative. -/
def taps (N minus j : Nat) : Nat := if j < minus then N - minus + j else j - minus

/-- The two halves exchanged (beamforming.py:641-643), for even `N`. -/
def centred (N : Nat) (t : List ℝ) : List ℝ := t.drop (t.length - N / 2) ++ t.take (N / 2)

/-- `filters_from_weights` (beamforming.py:624-659). -/
noncomputable def filtersFromWeights {M : Nat} (lstsq : {a b : Nat} → Matrix (Fin a) (Fin b) ℂ → (Fin a → ℂ) → Fin b → ℂ) (b : Bf M) (nonCausal : ℝ) : Except Err (Bf M) :=
  match b.weights with
  | none => .error .nameError
  | some w =>
    if b.N ≤ b.Lg then
      .ok { b with filters := some fun m => centred b.N ((List.range b.N).map (irfft b.N fun k => star (w m k))) ++ List.replicate (b.Lg - b.N) 0 }
    else
      let plus := ⌊(1 - nonCausal) * b.Lg⌋
      if plus < 0 ∨ (b.Lg : Int) < plus then .error .valueError
      else
        let F : Matrix (Fin b.N) (Fin b.Lg) ℂ := .of fun k j => tw b.N (-((k : Nat) * (taps b.N (b.Lg - plus.toNat) j : Nat) : Int))
        .ok { b with filters := some fun m => List.ofFn fun j => (lstsq F (fun k => spectrum b.N (w m) k) j).re }

/-- `weights_from_filters` (beamforming.py:661-671). -/
noncomputable def weightsFromFilters {M : Nat} (b : Bf M) : Except Err (Bf M) :=
  match b.filters with
  | none => .error .nameError
  | some f => .ok { b with weights := some fun m k => star (rfft b.N (fun n => (f m).getD n 0) k) }

/-- `windows.hann(L)` (windows.py:578-622). -/
noncomputable def hann (L : Nat) : List ℝ := (List.range L).map fun (t : Nat) => 0.5 * (1 - Real.cos (2 * Real.pi * ((t : ℝ) / L)))

/-- The transform objects of `transform.analysis` and `transform.synthesis` (stft.py:764-772, 809-817). -/
def engine (L hop : Nat) (aw : Option (List ℝ)) (zpb zpf : Nat) : Except Err St :=
  match create L hop aw none true none with
  | .error e => .error e
  | .ok s =>
    let s := if 0 < zpb then zeroPadBack s zpb else s
    .ok (if 0 < zpf then zeroPadFront s zpf else s)

/-- Spectra of one channel. -/
noncomputable def spectra {M : Nat} (b : Bf M) (x : List ℝ) : Except Err (List (Nat → ℂ)) :=
  match engine b.L b.hop (some (hann b.L)) b.zpb b.zpf with
  | .error e => .error e
  | .ok s => (analysis s x).map Prod.snd

/-- `Σ_m X_m conj(w_m)` (beamforming.py:980), frame by frame. -/
noncomputable def combine {M : Nat} (X : Fin M → List (Nat → ℂ)) (w : Fin M → Nat → ℂ) (frames : Nat) : List (Nat → ℂ) :=
  (List.range frames).map fun f k => ∑ m, (X m).getD f 0 k * star (w m k)

/-- The processing in the frequency domain (beamforming.py:967-993), given the weights. An array of one channel is refused by the transform; if there is a single frame it has no axis for the frames; if there
is none the synthesis returns `None`. -/
noncomputable def frequencyDomain {M : Nat} (b : Bf M) (w : Fin M → Nat → ℂ) (x : Fin M → List ℝ) : Except Err (List ℝ) :=
  if h : 0 < M then
    if M = 1 then .error .valueError
    else
      match (List.finRange M).mapM (fun m => spectra b (x m)) with
      | .error e => .error e
      | .ok X =>
        let frames := ceilDiv (x ⟨0, h⟩).length b.hop
        if frames = 1 then .error .valueError
        else
          match engine b.L b.hop none b.zpb b.zpf with
          | .error e => .error e
          | .ok s =>
            if frames = 0 then .error .typeError
            else
              match synthesis { s with X := combine (fun m => X.getD m []) w frames, numFrames := frames } with
              | .error e => .error e
              | .ok (_, y) => .ok (if b.zpb = 0 then y.drop b.zpf else (y.take (y.length - b.zpb)).drop b.zpf)
  else .error .nameError

/-- The processing in the time domain (beamforming.py:1000-1005), given the filters. -/
noncomputable def timeDomain {M : Nat} (f : Fin M → List ℝ) (x : Fin M → List ℝ) : Except Err (List ℝ) :=
  match (List.finRange M).map (fun m => fftconvolve (f m) (x m)) with
  | [] => .error .nameError
  | y :: ys => .ok (ys.foldl (fun a v => List.zipWith (· + ·) a v) y)

/-- `process` (beamforming.py:950-1007). The object is changed, too. -/
noncomputable def process {M : Nat} (lstsq : {a b : Nat} → Matrix (Fin a) (Fin b) ℂ → (Fin a → ℂ) → Fin b → ℂ) (b : Bf M) (FD : Bool) : Except Err (Bf M × List ℝ) :=
  match b.signals with
  | none => .error .nameError
  | some x =>
    if FD then
      match b.weights with
      | some w => (frequencyDomain b w x).map fun y => (b, y)
      | none =>
        match weightsFromFilters b with
        | .error e => .error e
        | .ok b1 => (frequencyDomain b1 (b1.weights.getD 0) x).map fun y => (b1, y)
    else
      match b.filters with
      | some f => (timeDomain f x).map fun y => (b, y)
      | none =>
        match filtersFromWeights lstsq b 0 with
        | .error e => .error e
        | .ok b1 => (timeDomain (b1.filters.getD fun _ => []) x).map fun y => (b1, y)

end Verif.BeamProc
