import Verif.STFT.Model

/-!
# Model of the phase reconstruction

`pyroomacoustics/phase/gl.py` (108-192): `griffin_lim`, on top of the model of the short-time Fourier transform. The magnitudes are a list of frames, functions of the frequency of which the first
`nFreq` values matter. The error `zeroDivision` stands for a division by zero, after which numpy carries on with NaN. The argument `stft_kwargs` is left at its default, the callback is seen as the list of
the signals it receives. Numbers without rounding.
-/

namespace Verif.GriffinLim

open Verif.Py Verif.DFT Verif.STFT

open Classical in
/-- The initial phases (gl.py:141-147): ones, or the given array divided by its moduli (for `"random"` the array drawn, which has modulus one). -/
noncomputable def phases (frames nFreq : Nat) (ini : Option (Nat → Nat → ℂ)) : Except Err (Nat → Nat → ℂ) :=
  match ini with
  | none => .ok fun _ _ => 1
  | some p => if ∃ k j, k < frames ∧ j < nFreq ∧ p k j = 0 then .error .zeroDivision else .ok fun k j => p k j / (‖p k j‖ : ℂ)

/-- Variables of the loop: the object, the spectra and the signal. -/
structure State where
  eng : St
  Y : List (Nat → ℂ)
  y : List ℝ

/-- `engine.synthesis(Y)` (gl.py:167, 186; the checks of stft.py:520-567 on an array of shape (frames, nFreq), and 646-665). With one frame the first dimension is compared to the number of bins; with
none there is no result, and taking a slice of it raises. -/
noncomputable def synth (eng : St) (nFreq : Nat) (Y : List (Nat → ℂ)) : Except Err (St × List ℝ) :=
  if (if Y.length = 1 then 1 else nFreq) ≠ eng.conf.nfft / 2 + 1 then .error .valueError
  else if Y.length = 0 then .error .typeError else synthesis { eng with X := Y, numFrames := Y.length }

/-- `y[:-the_shift,] = z[the_shift:,]` (gl.py:172, 186), for arrays of the same length; `y[:-0]` is empty. -/
def moveInto (y z : List ℝ) (shift : Nat) : Except Err (List ℝ) :=
  if shift = 0 then .error .valueError else .ok (z.drop shift ++ y.drop (y.length - shift))

/-- Everything before the loop (gl.py:141-172). -/
noncomputable def start (X : List (Nat → ℝ)) (nFreq hop : Nat) (aw : List ℝ) (fftSize : Option Nat) (ini : Option (Nat → Nat → ℂ)) : Except Err State :=
  match phases X.length nFreq ini with
  | .error e => .error e
  | .ok p =>
    let N := fftSize.getD (2 * (nFreq - 1))
    match create N hop (some aw) (some (synthesisWindow aw hop)) true none with
    | .error e => .error e
    | .ok eng =>
      let Y := X.mapIdx fun k x j => (x j : ℂ) * p k j
      match synth eng nFreq Y with
      | .error e => .error e
      | .ok (eng1, y) =>
        match moveInto y y (N - hop) with
        | .error e => .error e
        | .ok y1 => .ok ⟨eng1, Y, y1⟩

open Classical in
/-- `Y *= X / np.abs(Y)` (gl.py:183). -/
noncomputable def enforce (nFreq : Nat) (X : List (Nat → ℝ)) (A : List (Nat → ℂ)) : Except Err (List (Nat → ℂ)) :=
  if ∃ a ∈ A, ∃ j < nFreq, a j = 0 then .error .zeroDivision else .ok (List.zipWith (fun x a j => a j * ((x j / ‖a j‖ : ℝ) : ℂ)) X A)

/-- One iteration (gl.py:174-186). -/
noncomputable def epoch (X : List (Nat → ℝ)) (nFreq : Nat) (st : State) : Except Err State :=
  match analysis st.eng st.y with
  | .error e => .error e
  | .ok (eng1, A) =>
    match enforce nFreq X A with
    | .error e => .error e
    | .ok Y =>
      match synth eng1 nFreq Y with
      | .error e => .error e
      | .ok (eng2, z) =>
        match moveInto st.y z (eng2.conf.N - eng2.conf.hop) with
        | .error e => .error e
        | .ok y => .ok ⟨eng2, Y, y⟩

/-- The loop. -/
noncomputable def loop (X : List (Nat → ℝ)) (nFreq : Nat) : Nat → State → Except Err State
  | 0, st => .ok st
  | n + 1, st =>
    match epoch X nFreq st with
    | .error e => .error e
    | .ok st1 => loop X nFreq n st1

/-- `griffin_lim` (gl.py:108-192). With a callback and no iteration the variable `epoch` is not defined at the last call. -/
noncomputable def griffinLim (X : List (Nat → ℝ)) (nFreq hop : Nat) (aw : List ℝ) (fftSize : Option Nat) (ini : Option (Nat → Nat → ℂ)) (nIter : Nat) (callback : Bool) : Except Err (List ℝ) :=
  match start X nFreq hop aw fftSize ini with
  | .error e => .error e
  | .ok st =>
    match loop X nFreq nIter st with
    | .error e => .error e
    | .ok st1 => if callback ∧ nIter = 0 then .error .nameError else .ok st1.y

end Verif.GriffinLim
