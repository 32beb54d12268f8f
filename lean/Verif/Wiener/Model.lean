import Verif.Py
import Verif.DFT
import Verif.LinPred.Model

/-!
# Iterative Wiener filtering

`/repo/pyroomacoustics/denoise/iterative_wiener.py` 31-369: the class `IterativeWiener` and its helper functions. Numbers are exact. Arrays of spectra are functions of the
bin. `none` stands for an array with an entry that is infinite or not a number. The frames have the length `frame_len`; otherwise the product at the end raises.
-/

namespace Verif.Wiener

open Verif.Py Verif.DFT Verif.LinPred

/-- The object (173-194). -/
structure Iw where
  frameLen : Nat
  lpcOrder : Nat
  iterations : Nat
  alpha : ℝ
  thresh : ℝ
  speech : Option (Nat → ℝ)
  noise : ℝ
  filt : Option (Nat → ℝ)

/-- The constructor (173-194). -/
noncomputable def Iw.new (frameLen lpcOrder iterations : Nat) (alpha thresh : ℝ) : Except Err Iw :=
  if frameLen % 2 ≠ 0 then .error .valueError
  else if alpha > 1 ∨ alpha < 0 then .error .valueError
  else .ok ⟨frameLen, lpcOrder, iterations, alpha, thresh, some fun _ => 1, 0, some fun _ => 1⟩

/-- `np.std(y) ** 2`. -/
noncomputable def variance (y : List ℝ) : ℝ := (y.map fun v => (v - y.sum / y.length) ^ 2).sum / y.length

/-- The polynomial `1 - Σ aₖ wᵏ`. -/
noncomputable def allPole (a : List ℝ) (w : ℂ) : ℂ := 1 - ∑ k ∈ Finset.range a.length, (a.getD k 0 : ℂ) * w ^ (k + 1)

/-- `_lpc_all_pole` (324-326). -/
noncomputable def integrand (a : List ℝ) (omega : ℝ) : Option ℝ :=
  let v := allPole a (Complex.exp (-Complex.I * omega))
  if v = 0 then none else some (1 / ‖v‖ ^ 2)

/-- The 1000 frequencies (337-338). -/
@[irreducible] noncomputable def omegas : List ℝ := (List.range 1000).map fun (j : Nat) => -Real.pi + j * (2 * Real.pi / 1000)

/-- `integrate.trapezoid(y, x)`. -/
noncomputable def trapezoid (y x : List ℝ) : ℝ := ∑ j ∈ Finset.range (x.length - 1), (x.getD (j + 1) 0 - x.getD j 0) * (y.getD (j + 1) 0 + y.getD j 0) / 2

/-- All values, or `none`. -/
def collect : List (Option ℝ) → Option (List ℝ)
  | [] => some []
  | none :: _ => none
  | some v :: l => (collect l).map (v :: ·)

/-- `compute_squared_gain` (286-348) for a number as noise. -/
@[irreducible] noncomputable def squaredGain (a : List ℝ) (noise : ℝ) (y : List ℝ) : Option ℝ :=
  let rhs := (y.map fun v => v ^ 2).sum - y.length * noise
  (collect (omegas.map (integrand a))).bind fun vals =>
    let integral := trapezoid vals omegas
    if integral = 0 ∨ y.length = 0 then none else some (rhs * 2 * Real.pi / y.length / integral)

/-- `compute_speech_psd` (248-283), at the bins up to `nfft / 2`. `nfft` is more than the number of coefficients. -/
noncomputable def speechPsd (a : List ℝ) (g2 : ℝ) (nfft : Nat) : Option (Nat → ℝ) :=
  let A : Nat → ℂ := rfft nfft fun n => (1 :: a.map fun v => -1 * v).getD n 0
  open Classical in
  if ∃ k, k ≤ nfft / 2 ∧ A k = 0 then none else some fun k => g2 / ‖A k‖ ^ 2

/-- `compute_wiener_filter` (351-369). -/
noncomputable def wienerFilter (speech : Option (Nat → ℝ)) (noise : ℝ) (bins : Nat) : Option (Nat → ℝ) :=
  speech.bind fun P =>
    open Classical in
    if ∃ k, k < bins ∧ P k + noise = 0 then none else some fun k => P k / (P k + noise)

/-- The loop of a speech frame (230-243). `y`: the frame, `Y`: its transform over the square root of the length, `s`: the frame denoised so far. Numbers that are not finite stay so. -/
noncomputable def iterate (y : List ℝ) (Y : Nat → ℂ) : Nat → List ℝ → Iw → Except Err Iw
  | 0, _, o => .ok o
  | n + 1, s, o => match lpc s o.lpcOrder true with
    | .error e => .error e
    | .ok none => .ok { o with speech := none, filt := none }
    | .ok (some a) =>
      let P := (squaredGain a o.noise y).bind fun g2 => speechPsd a g2 o.frameLen
      match wienerFilter P o.noise (o.frameLen / 2 + 1) with
      | none => .ok { o with speech := none, filt := none }
      | some H => iterate y Y n ((List.range o.frameLen).map fun (t : Nat) => irfft o.frameLen (fun k => H k * Y k) t) { o with speech := P, filt := some H }

/-- `compute_filtered_output` (196-245): the object afterwards, the output, and what is left in the array `frame_dft`, which is divided in place. -/
noncomputable def compute (o : Iw) (y : List ℝ) (frameDft : Option (Nat → ℂ)) : Except Err (Iw × Option (Nat → ℂ) × (Nat → ℂ)) :=
  if y.length ≠ o.frameLen then .error .valueError
  else
    let Y0 := frameDft.getD (rfft o.frameLen fun n => y.getD n 0)
    let Y : Nat → ℂ := fun k => Y0 k / (Real.sqrt o.frameLen : ℂ)
    let energy := variance y
    (if energy < o.thresh then
        let noise := o.alpha * o.noise + (1 - o.alpha) * energy
        (.ok { o with noise := noise, filt := wienerFilter o.speech noise (o.frameLen / 2 + 1) } : Except Err Iw)
      else iterate y Y o.iterations y o).map fun o => (o, o.filt.map fun H k => (H k : ℂ) * Y k, Y)

/-- A sequence of frames with their transforms: the object at the end and the outputs. -/
noncomputable def process (o : Iw) : List (List ℝ × Option (Nat → ℂ)) → Except Err (Iw × List (Option (Nat → ℂ)))
  | [] => .ok (o, [])
  | f :: l => match compute o f.1 f.2 with
    | .error e => .error e
    | .ok (o', out, _) => (process o' l).map fun r => (r.1, out :: r.2)

end Verif.Wiener
