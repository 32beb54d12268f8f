import Verif.Py
import Verif.DFT
import Mathlib.Analysis.SpecialFunctions.Log.Basic

/-!
# `magnitude_response_to_minimum_phase` (`acoustics.py` 132-179)

Exact numbers, one response (one axis). `eps` is positive: the logarithm of zero is not modelled.
-/

namespace Verif.MinPhase

open Verif.Py Verif.DFT Finset

/-- The number of zeros (154-157). -/
def padding (L N : Nat) : Int := if N % 2 = 0 then (N : Int) - 2 * ((L : Int) - 1) else (N : Int) - 2 * ((L : Int) - 1) - 1

/-- `np.concatenate((magnitude_response, zero_pad, magnitude_response[..., :0:-1]))` (164-169). -/
def extend (mag : List ℝ) (pad : Nat) : List ℝ := mag ++ List.replicate pad 0 ++ mag.tail.reverse

/-- The factors of `scipy.signal.hilbert` (external): one at zero and at the Nyquist bin, two in between, zero elsewhere. -/
noncomputable def gain (M n : Nat) : ℝ := if n = 0 ∨ 2 * n = M then 1 else if 2 * n < M then 2 else 0

/-- `scipy.signal.hilbert` of `M` numbers: the analytic signal. -/
noncomputable def hilbert (M : Nat) (x : Nat → ℝ) (k : Nat) : ℂ := idft M (fun (n : Nat) => dft M (fun (j : Nat) => (x j : ℂ)) n * (gain M n : ℂ)) k

/-- `m_p = np.imag(-hilbert(np.log(freq_resp)))` (172). -/
noncomputable def phase (R : List ℝ) (k : Nat) : ℝ := (-(hilbert R.length (fun (n : Nat) => Real.log (R.getD n 0)) k)).im

/-- `magnitude_response_to_minimum_phase` (132-179). `irfft` with no points raises. -/
noncomputable def minPhase (mag : List ℝ) (N : Nat) (eps : ℝ) : Except Err (List ℝ) :=
  if padding mag.length N < 0 then .error .valueError
  else if N = 0 then .error .valueError
  else
    let R := (extend mag (padding mag.length N).toNat).map fun (v : ℝ) => max v eps
    .ok ((List.range N).map fun (n : Nat) => irfft N (fun (k : Nat) => (R.getD k 0 : ℂ) * Complex.exp (Complex.I * (phase R k : ℂ))) n)

end Verif.MinPhase
