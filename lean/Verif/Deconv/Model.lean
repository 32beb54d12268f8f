import Verif.Py
import Verif.Sync.Model
import Mathlib.Analysis.SpecialFunctions.Pow.Real

/-!
# `experimental/deconvolution.py`

Exact numbers: the samples are not rounded to single precision. `np.linalg.lstsq` is a parameter, there is at least one point in the grid (`let_n_points` is positive). An array with a number that is not finite is `none`.
-/

namespace Verif.Deconv

open Verif.Py Verif.DFT Finset

/-- The transform length (30-34, 79-83). -/
def padded (n1 n2 : Nat) : Nat := if (n1 + n2 - 1) % 2 ≠ 0 then n1 + n2 - 1 + 1 else n1 + n2 - 1

/-- `fft.rfft(x, n=n) / np.sqrt(n)` (41-42, 90-91). -/
noncomputable def spec (n : Nat) (x : List ℝ) (k : Nat) : ℂ := Sync.spectrum n x k / (Real.sqrt n : ℂ)

/-- `fft.irfft(H, n=n)` as an array. -/
noncomputable def inverse (n : Nat) (H : Nat → ℂ) : List ℝ := (List.range n).map fun (t : Nat) => irfft n H t

/-- `h[:length]`, all of it by default (37-38, 52, 86-87, 121). -/
def cut (length : Option Int) (h : List ℝ) : List ℝ := slice h none (some (length.getD h.length))

/-- The division where the excitation is large enough (45-47). -/
noncomputable def ratio (Y S : Nat → ℂ) (thresh : ℝ) (k : Nat) : ℂ := open Classical in if thresh < ‖S k‖ then Y k / S k else 0

/-- `deconvolve` (12-52). A transform of length zero raises. With a negative threshold a coefficient that is zero is divided by. -/
noncomputable def deconvolve (y s : List ℝ) (length : Option Int) (thresh : ℝ) : Except Err (Option (List ℝ)) :=
  if y.length + s.length ≤ 1 then .error .valueError
  else
    let n := padded y.length s.length
    let Y := spec n y
    let S := spec n s
    open Classical in if ∃ k, k ≤ n / 2 ∧ thresh < ‖S k‖ ∧ S k = 0 then .ok none
    else .ok (some (cut length (inverse n (ratio Y S thresh))))

/-- `np.linalg.norm(Y) ** 2` (99). -/
noncomputable def energy (n : Nat) (Y : Nat → ℂ) : ℝ := ∑ k ∈ range (n / 2 + 1), ‖Y k‖ ^ 2

/-- The grid of ratios of signal to noise (97-106). -/
noncomputable def grid (n : Nat) (Y X : Nat → ℂ) (noise base : ℝ) (J : Nat) (j : Fin J) : ℝ :=
  let snr := max 1e-7 (energy n Y / energy n X - noise) / noise
  snr / base ^ (-(J : ℝ) / 2 + j * (((J : ℝ) - -(J : ℝ) / 2) / (J - 1 : Nat)))

/-- The gain of a Wiener filter (109). -/
noncomputable def gain (X : Nat → ℂ) (snr : ℝ) (k : Nat) : ℝ := ‖X k‖ ^ 2 / (‖X k‖ ^ 2 + 1 / snr)

/-- `wiener_deconvolve` (55-121). If the excitation is silent, `lstsq` gets numbers that are not finite and raises `LinAlgError`; if only a coefficient is zero, the candidates are not numbers there. -/
noncomputable def wiener (lstsq : (K J : Nat) → (Nat → Fin J → ℂ) → (Nat → ℂ) → Fin J → ℂ) (y x : List ℝ) (length : Option Int) (noise : ℝ) (J : Nat) (base : ℝ) : Except Err (Option (List ℝ)) :=
  if y.length + x.length ≤ 1 then .error .valueError
  else
    let n := padded y.length x.length
    let Y := spec n y
    let X := spec n x
    open Classical in if ∀ k, k ≤ n / 2 → X k = 0 then .error .runtimeError
    else
      let G : Nat → Fin J → ℂ := fun k j => (gain X (grid n Y X noise base J j) k : ℂ) * Y k
      let w := lstsq (n / 2 + 1) J G Y
      if ∃ k, k ≤ n / 2 ∧ X k = 0 then .ok none
      else .ok (some (cut length (inverse n fun k => ∑ j, G k j / X k * w j)))

end Verif.Deconv
