import Verif.Py
import Mathlib.Analysis.Complex.Basic
import Mathlib.Analysis.SpecialFunctions.Pow.Real

/-!
# Real spherical harmonics (`directivities/harmonics.py` 81-184)

The complex spherical harmonics of scipy (`scipy.special.sph_harm_y(n, m, theta, phi)`, with the Condon-Shortley phase) are a parameter `Y`; what is used of them is stated with
the theorems. One pair of angles at a time: the arrays of the code are handled entry by entry.
-/

namespace Verif.RealHarm

open Verif.Py

/-- The two assertions (105-106). -/
def valid (n m : ℤ) : Prop := 0 ≤ n ∧ |m| ≤ n

/-- `y_real` after its first two assignments (114-116). -/
def part (m : ℤ) (y : ℂ) : ℝ := if 0 ≤ m then y.re else y.im

/-- The factor of line 123. -/
noncomputable def scaled (m : ℤ) (v : ℝ) : ℝ := if m ≠ 0 then v * (Real.sqrt 2 * (-1 : ℝ) ^ m) else v

/-- The change of sign (125-127). -/
def flipped (m : ℤ) (v : ℝ) : ℝ := if m < 0 ∧ m % 2 = 0 then -v else v

open Classical in
/-- `real_sph_harm` (81-129). -/
noncomputable def realSphHarm (Y : ℤ → ℤ → ℝ → ℝ → ℂ) (n m : ℤ) (theta phi : ℝ) (cs : Bool) : Except Err ℝ :=
  if valid n m then
    let v := part m (Y n m theta phi)
    .ok (if cs then v else flipped m (scaled m v))
  else .error .assertionError

/-- `RealSphericalHarmonicsDirectivity.get_response` (164-180) with arrays of angles of the same length: a column, whatever the frequency and `magnitude`. -/
noncomputable def getResponse (Y : ℤ → ℤ → ℝ → ℝ → ℂ) (m n : ℤ) (cs : Bool) (azimuth colatitude : List ℝ) (degrees : Bool) : Except Err (List (List ℝ)) :=
  let rad : ℝ → ℝ := fun (x : ℝ) => if degrees then x * Real.pi / 180 else x
  (List.zip azimuth colatitude).mapM fun (p : ℝ × ℝ) => (realSphHarm Y n m (rad p.2) (rad p.1) cs).map fun (v : ℝ) => [v]

end Verif.RealHarm
