import Verif.Beam.Model
import Mathlib.LinearAlgebra.Matrix.NonsingularInverse

/-!
# Beamformers for the useful-to-detrimental ratio (`pyroomacoustics/beamforming.py`)

`np.linalg.cholesky`, `np.linalg.eig` and `scipy.linalg.eigh` are parameters.
-/

namespace Verif.MaxUdr

open Matrix Verif.Py

variable {M K K' n w : Nat}

/-- `R_nq` (beamforming.py 930-938, 1157-1171): the noise and the sum of the columns of the interferer; without one, the 1 by 1 zero added is no change. -/
noncomputable def interference (bad : Option (Matrix (Fin M) (Fin K') ℂ)) (Rn : Option (Matrix (Fin M) (Fin M) ℂ)) : Matrix (Fin M) (Fin M) ℂ :=
  match bad with
  | none => Rn.getD 0
  | some A => Rn.getD 0 + Beam.outer (Beam.sumcols A)

/-- `udr` (beamforming.py 917-948) at one frequency, not in decibels. -/
noncomputable def udr (good : Matrix (Fin M) (Fin K) ℂ) (R : Matrix (Fin M) (Fin M) ℂ) (x : Fin M → ℂ) : ℝ :=
  ((star x ⬝ᵥ (good * goodᴴ) *ᵥ x) / (star x ⬝ᵥ R *ᵥ x)).re

open ComplexOrder in
open Classical in
/-- `rake_max_udr_weights` (beamforming.py 1145-1178) at one frequency, for `M + 1` microphones. With a single image the array of images is given to `rake_max_sinr_weights`, which asks for its
`images`; a matrix that is not positive definite has no factor (LinAlgError). -/
noncomputable def weights (chol : Matrix (Fin (M + 1)) (Fin (M + 1)) ℂ → Matrix (Fin (M + 1)) (Fin (M + 1)) ℂ)
    (eig : Matrix (Fin (M + 1)) (Fin (M + 1)) ℂ → (Fin (M + 1) → ℂ) × Matrix (Fin (M + 1)) (Fin (M + 1)) ℂ)
    (good : Matrix (Fin (M + 1)) (Fin K) ℂ) (R : Matrix (Fin (M + 1)) (Fin (M + 1)) ℂ) : Except Err (Fin (M + 1) → ℂ) :=
  if K = 1 then .error .attributeError
  else if R.PosDef then
    let C := chol R
    let v := (eig (C⁻¹ * good * goodᴴ * (C⁻¹)ᴴ)).2
    .ok ((Cᴴ)⁻¹ *ᵥ fun m => v m 0)
  else .error .valueError

/-- The columns of one source: half of the columns with an interferer (beamforming.py 1213-1225). -/
def ownColumns (interferer : Bool) (w : Nat) : Nat := if interferer then w / 2 else w

/-- The end of the useful part (beamforming.py 1228-1232), `prec` the 30 ms in samples. -/
def usefulEnd (interferer : Bool) (w kappa prec : Nat) : Nat := min (ownColumns interferer w) (kappa + prec)

/-- `A` (beamforming.py 1234, 1236). -/
noncomputable def useful (H : Matrix (Fin n) (Fin w) ℝ) (interferer : Bool) (kappa prec : Nat) : Matrix (Fin n) (Fin n) ℝ :=
  Beam.corr H fun k => kappa ≤ (k : Nat) ∧ (k : Nat) < usefulEnd interferer w kappa prec

/-- `B` (beamforming.py 1233, 1237-1240). -/
noncomputable def detrimental (H : Matrix (Fin n) (Fin w) ℝ) (interferer : Bool) (Rn : Matrix (Fin n) (Fin n) ℝ) (kappa prec : Nat) : Matrix (Fin n) (Fin n) ℝ :=
  let B := Beam.corr H (fun k => (k : Nat) < kappa) + Beam.corr H (fun k => ownColumns interferer w ≤ (k : Nat)) + Rn
  if interferer then B + Beam.corr H fun k => usefulEnd interferer w kappa prec ≤ (k : Nat) ∧ (k : Nat) < ownColumns interferer w else B

open Classical in
/-- `rake_max_udr_filters` (beamforming.py 1180-1255) for the channel matrix `H` of `n + 1` filter taps: the ratio and the filters, in one row. `eigh` gives all generalised eigenvalues in ascending order and
their vectors, of which the last is taken; it raises (LinAlgError) for a second matrix that is not positive definite. -/
noncomputable def filters (eigh : Matrix (Fin (n + 1)) (Fin (n + 1)) ℝ → Matrix (Fin (n + 1)) (Fin (n + 1)) ℝ → (Fin (n + 1) → ℝ) × Matrix (Fin (n + 1)) (Fin (n + 1)) ℝ)
    (H : Matrix (Fin (n + 1)) (Fin w) ℝ) (interferer : Bool) (Rn : Option (Matrix (Fin (n + 1)) (Fin (n + 1)) ℝ)) (kappa prec : Nat) : Except Err (ℝ × (Fin (n + 1) → ℝ)) :=
  let A := useful H interferer kappa prec
  let B := detrimental H interferer (Rn.getD 0) kappa prec
  if B.PosDef then
    let r := eigh A B
    .ok (r.1 (Fin.last n), fun i => r.2 i (Fin.last n))
  else .error .valueError

end Verif.MaxUdr
