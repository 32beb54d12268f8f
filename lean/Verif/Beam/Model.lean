import Verif.Py
import Mathlib.LinearAlgebra.Matrix.PosDef
import Mathlib.Analysis.SpecialFunctions.Complex.Circle
import Mathlib.Analysis.Complex.Order

/-!
# Model of the design of beamformers

`pyroomacoustics/beamforming.py`: steering vectors (690-729), the signal to noise ratio (876-915) and the design of weights and filters (1050-1143, 1257-1319, 1401-1436). Positions have `d`
coordinates. The pseudo-inverse and the solution of linear systems are parameters; `IsPinv` and `Solves` are what numpy and scipy promise. Numbers without rounding.
-/

namespace Verif.Beam

open Matrix Complex Verif.Py

variable {M K K' d n w : Nat}

/-! ## Steering vectors -/

/-- Entry of `distance` (beamforming.py:72-86). -/
noncomputable def dist (x y : Fin d → ℝ) : ℝ := Real.sqrt (∑ i, (x i - y i) ^ 2)

/-- Norm of the whole array of differences to the center (beamforming.py:709-710). -/
noncomputable def frob (X : Fin K → Fin d → ℝ) (center : Fin d → ℝ) : ℝ := Real.sqrt (∑ k, ∑ i, (X k i - center i) ^ 2)

/-- Projected distance (beamforming.py:713). -/
noncomputable def proj (R : Fin M → Fin d → ℝ) (X : Fin K → Fin d → ℝ) (center : Fin d → ℝ) (m : Fin M) (k : Fin K) : ℝ :=
  -1 * ∑ i, R m i * ((X k i - center i) / frob X center)

open Classical in
/-- The distances of `steering_vector_2D_from_point` (beamforming.py:706-719); `none` is a division by zero. -/
noncomputable def flight (ff : Bool) (R : Fin M → Fin d → ℝ) (center : Fin d → ℝ) (X : Fin K → Fin d → ℝ) : Option (Fin M → Fin K → ℝ) :=
  if ff then
    if frob X center = 0 then none
    else some fun m k => proj R X center m k - ⨅ q : Fin M × Fin K, proj R X center q.1 q.2
  else some fun m k => dist (R m) (X k)

open Classical in
/-- `steering_vector_2D_from_point` (beamforming.py:690-729), with the speed of sound `c`; `none` if there is a division by zero. -/
noncomputable def steering (c : ℝ) (R : Fin M → Fin d → ℝ) (center : Fin d → ℝ) (f : ℝ) (X : Fin K → Fin d → ℝ) (attn ff : Bool) : Option (Matrix (Fin M) (Fin K) ℂ) :=
  match flight ff R center X with
  | none => none
  | some D =>
    let phase : Fin M → Fin K → ℂ := fun m k => Complex.exp (-I * ((2 * Real.pi * f * D m k / c : ℝ) : ℂ))
    if attn then
      if ∃ m k, D m k = 0 then none else some (.of fun m k => ((1 / (4 * Real.pi) / D m k : ℝ) : ℂ) * phase m k)
    else some (.of phase)

/-- `sumcols` (beamforming.py:50-57). -/
def sumcols {α : Type} [AddCommMonoid α] (A : Matrix (Fin M) (Fin K) α) : Fin M → α := fun m => ∑ k, A m k

/-! ## Weights -/

/-- Weights for a plane wave at one frequency (`far_field_weights`, beamforming.py:1050-1064). -/
noncomputable def farField (c f phi : ℝ) (R : Fin M → Fin 2 → ℝ) (center : Fin 2 → ℝ) (m : Fin M) : ℂ :=
  let pr : Fin M → ℝ := fun m => Real.cos phi * (R m 0 - center 0) + Real.sin phi * (R m 1 - center 1)
  Complex.exp (I * ((2 * Real.pi * f * (pr m - ⨆ j, pr j) / c : ℝ) : ℂ))

/-- `rake_delay_and_sum_weights` at one frequency (beamforming.py:1071-1075). -/
noncomputable def delaySum (good : Matrix (Fin M) (Fin K) ℂ) : Fin M → ℂ := fun m => 1 / (M : ℂ) / (K : ℂ) * ∑ k, good m k

/-- What `np.linalg.pinv` promises. -/
structure IsPinv (pinv : {a b : Nat} → Matrix (Fin a) (Fin b) ℂ → Matrix (Fin b) (Fin a) ℂ) : Prop where
  left : ∀ {a b : Nat} (A : Matrix (Fin a) (Fin b) ℂ), A * pinv A * A = A
  right : ∀ {a b : Nat} (A : Matrix (Fin a) (Fin b) ℂ), pinv A * A * pinv A = pinv A
  herm_left : ∀ {a b : Nat} (A : Matrix (Fin a) (Fin b) ℂ), (A * pinv A)ᴴ = A * pinv A
  herm_right : ∀ {a b : Nat} (A : Matrix (Fin a) (Fin b) ℂ), (pinv A * A)ᴴ = pinv A * A

/-- Outer product of a vector with itself, `a.dot(H(a))`. -/
noncomputable def outer (a : Fin M → ℂ) : Matrix (Fin M) (Fin M) ℂ := .of fun i j => a i * star (a j)

/-- Noise and interference (beamforming.py:1088-1095, 1131-1137). Without an interferer `A_bad` is an array of shape (1, 0), and the regularisation is a 1 by 1 array that is added to all
entries. -/
noncomputable def noise (bad : Option (Matrix (Fin M) (Fin K') ℂ)) (Rn : Option (Matrix (Fin M) (Fin M) ℂ)) (rcond : ℝ) : Matrix (Fin M) (Fin M) ℂ :=
  match bad with
  | none => Rn.getD 0 + .of fun _ _ => (rcond : ℂ)
  | some A => outer (sumcols A) + Rn.getD 0 + (rcond : ℂ) • (1 : Matrix (Fin M) (Fin M) ℂ)

open Classical in
/-- `rake_max_sinr_weights` at one frequency (beamforming.py:1101-1143); `none` if there is a division by zero. -/
noncomputable def maxSinr (pinv : {a b : Nat} → Matrix (Fin a) (Fin b) ℂ → Matrix (Fin b) (Fin a) ℂ) (good : Matrix (Fin M) (Fin K) ℂ) (bad : Option (Matrix (Fin M) (Fin K') ℂ))
    (Rn : Option (Matrix (Fin M) (Fin M) ℂ)) (rcond : ℝ) : Option (Fin M → ℂ) :=
  let a := sumcols good
  let inv := pinv (noise bad Rn rcond)
  let den := star a ⬝ᵥ inv *ᵥ a
  if den = 0 then none else some fun m => (inv *ᵥ a) m / den

/-- `rake_one_forcing_weights` at one frequency (beamforming.py:1077-1099). -/
noncomputable def oneForcing (pinv : {a b : Nat} → Matrix (Fin a) (Fin b) ℂ → Matrix (Fin b) (Fin a) ℂ) (good : Matrix (Fin M) (Fin K) ℂ) (bad : Option (Matrix (Fin M) (Fin K') ℂ))
    (Rn : Option (Matrix (Fin M) (Fin M) ℂ)) : Fin M → ℂ :=
  let inv := pinv (noise bad Rn 0)
  let D := pinv (goodᴴ * inv * good)
  sumcols (inv * good * D)

open Classical in
/-- `snr` at one frequency, as a ratio (beamforming.py:890-915); `none` if there is a division by zero. -/
noncomputable def snr (weights : Fin M → ℂ) (good : Matrix (Fin M) (Fin K) ℂ) (bad : Option (Matrix (Fin M) (Fin K') ℂ)) (Rn : Option (Matrix (Fin M) (Fin M) ℂ)) : Option ℝ :=
  let a := sumcols good
  let den := star weights ⬝ᵥ noise bad Rn 0 *ᵥ weights
  if den = 0 then none else some ((star weights ⬝ᵥ a) * (star a ⬝ᵥ weights) / den).re

/-! ## Filters -/

/-- Correlation of the columns of a channel matrix that satisfy `p`. -/
noncomputable def corr (H : Matrix (Fin n) (Fin w) ℝ) (p : Fin w → Prop) [DecidablePred p] : Matrix (Fin n) (Fin n) ℝ :=
  .of fun i j => ∑ k with p k, H i k * H j k

/-- What solving with a Cholesky factor promises for positive definite matrices. -/
def Solves (solve : {a b : Nat} → Matrix (Fin a) (Fin a) ℝ → Matrix (Fin a) (Fin b) ℝ → Matrix (Fin a) (Fin b) ℝ) : Prop :=
  ∀ {a b : Nat} (A : Matrix (Fin a) (Fin a) ℝ) (B : Matrix (Fin a) (Fin b) ℝ), A.PosDef → A * solve A B = B

open Classical in
/-- `rake_mvdr_filters` (beamforming.py:1401-1436) for the channel matrix `H` and the delay in samples. `la.cho_factor` raises for a matrix that is not positive definite. -/
noncomputable def mvdr (solve : {a b : Nat} → Matrix (Fin a) (Fin a) ℝ → Matrix (Fin a) (Fin b) ℝ → Matrix (Fin a) (Fin b) ℝ) (H : Matrix (Fin n) (Fin w) ℝ) (Rn : Matrix (Fin n) (Fin n) ℝ)
    (kappa : Nat) : Except Err (Fin n → ℝ) :=
  if hk : kappa < w then
    let h : Fin n → ℝ := fun i => H i ⟨kappa, hk⟩
    let Rxx := corr H fun k => (k : Nat) < w / 2
    let Knq := corr H (fun k => w / 2 ≤ (k : Nat)) + Rn
    if (Rxx + Knq).PosDef then
      let g : Fin n → ℝ := fun i => solve (Rxx + Knq) (.of fun i (_ : Fin 1) => h i) i 0
      .ok fun i => g i / ∑ j, h j * g j
    else .error .valueError
  else .error .indexError

/-- The columns of `H[:, :tau+1]` and `H[:, tau+kappa:]` (beamforming.py:1293). -/
def constrained (tau kappa w : Nat) : List (Fin w) := (List.finRange w).filter (fun k : Fin w => (k : Nat) ≤ tau) ++ (List.finRange w).filter fun k : Fin w => tau + kappa ≤ (k : Nat)

open Classical in
/-- `rake_perceptual_filters` (beamforming.py:1257-1312) for the channel matrix `H`, with the delays in samples. The second result is the array that was given as `R_n`, which is changed if there is
an interferer (`K_nq = R_n; K_nq += …`). -/
noncomputable def perceptual (solve : {a b : Nat} → Matrix (Fin a) (Fin a) ℝ → Matrix (Fin a) (Fin b) ℝ → Matrix (Fin a) (Fin b) ℝ) (H : Matrix (Fin n) (Fin w) ℝ) (interferer : Bool)
    (Rn : Option (Matrix (Fin n) (Fin n) ℝ)) (tau kappa : Nat) : Except Err (Fin n → ℝ) × Option (Matrix (Fin n) (Fin n) ℝ) :=
  let cols := constrained tau kappa w
  let Knq := if interferer then Rn.getD 0 + corr H fun k => w / 2 ≤ (k : Nat) else Rn.getD 0
  let A : Matrix (Fin n) (Fin cols.length) ℝ := .of fun i k => H i (cols.get k)
  let out := Rn.map fun _ => Knq
  if cols.length ≤ tau then (.error .indexError, Rn)
  else if Knq.PosDef then
    let B := solve Knq A
    if (Aᵀ * B).PosDef then
      let x := solve (Aᵀ * B) (.of fun k (_ : Fin 1) => if (k : Nat) = tau then 1 else 0)
      (.ok fun i => (B * x) i 0, out)
    else (.error .valueError, out)
  else (.error .valueError, out)

end Verif.Beam
