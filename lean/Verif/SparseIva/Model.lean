import Verif.Sparir.Model
import Mathlib.LinearAlgebra.Matrix.NonsingularInverse
import Mathlib.LinearAlgebra.Matrix.ConjTranspose
import Mathlib.Analysis.Complex.Basic

/-!
# Sparse AuxIVA (`bss/sparseauxiva.py` 31-189)

For the two channels that the code requires (79-81, 94-96), the default number of sources and without a callback, which does not change the state. `S` are the selected bins, all of
them (`id`) if the argument is not given. `none` stands for the exception of `np.linalg.solve` for a singular matrix and for values that are not numbers after a division by zero.
`Z` depends on the bin only, so that it does not matter if `S` has a bin twice.
-/

namespace Verif.SparseIva

open Matrix

variable {T F k : ℕ}

/-- `W` (one matrix per bin, rows are channels and columns are sources) and `Y`. -/
structure State (T F : ℕ) where
  W : Fin F → Matrix (Fin 2) (Fin 2) ℂ
  Y : Fin T → Fin F → Fin 2 → ℂ

/-- One bin of `np.dot(X[:, f, :], np.conj(W[f, :, :]))` (115). -/
noncomputable def demixBin (X : Fin T → Fin F → Fin 2 → ℂ) (W : Fin F → Matrix (Fin 2) (Fin 2) ℂ) (t : Fin T) (f : Fin F) (s : Fin 2) : ℂ :=
  ∑ c, X t f c * star (W f c s)

open Classical in
/-- `demixsparse(Y, X, bins, W)` (113-115): the loop runs over the first `k_freq` entries of its argument. -/
noncomputable def demix {m : ℕ} (X : Fin T → Fin F → Fin 2 → ℂ) (bins : Fin m → Fin F) (k : ℕ) (st : State T F) : State T F :=
  { st with Y := fun t f s => if ∃ i : Fin m, (i : ℕ) < k ∧ bins i = f then demixBin X st.W t f s else st.Y t f s }

inductive Kind | laplace | gauss

/-- `eps` (107). -/
noncomputable def eps : ℝ := 1 / 10 ^ 10

/-- `r` (129-135). -/
noncomputable def radius (kind : Kind) (Y : Fin T → Fin F → Fin 2 → ℂ) (t : Fin T) (s : Fin 2) : ℝ :=
  let p := ∑ f, Complex.normSq (Y t f s)
  let r := match kind with
    | .laplace => 2 * Real.sqrt p
    | .gauss => Real.sqrt p ^ 2 / F
  if r < eps then eps else r

/-- `V[f, s]` (140-144). -/
noncomputable def cov (X : Fin T → Fin F → Fin 2 → ℂ) (r : Fin T → Fin 2 → ℝ) (f : Fin F) (s : Fin 2) : Matrix (Fin 2) (Fin 2) ℂ :=
  .of fun c d => (∑ t, X t f c * ((1 / r t s : ℝ) : ℂ) * star (X t f d)) / (T : ℂ)

/-- The new column of one bin (148-156): the solution of `Wᴴ V w = e_s`, scaled. If there is a solution, then `V` is positive definite and the number under the root positive. -/
noncomputable def column (W V : Matrix (Fin 2) (Fin 2) ℂ) (s : Fin 2) : Fin 2 → ℂ :=
  let w := (Wᴴ * V)⁻¹ *ᵥ Pi.single s 1
  let p := ∑ c, star (w c) * ∑ d, V c d * w d
  fun c => w c / (Real.sqrt p.re : ℂ)

open Classical in
/-- One source of the inner loop (147-156), in all bins. -/
noncomputable def source (X : Fin T → Fin F → Fin 2 → ℂ) (r : Fin T → Fin 2 → ℝ) (s : Fin 2) (st : State T F) : Option (State T F) :=
  if ∀ f, ((st.W f)ᴴ * cov X r f s).det ≠ 0 then
    some { st with W := fun f => (st.W f).updateCol s (column (st.W f) (cov X r f s) s) }
  else none

/-- One iteration (118-156). -/
noncomputable def epoch (kind : Kind) (X : Fin T → Fin F → Fin 2 → ℂ) (S : Fin k → Fin F) (st : State T F) : Option (State T F) :=
  let st := demix X S k st
  let r := radius kind st.Y
  (source X r 0 st).bind (source X r 1)

/-- The iterations (118-156). -/
noncomputable def iterate (kind : Kind) (X : Fin T → Fin F → Fin 2 → ℂ) (S : Fin k → Fin F) : ℕ → State T F → Option (State T F)
  | 0, st => some st
  | n + 1, st => (epoch kind X S st).bind (iterate kind X S n)

/-- The initial state (101-110). -/
def init (T : ℕ) (W0 : Option (Fin F → Matrix (Fin 2) (Fin 2) ℂ)) : State T F := ⟨W0.getD fun _ => 1, fun _ _ _ => 0⟩

open Classical in
/-- The relative transfer function of a source (164-173): the transform of the real response that `sparir` finds from the selected bins. -/
noncomputable def hrtf (S : Fin k → Fin F) (W : Fin F → Matrix (Fin 2) (Fin 2) ℂ) (i : Fin 2) : Option (Fin F → ℂ) :=
  if ∀ s, W (S s) 1 i ≠ 0 then
    (Sparir.sparir S (fun s => star (-(W (S s) 0 i) / W (S s) 1 i)) 50 10 10 (10 ^ 5) (1 / 10 ^ 7)).map fun g =>
      fun f => Sparir.forward (fun _ : Fin 1 => f) g 0
  else none

/-- The demixing matrices from the transfer functions (175). -/
noncomputable def assemble (H : Fin 2 → Fin F → ℂ) (f : Fin F) : Matrix (Fin 2) (Fin 2) ℂ := .of fun c i => if c = 0 then star (H i f) else -1

open Classical in
/-- `projection_back(Y, X[:, :, 0])` (`bss/common.py` 70-75). -/
noncomputable def scale (X Y : Fin T → Fin F → Fin 2 → ℂ) (f : Fin F) (i : Fin 2) : ℂ :=
  if 0 < ∑ t, ‖Y t f i‖ ^ 2 then (∑ t, star (X t f 0) * Y t f i) / ((∑ t, ‖Y t f i‖ ^ 2 : ℝ) : ℂ) else 1

/-- `sparseauxiva` (31-189), with the filters; `k ≤ F` for different bins. -/
noncomputable def sparseauxiva (X : Fin T → Fin F → Fin 2 → ℂ) (S : Fin k → Fin F) (nIter : ℕ) (projBack : Bool) (W0 : Option (Fin F → Matrix (Fin 2) (Fin 2) ℂ)) (kind : Kind) :
    Option ((Fin T → Fin F → Fin 2 → ℂ) × (Fin F → Matrix (Fin 2) (Fin 2) ℂ)) :=
  (iterate kind X S nIter (init T W0)).bind fun st =>
    (hrtf S st.W 0).bind fun h0 => (hrtf S st.W 1).map fun h1 =>
      let st := demix X (fun f : Fin F => f) k { st with W := assemble ![h0, h1] }
      (if projBack then fun t f i => st.Y t f i * star (scale X st.Y f i) else st.Y, st.W)

end Verif.SparseIva
