import Verif.FriAlg.Model
import Mathlib.LinearAlgebra.Matrix.NonsingularInverse
import Mathlib.LinearAlgebra.Matrix.RowCol
import Mathlib.Analysis.SpecialFunctions.Pow.Real

/-!
# The optimisation of FRIDA (`doa/tools_fri_doa_plane.py` 835-960, 1099-1123, 1154-1249, 1710-1721)

`none` is an exception. The random initial filters are given as a list; a loop over the subbands is a loop over a list.
-/

namespace Verif.FriOpt

open Matrix FriAlg

/-- The indices of the half of a sequence: `M + 1` real and `M` imaginary parts. -/
abbrev Seq (M : ℕ) := Fin (M + 1) ⊕ Fin (M + 1 - 1)

/-- The indices of the half of a filter, `sz_coef = K + 1` numbers (898). -/
abbrev Fil (K : ℕ) := Fin (K / 2 + 1) ⊕ Fin ((K + 1) / 2)

/-- The indices of the half of the output (874). -/
abbrev Out (M K : ℕ) := Fin ((2 * (M + 1) - 1 - K + 1) / 2) ⊕ Fin ((2 * (M + 1) - 1 - K) / 2)

/-- One subband: `G_lst[loop]` and `a_ri[:, loop]`. -/
structure Band (μ : Type*) (M : ℕ) where
  /-- From the sequence to the measurements. -/
  G : Matrix μ (Seq M) ℝ
  /-- The measurements. -/
  a : μ → ℝ

variable {μ : Type*} [Fintype μ] {M K : ℕ}

/-- `GtG` (1716). -/
def Band.gtg (x : Band μ M) : Matrix (Seq M) (Seq M) ℝ := x.Gᵀ * x.G

/-- `GtG_inv` (1719), where `linalg.inv` does not raise. -/
noncomputable def Band.gi (x : Band μ M) : Matrix (Seq M) (Seq M) ℝ := x.gtg⁻¹

/-- `beta_ri_loop` (886-889). -/
noncomputable def Band.beta (x : Band μ M) : Seq M → ℝ := x.gi *ᵥ (x.Gᵀ *ᵥ x.a)

/-- `Tbeta_ri_lst` (894-896). -/
noncomputable def Band.tb (K : ℕ) (x : Band μ M) : Matrix (Out M K) (Fil K) ℝ := tmtxHalf M K x.beta

open Classical in
/-- `linalg.solve`: `LinAlgError` for a singular matrix. -/
noncomputable def solve {n m : Type*} [Fintype n] [DecidableEq n] (A : Matrix n n ℝ) (B : Matrix n m ℝ) : Option (Matrix n m ℝ) :=
  if A.det = 0 then none else some (A⁻¹ * B)

/-- One turn of the loop over the subbands (1117-1122, 1163-1178). -/
noncomputable def addObj (R : Matrix (Out M K) (Seq M) ℝ) (m : Matrix (Fil K) (Fil K) ℝ) (x : Band μ M) : Option (Matrix (Fil K) (Fil K) ℝ) := do
  let s ← solve (R * (x.gi * Rᵀ)) (x.tb K)
  return m + (x.tb K)ᵀ * s

/-- `lu_compute_mtx_obj_initial` (1099-1123). -/
noncomputable def mtxObj (bands : List (Band μ M)) (R : Matrix (Out M K) (Seq M) ℝ) : Option (Matrix (Fil K) (Fil K) ℝ) := bands.foldlM (addObj R) 0

/-- `compute_obj_val` (1154-1182): its matrix is the one of `lu_compute_mtx_obj_initial`. -/
noncomputable def objVal (bands : List (Band μ M)) (R : Matrix (Out M K) (Seq M) ℝ) (c : Fil K → ℝ) : Option (ℝ × Matrix (Fil K) (Fil K) ℝ) := do
  let m ← mtxObj bands R
  return (Real.sqrt (c ⬝ᵥ (m *ᵥ c)), m)

/-- The solution of the linear system with the constraint (899, 907-919, 927). -/
noncomputable def kkt (m : Matrix (Fil K) (Fil K) ℝ) (c0 : Fil K → ℝ) : Option (Fil K → ℝ) :=
  (solve (fromBlocks m (replicateCol Unit c0) (replicateRow Unit c0) 0) (replicateCol Unit (Sum.elim 0 1))).map fun s i => s (.inl i) ()

/-- `min_error`, the half of `c_opt` and `Rmtx_opt` (939-945). -/
structure Best (M K : ℕ) where
  /-- `min_error`. -/
  err : ℝ
  /-- `c_ri_half` at the minimum. -/
  c : Fil K → ℝ
  /-- `Rmtx_opt`. -/
  R : Matrix (Out M K) (Seq M) ℝ

open Classical in
/-- `if error_loop < min_error` (939-945), where `none` is the infinite error without a filter. -/
noncomputable def update (best : Option (Best M K)) (b : Best M K) : Option (Best M K) :=
  match best with
  | none => some b
  | some b' => if b.err < b'.err then some b else some b'

/-- The inner loop (920-945): only the first `linalg.solve` is in the `try`. -/
noncomputable def inner (bands : List (Band μ M)) (c0 : Fil K → ℝ) : ℕ → Matrix (Fil K) (Fil K) ℝ → Option (Best M K) → Option (Option (Best M K))
  | 0, _, best => some best
  | n + 1, m, best =>
    match kkt m c0 with
    | none => some best
    | some c => do
      let (e, m') ← objVal bands (rmtxHalf M K c) c
      inner bands c0 n m' (update best ⟨e, c, rmtxHalf M K c⟩)

/-- One turn of the outer loop (902-945). -/
noncomputable def outer (bands : List (Band μ M)) (maxIter : ℕ) (best : Option (Best M K)) (c0 : Fil K → ℝ) : Option (Option (Best M K)) := do
  let m ← mtxObj bands (rmtxHalf M K c0)
  inner bands c0 maxIter m best

/-- `b_loop` of `compute_b` (1213-1224) with `use_lu`. `lu_solve` does not raise for a singular matrix; here the matrix is the one `compute_obj_val` has solved already. -/
noncomputable def computeB (R : Matrix (Out M K) (Seq M) ℝ) (x : Band μ M) : Option (Seq M → ℝ) := do
  let s ← solve (R * (x.gi * Rᵀ)) (replicateCol Unit (R *ᵥ x.beta))
  return x.beta - x.gi *ᵥ (Rᵀ *ᵥ fun i => s i ())

open Classical in
/-- `make_GtG_and_inv` (1710-1721) and `dirac_recon_ri_half_multiband_lu` (835-960). Without any successful turn `Rmtx_opt` is not bound. -/
noncomputable def run (K : ℕ) (bands : List (Band μ M)) (maxIter : ℕ) (inits : List (Fil K → ℝ)) :
    Option ((Fin (K + 1) → ℂ) × ℝ × List (Fin (2 * (M + 1) - 1) → ℂ)) := do
  if ∃ x ∈ bands, x.gtg.det = 0 then none else
  let best ← inits.foldlM (outer bands maxIter) none
  let best ← best
  let b ← bands.mapM (computeB best.R)
  return (toC (coefD K *ᵥ best.c), best.err, b.map fun b => toC (hermD (M + 1) *ᵥ b))

end Verif.FriOpt
