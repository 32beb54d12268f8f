import Verif.Py
import Mathlib.Analysis.Complex.Basic
import Mathlib.Algebra.BigOperators.Fin

/-!
# `adaptive/subband_lms.py`: adaptive filters in the subbands

Exact complex numbers for `complex64`. Arrays of `num_taps` rows and `num_bands` columns are functions. The blocks given to `update` have one number per band.
-/

namespace Verif.Subband

open Verif.Py Finset

/-- The object (45-68). -/
structure Sub (T B : Nat) where
  W : Fin T → Fin B → ℂ
  X : Fin T → Fin B → ℂ
  D : Fin B → ℂ
  E : Fin B → ℂ

/-- `reset` (53-67). -/
def Sub.reset (T B : Nat) : Sub T B := ⟨fun _ _ => 0, fun _ _ => 0, fun _ => 0, fun _ => 0⟩

/-- `hermitian(A) @ A'`, an array of bands by bands (85, 91, 98-102). -/
def gram {T B : Nat} (A A' : Fin T → Fin B → ℂ) : Fin B → Fin B → ℂ := fun b c => ∑ i, (starRingEnd ℂ) (A i b) * A' i c

/-- `np.diag` of a square array. -/
def diag {B : Nat} (M : Fin B → Fin B → ℂ) : Fin B → ℂ := fun b => M b b

/-- The shift of the buffer and the new row (80-81). -/
def shift {T B : Nat} (X : Fin T → Fin B → ℂ) (x : Fin B → ℂ) : Fin T → Fin B → ℂ :=
  fun i b => if i.1 = 0 then x b else X ⟨i.1 - 1, by omega⟩ b

/-- `update` (69-95). Without taps there is no row to write. -/
noncomputable def Sub.update {T B : Nat} (mu : ℝ) (nlms : Bool) (s : Sub T B) (x d : Fin B → ℂ) : Except Err (Sub T B) :=
  if T = 0 then .error .indexError
  else
    let X := shift s.X x
    let E : Fin B → ℂ := fun b => d b - diag (gram s.W X) b
    let u : Fin T → Fin B → ℂ := fun i b => mu * (starRingEnd ℂ) (E b) * X i b
    let u : Fin T → Fin B → ℂ := if nlms then fun i b => u i b / (diag (gram X X) b + 1e-6) else u
    .ok ⟨fun i b => s.W i b + u i b, X, d, E⟩

/-- Blocks one after the other: the states after each of them. -/
noncomputable def Sub.run {T B : Nat} (mu : ℝ) (nlms : Bool) (s : Sub T B) : List ((Fin B → ℂ) × (Fin B → ℂ)) → Except Err (List (Sub T B))
  | [] => .ok []
  | p :: l => match s.update mu nlms p.1 p.2 with
    | .error e => .error e
    | .ok s' => (s'.run mu nlms l).map fun r => s' :: r

end Verif.Subband
