import Verif.Py
import Mathlib.Analysis.Complex.Order
import Mathlib.Analysis.SpecialFunctions.Pow.Complex
import Mathlib.LinearAlgebra.Matrix.NonsingularInverse
import Mathlib.Data.Matrix.ColumnRowPartitioned

/-!
# Model of independent vector analysis

`pyroomacoustics/bss/auxiva.py` (77-255). There are `K` sources, `K + L` channels, `F` frequencies and `T` frames; the channels are `Fin K ⊕ Fin L`, as the code cuts them in two. The value `none`
stands for `LinAlgError` (a singular matrix) or a division by zero. Numbers without rounding. The callback and the data types are left out; with no frequency or no frame numpy yields
values that are no numbers, which is not modelled.
-/

namespace Verif.AuxIva

open Matrix Verif.Py

/-- Channels (auxiva.py:133-141). -/
abbrev Chan (K L : Nat) := Fin K ⊕ Fin L

variable {K L F T : Nat}

/-- One value for every frequency, or an exception as soon as one of them has none. -/
def gather {α : Type} (g : Fin F → Option α) : Option (Fin F → α) := if h : ∀ f, (g f).isSome then some fun f => (g f).get (h f) else none

/-- `Cx` at one frequency (auxiva.py:147). -/
noncomputable def cov (x : Chan K L → Fin T → ℂ) : Matrix (Chan K L) (Chan K L) ℂ := .of fun i j => (∑ t, x i t * star (x j t)) / (T : ℂ)

/-- `W_hat` at one frequency (auxiva.py:149-151, 179-182). -/
def hat (W : Matrix (Fin K) (Chan K L) ℂ) (J : Matrix (Fin L) (Fin K) ℂ) : Matrix (Chan K L) (Chan K L) ℂ := fromRows W (fromCols J (-1))

open Classical in
/-- `update_J_from_orth_const` at one frequency (auxiva.py:153-158). -/
noncomputable def orth (C : Matrix (Chan K L) (Chan K L) ℂ) (W : Matrix (Fin K) (Chan K L) ℂ) : Option (Matrix (Fin L) (Fin K) ℂ) :=
  let tmp := W * C
  if IsUnit tmp.toCols₁.det then some (tmp.toCols₁⁻¹ * tmp.toCols₂)ᴴ else none

/-- `W` and `J`. -/
structure State (K L F : Nat) where
  W : Fin F → Matrix (Fin K) (Chan K L) ℂ
  J : Fin F → Matrix (Fin L) (Fin K) ℂ

/-- `update_J_from_orth_const`, which is called only if there are more channels than sources (auxiva.py:179-180, 240-241). -/
noncomputable def updateJ (X : Fin F → Chan K L → Fin T → ℂ) (st : State K L F) : Option (State K L F) :=
  if L = 0 then some st else (gather fun f => orth (cov (X f)) (st.W f)).map fun J => { st with J := J }

/-- `demix` (auxiva.py:196-197). -/
noncomputable def demix (X : Fin F → Chan K L → Fin T → ℂ) (W : Fin F → Matrix (Fin K) (Chan K L) ℂ) (f : Fin F) (s : Fin K) (t : Fin T) : ℂ := ∑ c, W f s c * X f c t

/-- Models of the sources (auxiva.py:143-144). -/
inductive Kind
  | laplace
  | gauss

/-- Auxiliary constant (auxiva.py:184). -/
noncomputable def eps : ℝ := 1 / 10 ^ 15

/-- `r` (auxiva.py:210-217). -/
noncomputable def radius (kind : Kind) (Y : Fin F → Fin K → Fin T → ℂ) (s : Fin K) (t : Fin T) : ℝ :=
  let norm := Real.sqrt (∑ f, ‖Y f s t‖ ^ 2)
  let r := match kind with
    | .laplace => 2 * norm
    | .gauss => norm ^ 2 / F
  if r < eps then eps else r

/-- `V` at one frequency (auxiva.py:219-228). -/
noncomputable def weighted {ι : Type} (x : ι → Fin T → ℂ) (r : Fin T → ℝ) : Matrix ι ι ℂ := .of fun i j => (∑ t, x i t * ((1 / r t : ℝ) : ℂ) * star (x j t)) / (T : ℂ)

open Classical in
/-- The new row of the demixing matrix at one frequency (auxiva.py:230-237). -/
noncomputable def row {ι : Type} [Fintype ι] [DecidableEq ι] (A V : Matrix ι ι ℂ) (s : ι) : Option (ι → ℂ) :=
  if IsUnit (A * V).det then
    let w : ι → ℂ := star ((A * V)⁻¹ *ᵥ Pi.single s 1)
    let denom := w ⬝ᵥ V *ᵥ star w
    if denom = 0 then none else some fun c => w c / denom ^ (1 / 2 : ℂ)
  else none

/-- The update for one source (auxiva.py:222-241). -/
noncomputable def source (X : Fin F → Chan K L → Fin T → ℂ) (r : Fin K → Fin T → ℝ) (st : State K L F) (s : Fin K) : Option (State K L F) :=
  (gather fun f => row (hat (st.W f) (st.J f)) (weighted (X f) (r s)) (.inl s)).bind fun w => updateJ X { st with W := fun f => (st.W f).updateRow s (w f) }

/-- One iteration (auxiva.py:199-241). -/
noncomputable def epoch (kind : Kind) (X : Fin F → Chan K L → Fin T → ℂ) (st : State K L F) : Option (State K L F) :=
  (List.finRange K).foldlM (source X (radius kind (demix X st.W))) st

/-- Initial values (auxiva.py:160-182), without `init_eig`. -/
noncomputable def init (X : Fin F → Chan K L → Fin T → ℂ) (W0 : Option (Fin F → Matrix (Fin K) (Chan K L) ℂ)) : Option (State K L F) :=
  updateJ X { W := W0.getD fun _ => fromCols 1 0, J := fun _ => 0 }

/-- `auxiva` up to the projection (auxiva.py:133-243). -/
noncomputable def iterate (kind : Kind) (X : Fin F → Chan K L → Fin T → ℂ) (W0 : Option (Fin F → Matrix (Fin K) (Chan K L) ℂ)) : Nat → Option (State K L F)
  | 0 => init X W0
  | n + 1 => (iterate kind X W0 n).bind (epoch kind X)

end Verif.AuxIva
