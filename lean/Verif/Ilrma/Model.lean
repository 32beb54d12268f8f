import Verif.AuxIva.Model

/-!
# Model of independent low-rank matrix analysis

`pyroomacoustics/bss/ilrma.py` (32-191), with `K` sources and as many channels, `F` frequencies, `T` frames and `B` components. The value `none` stands for `LinAlgError` or a division by zero. The
array `R` is left out, as it is never read except to compute `iR` (143, 153) right after it was written. The random initial values are parameters. Numbers without rounding.
-/

namespace Verif.Ilrma

open Matrix Verif.AuxIva

variable {K F T B : Nat}

/-- Variables of the loop (ilrma.py:86-119). -/
structure State (K F T B : Nat) where
  W : Fin F → Matrix (Fin K) (Fin K) ℂ
  basis : Fin K → Fin F → Fin B → ℝ
  act : Fin K → Fin T → Fin B → ℝ
  P : Fin K → Fin F → Fin T → ℝ
  iR : Fin K → Fin F → Fin T → ℝ

/-- `demix` (ilrma.py:112-113). -/
noncomputable def demix (X : Fin F → Fin K → Fin T → ℂ) (W : Fin F → Matrix (Fin K) (Fin K) ℂ) (f : Fin F) (s : Fin K) (t : Fin T) : ℂ := ∑ c, W f s c * X f c t

/-- Product of basis and activations of one source (ilrma.py:109, 141, 151). -/
def product {α τ : Type} (A : α → Fin B → ℝ) (V : τ → Fin B → ℝ) (f : α) (t : τ) : ℝ := ∑ b, A f b * V t b

/-- Initial values (ilrma.py:86-119), from the random arrays. -/
noncomputable def init (X : Fin F → Fin K → Fin T → ℂ) (W0 : Option (Fin F → Matrix (Fin K) (Fin K) ℂ)) (basis : Fin K → Fin F → Fin B → ℝ) (act : Fin K → Fin T → Fin B → ℝ) : State K F T B :=
  let W := W0.getD fun _ => 1
  { W := W, basis := basis, act := act, P := fun s f t => ‖demix X W f s t‖ ^ 2, iR := fun s f t => 1 / product (basis s) (act s) f t }

/-- Denominator of the multiplicative update (ilrma.py:137, 147). -/
def weight {α τ : Type} [Fintype τ] (iR : α → τ → ℝ) (V : τ → Fin B → ℝ) (f : α) (b : Fin B) : ℝ := ∑ t, iR f t * V t b

/-- Multiplicative update (ilrma.py:135-138, 145-148; for the activations with the transposed arrays). -/
noncomputable def mult {α τ : Type} [Fintype τ] (P iR : α → τ → ℝ) (A : α → Fin B → ℝ) (V : τ → Fin B → ℝ) (f : α) (b : Fin B) : ℝ :=
  A f b * Real.sqrt ((∑ t, P f t * iR f t ^ 2 * V t b) / weight iR V f b)

/-- `T[T < eps] = eps` (ilrma.py:139, 142, 149, 152). -/
noncomputable def floor (x : ℝ) : ℝ := if x < eps then eps else x

/-- Update of the basis of one source (ilrma.py:135-143). -/
noncomputable def stepBasis (st : State K F T B) (s : Fin K) : State K F T B :=
  let basis : Fin K → Fin F → Fin B → ℝ := fun k f b => floor (if k = s then mult (st.P s) (st.iR s) (st.basis s) (st.act s) f b else st.basis k f b)
  { st with basis := basis, iR := Function.update st.iR s fun f t => 1 / floor (product (basis s) (st.act s) f t) }

/-- Update of the activations of one source (ilrma.py:145-153). -/
noncomputable def stepAct (st : State K F T B) (s : Fin K) : State K F T B :=
  let act : Fin K → Fin T → Fin B → ℝ := fun k t b => floor (if k = s then mult (fun t f => st.P s f t) (fun t f => st.iR s f t) (st.act s) (st.basis s) t b else st.act k t b)
  { st with act := act, iR := Function.update st.iR s fun f t => 1 / floor (product (st.basis s) (act s) f t) }

/-- `C` at one frequency (ilrma.py:160). -/
noncomputable def gram (x : Fin K → Fin T → ℂ) (v : Fin T → ℝ) : Matrix (Fin K) (Fin K) ℂ := .of fun i j => (∑ t, x i t * (v t : ℂ) * star (x j t)) / (T : ℂ)

/-- Update of the demixing matrices for one source (ilrma.py:158-169; the same as auxiva.py:230-237). -/
noncomputable def stepRow (X : Fin F → Fin K → Fin T → ℂ) (st : State K F T B) (s : Fin K) : Option (State K F T B) :=
  (gather fun f => row (st.W f) (gram (X f) (st.iR s f)) s).map fun w => { st with W := fun f => (st.W f).updateRow s (w f) }

open Classical in
/-- The update for one source (ilrma.py:131-169). -/
noncomputable def source (X : Fin F → Fin K → Fin T → ℂ) (st : State K F T B) (s : Fin K) : Option (State K F T B) :=
  if ∃ f b, weight (st.iR s) (st.act s) f b = 0 then none
  else
    let st1 := stepBasis st s
    if ∃ t b, weight (fun t f => st1.iR s f t) (st1.basis s) t b = 0 then none else stepRow X (stepAct st1 s) s

/-- `lambda_aux` (ilrma.py:175). -/
noncomputable def level (P : Fin F → Fin T → ℝ) : ℝ := 1 / Real.sqrt ((∑ f, ∑ t, P f t) / (F * T))

open Classical in
/-- Scaling at the end of an iteration (ilrma.py:174-180); `W[:, :, s]` is the column `s` of every matrix. -/
noncomputable def scale (st : State K F T B) : Option (State K F T B) :=
  if ∃ s, ∑ f, ∑ t, st.P s f t = 0 then none
  else some { st with
    W := fun f => .of fun k s => st.W f k s * (level (st.P s) : ℂ)
    P := fun s f t => st.P s f t * level (st.P s) ^ 2
    basis := fun s f b => st.basis s f b * level (st.P s) ^ 2 }

/-- The sources of one iteration, and the new signals (ilrma.py:130-172). -/
noncomputable def pass (X : Fin F → Fin K → Fin T → ℂ) (st : State K F T B) : Option (State K F T B) :=
  ((List.finRange K).foldlM (source X) st).map fun st' => { st' with P := fun s f t => ‖demix X st'.W f s t‖ ^ 2 }

/-- One iteration (ilrma.py:121-180): the state and the signals `Y`. -/
noncomputable def epoch (X : Fin F → Fin K → Fin T → ℂ) (st : State K F T B) : Option (State K F T B × (Fin F → Fin K → Fin T → ℂ)) :=
  (pass X st).bind fun st' => (scale st').map fun st'' => (st'', demix X st'.W)

end Verif.Ilrma
