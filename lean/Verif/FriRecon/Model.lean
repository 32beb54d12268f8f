import Verif.FriOpt.Model

/-!
# The amplitudes and the update of FRIDA (`doa/tools_fri_doa_plane.py` 429-432, 494-548, 1724-1906)

Signals of the type `"visibility"` with `Q` microphones and `B` subbands; `px b q` and `py b q` are the normalised coordinates (1807-1812). The reconstruction of the directions from the matrices is a
parameter (it is random, hence it depends on the number of the turn); its result has `K` entries, as `np.roots` has for a filter that does not begin with zero. `none` is an exception.
-/

namespace Verif.FriRecon

open Matrix FriOpt

variable {Q B K M : ℕ}

/-- The rows of the measurements: real and imaginary parts for the pairs of microphones. -/
abbrev Row (Q : ℕ) := Fin (Q * (Q - 1)) ⊕ Fin (Q * (Q - 1))

/-- `build_mtx_amp_ri` (429-432). -/
noncomputable def ampRi (px py : Fin Q → ℝ) (psi : Fin K → ℝ) : Matrix (Row Q) (Fin K) ℝ :=
  .of fun r k =>
    match r with
    | .inl i => ((Frida.buildMtxAmp psi px py).getD i 0 k).re
    | .inr i => ((Frida.buildMtxAmp psi px py).getD i 0 k).im

/-- `mtx_amp2freq_ri` (515-518). -/
noncomputable def amp2freq (M : ℕ) (psi : Fin K → ℝ) : Matrix (Seq M) (Fin K) ℝ :=
  .of fun r k =>
    match r with
    | .inl i => (Complex.exp (-Complex.I * ((((i : ℕ) : ℝ) - M) * psi k : ℝ))).re
    | .inr i => (Complex.exp (-Complex.I * ((((i : ℕ) : ℝ) - M) * psi k : ℝ))).im

/-- `mtx_updated_G_multiband_new` (494-548); `pinv A` is `linalg.lstsq(A, np.eye(L))[0]`. The linear system is the same in all subbands. -/
noncomputable def updatedG (pinv : Matrix (Seq M) (Fin K) ℝ → Matrix (Fin K) (Seq M) ℝ) (px py : Fin B → Fin Q → ℝ) (psi : Fin K → ℝ) (G0 : Fin B → Matrix (Row Q) (Seq M) ℝ) :
    Option (Fin B → Matrix (Row Q) (Seq M) ℝ) := do
  let F := pinv (amp2freq M psi)
  let s ← solve (F * Fᵀ) F
  return fun b => ampRi (px b) (py b) psi * F + G0 b - G0 b * Fᵀ * s

/-- `min_error`, `phik_opt` and `alphak_opt` (1892-1895); the column-major reshape gives one column for every subband. -/
structure Result (B K : ℕ) where
  /-- `min_error`. -/
  err : ℝ
  /-- `phik_opt`. -/
  psi : Fin K → ℝ
  /-- The columns of `alphak_opt`. -/
  alpha : Fin B → Fin K → ℝ

/-- The amplitudes and the error for given directions (1852-1872). -/
noncomputable def fit (nnls : Matrix (Fin K) (Fin K) ℝ → (Fin K → ℝ) → Fin K → ℝ) (px py : Fin B → Fin Q → ℝ) (a : Fin B → Row Q → ℝ) (psi : Fin K → ℝ) : Result B K :=
  let alpha := fun b => nnls ((ampRi (px b) (py b) psi)ᵀ * ampRi (px b) (py b) psi) ((ampRi (px b) (py b) psi)ᵀ *ᵥ a b)
  ⟨∑ b, Real.sqrt (∑ r, (a b r - (ampRi (px b) (py b) psi *ᵥ alpha b) r) ^ 2), psi, alpha⟩

open Classical in
/-- `if error_loop < min_error` (1892-1895). -/
noncomputable def better (best : Option (Result B K)) (r : Result B K) : Result B K :=
  match best with
  | none => r
  | some b => if r.err < b.err then r else b

/-- The matrices for the next turn (1898-1902). -/
noncomputable def nextG (pinv : Matrix (Seq M) (Fin K) ℝ → Matrix (Fin K) (Seq M) ℝ) (updateG : Bool) (px py : Fin B → Fin Q → ℝ) (psi : Fin K → ℝ) (G : Fin B → Matrix (Row Q) (Seq M) ℝ) :
    Option (Fin B → Matrix (Row Q) (Seq M) ℝ) := if updateG then updatedG pinv px py psi G else some G

/-- The loop (1826-1902). The exception of `make_GtG_and_inv` belongs to the next reconstruction. -/
noncomputable def loop (nnls : Matrix (Fin K) (Fin K) ℝ → (Fin K → ℝ) → Fin K → ℝ) (pinv : Matrix (Seq M) (Fin K) ℝ → Matrix (Fin K) (Seq M) ℝ)
    (recon : ℕ → (Fin B → Matrix (Row Q) (Seq M) ℝ) → Option (Fin K → ℝ)) (updateG : Bool) (px py : Fin B → Fin Q → ℝ) (a : Fin B → Row Q → ℝ) :
    ℕ → ℕ → (Fin B → Matrix (Row Q) (Seq M) ℝ) → Option (Result B K) → Option (Option (Result B K))
  | 0, _, _, best => some best
  | n + 1, i, G, best => do
    let psi ← recon i G
    let r := better best (fit nnls px py a psi)
    let G' ← nextG pinv updateG px py r.psi G
    loop nnls pinv recon updateG px py a n (i + 1) G' (some r)

/-- `pt_src_recon_multiband` (1724-1906). Without any turn (`G_iter` zero) the directions are zeros. -/
noncomputable def ptSrcRecon (nnls : Matrix (Fin K) (Fin K) ℝ → (Fin K → ℝ) → Fin K → ℝ) (pinv : Matrix (Seq M) (Fin K) ℝ → Matrix (Fin K) (Seq M) ℝ)
    (recon : ℕ → (Fin B → Matrix (Row Q) (Seq M) ℝ) → Option (Fin K → ℝ)) (updateG : Bool) (gIter : Option ℕ) (px py : Fin B → Fin Q → ℝ) (a : Fin B → Row Q → ℝ)
    (G : Fin B → Matrix (Row Q) (Seq M) ℝ) : Option ((Fin K → ℝ) × Option (Fin B → Fin K → ℝ)) :=
  if K ≤ M ∧ 2 * M + 1 ≤ Q * (Q - 1) then
    (loop nnls pinv recon updateG px py a (if updateG then gIter.getD 2 else 1) 0 G none).map fun best =>
      match best with
      | none => (fun _ => Frida.toDoa 0, none)
      | some r => (fun k => Frida.toDoa (r.psi k), some r.alpha)
  else none

end Verif.FriRecon
