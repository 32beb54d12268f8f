import Verif.Music.Model
import Mathlib.Analysis.SpecialFunctions.Trigonometric.Basic
import Mathlib.LinearAlgebra.Matrix.ConjTranspose

/-!
# The measurements of FRIDA (`doa/frida.py` 204-289, `doa/tools_fri_doa_plane.py` 15-70, 404-426)

One band at a time: `y q n` is the microphone `q` in the frame `n`. `none` stands for values that are not numbers (the mean over no frames).
-/

namespace Verif.Frida

open Matrix ComplexConjugate

variable {M N K : ℕ}

/-- `np.var(X[:, fn, :], axis=0)` (`frida.py` 211). -/
noncomputable def var (y : Fin M → Fin N → ℂ) (n : Fin N) : ℝ := (∑ q, ‖y q n - (∑ p, y p n) / (M : ℂ)‖ ^ 2) / M

open Classical in
/-- The frames `I` (`frida.py` 211-212); `threshold` is the noise floor times the margin. -/
noncomputable def frames (threshold : ℝ) (y : Fin M → Fin N → ℂ) : List (Fin N) := (List.finRange N).filter fun n => decide (threshold < var y n)

/-- `cov_mtx_est` (`tools_fri_doa_plane.py` 31-52) of some frames. -/
noncomputable def covMtxEst (y : Fin M → Fin N → ℂ) : List (Fin N) → Option (Matrix (Fin M) (Fin M) ℂ)
  | [] => none
  | n :: I => some (.of fun q p => ((n :: I).map fun n => conj (y q n) * y p n).sum / ((n :: I).length : ℂ))

/-- The cleaned matrix (`frida.py` 217-223) from the eigenvalues and eigenvectors. -/
noncomputable def clean (k : ℕ) (w : Fin M → ℝ) (V : Fin M → Fin M → ℂ) : Matrix (Fin M) (Fin M) ℂ :=
  .of fun r c => ∑ i ∈ Music.signal M k, V r i * ((|w i| - ⨅ j, |w j| : ℝ) : ℂ) * conj (V c i)

/-- `ravel` in the row-major order. -/
def ravel {α : Type*} (A : Matrix (Fin M) (Fin M) α) : List α := (List.finRange M).flatMap fun i => (List.finRange M).map fun j => A i j

/-- `np.extract(cond, arr)`: the entries of `arr` for which the condition is true, in the row-major order. -/
def extract {α : Type*} (cond : List Bool) (A : Matrix (Fin M) (Fin M) α) : List α := (cond.zip (ravel A)).filterMap fun p => if p.1 then some p.2 else none

/-- `(1 - np.eye(n)).astype(bool)` flattened; the reshape of the transpose in the column-major order gives the same (`tools_fri_doa_plane.py` 67-69, 421). -/
def offCond (M : ℕ) : List Bool := ravel (M := M) (.of fun i j => decide (i ≠ j))

/-- `extract_off_diag` (`tools_fri_doa_plane.py` 55-70). -/
def extractOffDiag {α : Type*} (A : Matrix (Fin M) (Fin M) α) : List α := extract (offCond M) Aᵀ

/-- `_visibilities` for one band (`frida.py` 206-229); `eigh` gives the eigenvalues and eigenvectors if the matrix is to be cleaned. -/
noncomputable def visibilities (threshold : ℝ) (cleaning : Option (ℕ × (Matrix (Fin M) (Fin M) ℂ → (Fin M → ℝ) × (Fin M → Fin M → ℂ)))) (y : Fin M → Fin N → ℂ) : Option (List ℂ) :=
  (covMtxEst y (frames threshold y)).map fun R =>
    match cleaning with
    | none => extractOffDiag R
    | some (k, eigh) => extractOffDiag (clean k (eigh R).1 (eigh R).2)

/-- `build_mtx_amp` (`tools_fri_doa_plane.py` 404-426): the rows. -/
noncomputable def buildMtxAmp (phi : Fin K → ℝ) (px py : Fin M → ℝ) : List (Fin K → ℂ) :=
  ((extract (offCond M) (.of fun q p => px q - px p)).zip (extract (offCond M) (.of fun q p => py q - py p))).map fun b =>
    fun k => Complex.exp (-Complex.I * ((Real.cos (phi k) * b.1 + Real.sin (phi k) * b.2 : ℝ) : ℂ))

/-- A pass of the loops over the microphones (`frida.py` 258-271) for the azimuth `theta`: the state is the value of the image and the number of visibilities that were used. -/
noncomputable def imageStep (visi : List ℂ) (px py : Fin M → ℝ) (theta : ℝ) (st : ℂ × ℕ) (p : Fin M × Fin M) : Option (ℂ × ℕ) :=
  if p.1 = p.2 then some st
  else visi[st.2]?.map fun v => (st.1 + v * Complex.exp (-Complex.I * (((px p.1 - px p.2) * Real.cos theta + (py p.1 - py p.2) * Real.sin theta : ℝ) : ℂ)), st.2 + 1)

/-- The loops over the microphones (`frida.py` 257-271). -/
noncomputable def imageBand (px py : Fin M → ℝ) (theta c : ℝ) (img : ℂ) (band : ℝ × List ℂ) : Option ℂ :=
  ((ravel (M := M) (.of fun q p => (q, p))).foldlM (imageStep band.2 (fun q => px q / (c / band.1)) (fun q => py q / (c / band.1)) theta) (img, 0)).map Prod.fst

/-- `_gen_dirty_img` (`frida.py` 233-286) at the azimuth `theta`; the bands are the angular frequencies with the visibilities. -/
noncomputable def dirtyImage (px py : Fin M → ℝ) (c : ℝ) (bands : List (ℝ × List ℂ)) (theta : ℝ) : Option ℂ :=
  if M * (M - 1) = 0 then none
  else (bands.foldlM (imageBand px py theta c) 0).map fun img => img / ((M : ℂ) * ((M : ℂ) - 1))

/-- The conversion of the last step (`tools_fri_doa_plane.py` 1905): `np.mod(phi - np.pi, 2 * np.pi)`. -/
noncomputable def toDoa (phi : ℝ) : ℝ := (phi - Real.pi) - 2 * Real.pi * ⌊(phi - Real.pi) / (2 * Real.pi)⌋

end Verif.Frida
