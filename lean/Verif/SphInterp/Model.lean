import Verif.Py
import Verif.DFT
import Verif.RegGrid.Model
import Mathlib.Data.Matrix.Mul
import Mathlib.LinearAlgebra.Matrix.Notation

/-!
# Interpolation in the domain of spherical harmonics (`directivities/interp.py` 36-242)

scipy's complex spherical harmonics `Y n m colatitude azimuth`, `np.linalg.pinv(., rcond=1e-2)` and the areas of `SphericalVoronoi` are parameters. The impulse responses are an
array with two axes, the measurements and the time; the code moves the axis of the measurements there and back (184, 239-240) and works on each slice alike.
-/

namespace Verif.SphInterp

open Verif.Py

/-- What is used of `GridSphere`: the angles of its points. -/
structure Grid where
  n : ℕ
  azimuth : Fin n → ℝ
  colatitude : Fin n → ℝ

/-- The lists `ns` and `ms` (60-66). -/
def basisIdx (degree : ℕ) : List (ℤ × ℤ) :=
  (List.range (degree + 1)).flatMap fun (i : ℕ) => (List.range (2 * i + 1)).map fun (k : ℕ) => ((i : ℤ), (k : ℤ) - (i : ℤ))

/-- `cal_sph_basis` (36-75). -/
def basis (Y : ℤ → ℤ → ℝ → ℝ → ℂ) (degree : ℕ) (g : Grid) : Matrix (Fin g.n) (Fin (basisIdx degree).length) ℂ :=
  fun i k => Y ((basisIdx degree)[k]).1 ((basisIdx degree)[k]).2 (g.colatitude i) (g.azimuth i)

/-- The boundaries `res` of the rings of cells (110-112). -/
noncomputable def bounds (C : List ℝ) : List ℝ := 0 :: (List.zipWith (fun (x y : ℝ) => (x + y) / 2) C C.tail ++ [Real.pi])

/-- The areas `w` of the cells (113). -/
noncomputable def areas (C : List ℝ) (nAz : ℕ) : List ℝ :=
  List.zipWith (fun (x y : ℝ) => -(Real.cos y - Real.cos x) * (2 * Real.pi / nAz)) (bounds C) (bounds C).tail

open Classical in
/-- Access to `w_dict` (114): the last entry for a key counts. -/
noncomputable def lookup (C w : List ℝ) (c : ℝ) : Option ℝ := ((List.zip C w).reverse.find? fun (p : ℝ × ℝ) => decide (p.1 = c)).map Prod.snd

open Classical in
/-- The weights of `calculation_pinv_voronoi_cells` (108-118). -/
noncomputable def regularWeights {n : ℕ} (colatitude : Fin n → ℝ) (C : List ℝ) (nAz : ℕ) : Except Err (Fin n → ℝ) :=
  if ∀ i, (lookup C (areas C nAz) (colatitude i)).isSome then
    .ok fun i => (lookup C (areas C nAz) (colatitude i)).getD 0 / (4 * Real.pi)
  else .error .keyError

/-- The weights of the two branches (207-220); `voronoi` are the areas of `SphericalVoronoi` (146-148). -/
noncomputable def weights (g : Grid) (voronoi : Fin g.n → ℝ) : Except Err (Fin g.n → ℝ) :=
  (RegGrid.detectRegularGrid (List.ofFn g.azimuth) (List.ofFn g.colatitude)).bind fun r =>
    match r with
    | some (A, C) => regularWeights g.colatitude C A.length
    | none => .ok fun i => voronoi i / (4 * Real.pi)

/-- `weights[:, None] * Y` (79-81). -/
def weighted {n K : ℕ} (w : Fin n → ℝ) (Ysh : Matrix (Fin n) (Fin K) ℂ) : Matrix (Fin n) (Fin K) ℂ := fun i k => (w i : ℂ) * Ysh i k

/-- Zero padding and truncation of `rfft(ir, n=nfft)`. -/
def sample {T : ℕ} (x : Fin T → ℝ) (t : ℕ) : ℝ := if h : t < T then x ⟨t, h⟩ else 0

/-- `gamma_full_scale` (225-229). -/
noncomputable def gamma {n K T : ℕ} (N : ℕ) (w : Fin n → ℝ) (X : Matrix (Fin K) (Fin n) ℂ) (ir : Fin n → Fin T → ℝ) (k : Fin K) (f : ℕ) : ℂ :=
  ∑ j, X k j * ((w j : ℂ) * DFT.rfft N (sample (ir j)) f)

/-- `irfft(matmul(Y, gamma_full_scale), n=nfft)` (231-236). -/
noncomputable def synth {n K : ℕ} (N : ℕ) (Ysh : Matrix (Fin n) (Fin K) ℂ) (c : Fin K → ℕ → ℂ) (i : Fin n) (t : Fin N) : ℝ :=
  DFT.irfft N (fun f => ∑ k, Ysh i k * c k f) t

/-- `spherical_interpolation` (157-242): responses on the target grid and on the original one. -/
noncomputable def sphericalInterpolation (Y : ℤ → ℤ → ℝ → ℝ → ℂ) (pinv : (n K : ℕ) → Matrix (Fin n) (Fin K) ℂ → Matrix (Fin K) (Fin n) ℂ)
    (g : Grid) (voronoi : Fin g.n → ℝ) {m T : ℕ} (irs : Fin m → Fin T → ℝ) (new : Grid) (degree : ℕ) (nfft : Option ℕ) :
    Except Err ((Fin new.n → Fin (nfft.getD T) → ℝ) × (Fin g.n → Fin (nfft.getD T) → ℝ)) :=
  if h : g.n = m then
    let Ysh := basis Y degree g
    let Ynew := basis Y degree new
    (weights g voronoi).bind fun w =>
      if nfft.getD T = 0 then .error .valueError
      else
        let c := gamma (nfft.getD T) w (pinv _ _ (weighted w Ysh)) fun i => irs (Fin.cast h i)
        .ok (synth _ Ynew c, synth _ Ysh c)
  else .error .valueError

end Verif.SphInterp
