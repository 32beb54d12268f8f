import Verif.Frida.Model
import Mathlib.Data.Matrix.Block
import Mathlib.Data.Complex.Basic
import Mathlib.Algebra.Polynomial.Roots

/-!
# The matrices of the annihilating filter (`doa/tools_fri_doa_plane.py` 254-401, 1846-1848, 1904-1906)

`np.vstack` and `np.hstack` of the real and the imaginary parts are blocks; matrices with many parts are given by their entries, as functions of numbers.
-/

namespace Verif.FriAlg

open Matrix

/-- `np.eye` by its entries. -/
def eye (i j : ℕ) : ℝ := if i = j then 1 else 0

/-- `np.vstack((A, B))` with `h` rows in `A`. -/
def vstack (h : ℕ) (A B : ℕ → ℕ → ℝ) (i j : ℕ) : ℝ := if i < h then A i j else B (i - h) j

/-- `A[:, ::-1]` for `n` columns. -/
def revCols (n : ℕ) (A : ℕ → ℕ → ℝ) (i j : ℕ) : ℝ := A i (n - 1 - j)

/-- `A[1:, :]`. -/
def dropRow (A : ℕ → ℕ → ℝ) (i j : ℕ) : ℝ := A (i + 1) j

/-- The matrix with these entries. -/
def mtx (m n : ℕ) (A : ℕ → ℕ → ℝ) : Matrix (Fin m) (Fin n) ℝ := .of fun i j => A i j

/-- The entries of an array, zero outside. -/
def arr {n : ℕ} (v : Fin n → ℝ) (i : ℕ) : ℝ := if h : i < n then v ⟨i, h⟩ else 0

/-- `cpx_mtx2real` (254-265). -/
def cpxMtx2real {m n : ℕ} (A : Matrix (Fin m) (Fin n) ℂ) : Matrix (Fin m ⊕ Fin m) (Fin n ⊕ Fin n) ℝ :=
  fromBlocks (A.map Complex.re) (-A.map Complex.im) (A.map Complex.im) (A.map Complex.re)

/-- `D1` of `hermitian_expan` (268-283). -/
def herm1 (h : ℕ) : Matrix (Fin (2 * h - 1)) (Fin h) ℝ := mtx _ _ (vstack h eye (dropRow (revCols h eye)))

/-- `D2` of `hermitian_expan` (268-283), without the last column. -/
def herm2 (h : ℕ) : Matrix (Fin (2 * h - 1)) (Fin (h - 1)) ℝ := mtx _ _ (vstack h eye fun i j => -dropRow (revCols h eye) i j)

/-- `linalg.block_diag(D1, D2)` of `hermitian_expan(h)` (860-861). -/
def hermD (h : ℕ) : Matrix (Fin (2 * h - 1) ⊕ Fin (2 * h - 1)) (Fin h ⊕ Fin (h - 1)) ℝ := fromBlocks (herm1 h) 0 0 (herm2 h)

/-- `D1` of `coef_expan_mtx` (317-334). -/
def coef1 (K : ℕ) : Matrix (Fin (K + 1)) (Fin (K / 2 + 1)) ℝ :=
  if K % 2 = 0 then mtx _ _ (vstack (K / 2 + 1) eye (dropRow (revCols (K / 2 + 1) eye)))
  else mtx _ _ (vstack ((K + 1) / 2) eye (revCols ((K + 1) / 2) eye))

/-- `D2` of `coef_expan_mtx` (317-334), without the last column if `K` is even. -/
def coef2 (K : ℕ) : Matrix (Fin (K + 1)) (Fin ((K + 1) / 2)) ℝ :=
  if K % 2 = 0 then mtx _ _ (vstack (K / 2 + 1) eye fun i j => -dropRow (revCols (K / 2 + 1) eye) i j)
  else mtx _ _ (vstack ((K + 1) / 2) eye fun i j => -revCols ((K + 1) / 2) eye i j)

/-- `D_coef` (862-863). -/
def coefD (K : ℕ) : Matrix (Fin (K + 1) ⊕ Fin (K + 1)) (Fin (K / 2 + 1) ⊕ Fin ((K + 1) / 2)) ℝ := fromBlocks (coef1 K) 0 0 (coef2 K)

/-- `output_shrink` (286-314) for the length `o = L - K`: `(o + 1) / 2` real parts and `o / 2` imaginary parts. -/
def shrink (o : ℕ) : Matrix (Fin ((o + 1) / 2) ⊕ Fin (o / 2)) (Fin o ⊕ Fin o) ℝ :=
  fromBlocks (mtx _ _ fun i j => if j < (o + 1) / 2 then eye i j else 0) 0 0 (mtx _ _ fun i j => if j < o / 2 then eye i j else 0)

/-- `linalg.toeplitz(c, r)`. -/
def toeplitz (m n : ℕ) (c r : ℕ → ℝ) : Matrix (Fin m) (Fin n) ℝ := mtx _ _ fun i j => if j ≤ i then c (i - j) else r (j - i)

/-- `Tmtx_ri` (337-357) for `K < L`. -/
def tmtx {L : ℕ} {ι : Type*} [Fintype ι] (K : ℕ) (D : Matrix (Fin L ⊕ Fin L) ι ℝ) (b : ι → ℝ) : Matrix (Fin (L - K) ⊕ Fin (L - K)) (Fin (K + 1) ⊕ Fin (K + 1)) ℝ :=
  let b := D *ᵥ b
  let t := fun v : Fin L → ℝ => toeplitz (L - K) (K + 1) (fun i => arr v (K + i)) (fun i => arr v (K - i))
  fromBlocks (t fun i => b (.inl i)) (-t fun i => b (.inr i)) (t fun i => b (.inr i)) (t fun i => b (.inl i))

/-- `Rmtx_ri` (374-387) for `K < L`. -/
def rmtx {L : ℕ} {ι : Type*} (K : ℕ) (D : Matrix (Fin L ⊕ Fin L) ι ℝ) (c : Fin (K + 1) ⊕ Fin (K + 1) → ℝ) : Matrix (Fin (L - K) ⊕ Fin (L - K)) ι ℝ :=
  let t := fun v : Fin (K + 1) → ℝ => toeplitz (L - K) L (fun i => if i = 0 then arr v K else 0) (fun i => if i ≤ K then arr v (K - i) else 0)
  fromBlocks (t fun i => c (.inl i)) (-t fun i => c (.inr i)) (t fun i => c (.inr i)) (t fun i => c (.inl i)) * D

/-- `Tmtx_ri_half_out_half` (365-371). -/
def tmtxHalf (M K : ℕ) (b : Fin (M + 1) ⊕ Fin (M + 1 - 1) → ℝ) : Matrix (Fin ((2 * (M + 1) - 1 - K + 1) / 2) ⊕ Fin ((2 * (M + 1) - 1 - K) / 2)) (Fin (K / 2 + 1) ⊕ Fin ((K + 1) / 2)) ℝ :=
  shrink (2 * (M + 1) - 1 - K) * tmtx K (hermD (M + 1)) b * coefD K

/-- `Rmtx_ri_half_out_half` (395-401). -/
def rmtxHalf (M K : ℕ) (c : Fin (K / 2 + 1) ⊕ Fin ((K + 1) / 2) → ℝ) : Matrix (Fin ((2 * (M + 1) - 1 - K + 1) / 2) ⊕ Fin ((2 * (M + 1) - 1 - K) / 2)) (Fin (M + 1) ⊕ Fin (M + 1 - 1)) ℝ :=
  shrink (2 * (M + 1) - 1 - K) * rmtx K (hermD (M + 1)) (coefD K *ᵥ c)

/-- The complex filter (946): real and imaginary parts. -/
noncomputable def toC {n : ℕ} (v : Fin n ⊕ Fin n → ℝ) (i : Fin n) : ℂ := ⟨v (.inl i), v (.inr i)⟩

/-- The polynomial of `np.roots(c)`. -/
noncomputable def poly {K : ℕ} (c : Fin (K + 1) → ℂ) : Polynomial ℂ := ∑ l : Fin (K + 1), Polynomial.monomial (K - (l : ℕ)) (c l)

open Classical in
/-- From the filter to the azimuths (1846-1848, 1904-1906): the roots, normalised, the negative angles modulo a turn, and the conversion of the propagation directions. -/
noncomputable def azimuths {K : ℕ} (c : Fin (K + 1) → ℂ) : Multiset ℝ :=
  (poly c).roots.map fun u =>
    let t := -Complex.arg (u / (‖u‖ : ℂ))
    Frida.toDoa (t - 2 * Real.pi * ⌊t / (2 * Real.pi)⌋)

end Verif.FriAlg
