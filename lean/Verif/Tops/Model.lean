import Verif.Cssm.Model

/-!
# TOPS: test of orthogonality of projected subspaces

`pyroomacoustics/doa/tops.py`, `_process` (78-143). The steering vectors are those of `Verif.Srp`, the correlation matrices those of `Verif.Music`. The routines for eigenvectors and singular values are
parameters. Complex numbers without rounding (the arrays of the code are in single precision). `none` is infinity.
-/

namespace Verif.Tops

open Finset Complex Verif.Srp Verif.Py Verif.Music
open scoped ComplexConjugate

/-- The transformation (tops.py:107-125) at an entry `k` of the table, which has one entry for each bin of the transform. -/
noncomputable def phi (p : Finder) (f0 k : Nat) (m n : Nat) : ℂ := Complex.exp (I * (((p.omega k - p.omega f0) * p.tau m n : ℝ) : ℂ))

/-- Entry of a block of the matrix `D` (tops.py:136-141): the transformed signal space of the reference by the space of the noise of band number `k`. The table is indexed by the number of the band. -/
noncomputable def entry (p : Finder) (numSrc f0 : Nat) (V0 Vk : Fin p.M → Fin p.M → ℂ) (k n : Nat) (h : numSrc < p.M) (r : Fin numSrc) (c : Fin (p.M - numSrc)) : ℂ :=
  ∑ m : Fin p.M, conj (phi p f0 k m n * V0 m ⟨p.M - numSrc + r, by omega⟩) * Vk m ⟨c, by omega⟩

/-- `TOPS._process` (tops.py:78-143). The columns of `D` are numbered by the band and the column of its block; `least` is the last singular value. -/
noncomputable def tops (p : Finder) (numSrc : Nat) (eigh : (Fin p.M → Fin p.M → ℂ) → (Fin p.M → ℝ) × (Fin p.M → Fin p.M → ℂ))
    (least : (N : Nat) → (Fin numSrc → Fin N × Fin (p.M - numSrc) → ℂ) → ℝ) (X : Nat → Nat → Nat → ℂ) : Except Err (Nat → Option ℝ) :=
  if p.bins.length < 2 then .error .valueError
  else do
    let maxBin ← Sync.argmax (p.bins.map fun k => some (Cssm.amplitude p X k))
    let f0 := p.bins.getD maxBin 0
    let V : Nat → Fin p.M → Fin p.M → ℂ := fun j => (eigh (covLoop p X (p.bins.getD j 0))).2
    if h : numSrc < p.M then
      .ok fun n =>
        let s := least (p.bins.length - 1) fun r q => entry p numSrc f0 (V maxBin) (V q.1) q.1 n h r q.2
        if s = 0 then none else some (1 / s)
    else if p.M < numSrc then .error .valueError
    else .error .indexError

end Verif.Tops
