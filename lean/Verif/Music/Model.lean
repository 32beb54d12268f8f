import Verif.Srp.Model

/-!
# Model of the MUSIC spectrum

`pyroomacoustics/doa/music.py`, `_process` and the functions it calls (75-98, 136-144, 158-196). The steering vectors are those of `Verif.Srp`. The decomposition of `np.linalg.eigh` is a
parameter; what it promises is `IsEigh`. Complex numbers without rounding.
-/

namespace Verif.Music

open Finset Complex Verif.Srp
open scoped ComplexConjugate

variable {M : Nat}

/-- Entry of the steering vector of a point of the grid. -/
noncomputable def vec (p : Finder) (k n : Nat) : Fin p.M → ℂ := fun i => p.steer k i n

/-- Entry of the correlation matrix of a bin, mean over the snapshots (`_compute_correlation_matricesvec`, music.py:169-178). -/
noncomputable def cov (p : Finder) (X : Nat → Nat → Nat → ℂ) (k : Nat) (i j : Fin p.M) : ℂ :=
  (∑ s ∈ range p.numSnap, X i k s * conj (X j k s)) / p.numSnap

/-- Entry of the correlation matrix by a loop (`_compute_correlation_matrices`, music.py:158-166). -/
noncomputable def covLoop (p : Finder) (X : Nat → Nat → Nat → ℂ) (k : Nat) (i j : Fin p.M) : ℂ :=
  (List.range p.numSnap).foldl (fun c s => c + X i k s * conj (X j k s)) 0 / p.numSnap

/-- What `np.linalg.eigh` promises for the matrix `C`: orthonormal columns of `V` that are eigenvectors for the values `w`, in increasing order. -/
structure IsEigh (C : Fin M → Fin M → ℂ) (w : Fin M → ℝ) (V : Fin M → Fin M → ℂ) : Prop where
  orth : ∀ i j, ∑ r, conj (V r i) * V r j = if i = j then 1 else 0
  eigen : ∀ r i, ∑ c, C r c * V c i = w i * V r i
  ascending : Monotone w

/-- The columns `v[..., -num_src:]` (music.py:191); `-0` is the start of the axis. -/
def signal (M numSrc : Nat) : Finset (Fin M) := Finset.univ.filter fun i => numSrc = 0 ∨ M ≤ i + numSrc

/-- Projection to the complement of the signal space (music.py:85-88). -/
noncomputable def cross (numSrc : Nat) (V : Fin M → Fin M → ℂ) (r c : Fin M) : ℂ :=
  (if r = c then 1 else 0) - ∑ i ∈ signal M numSrc, V r i * conj (V c i)

/-- The denominator of the spectrum (music.py:137-143). -/
noncomputable def denom (numSrc : Nat) (V : Fin M → Fin M → ℂ) (a : Fin M → ℂ) : ℂ :=
  ∑ r, conj (a r) * ∑ c, cross numSrc V r c * a c

/-- The value for one bin (music.py:144). `none` is infinity. -/
noncomputable def value (numSrc : Nat) (V : Fin M → Fin M → ℂ) (a : Fin M → ℂ) : Option ℝ :=
  if ‖denom numSrc V a‖ = 0 then none else some (1 / ‖denom numSrc V a‖)

/-- Mean over the bins (music.py:92), infinite if one of the values is, and not a number without bins. -/
noncomputable def mean (l : List (Option ℝ)) : Option ℝ := if l = [] then none else (l.mapM id).map fun v => v.sum / l.length

/-- The spectrum at a point (music.py:75-92), without the normalisation of the bins. -/
noncomputable def spectrum (p : Finder) (numSrc : Nat) (V : Nat → Fin p.M → Fin p.M → ℂ) (n : Nat) : Option ℝ :=
  mean (p.bins.map fun k => value numSrc (V k) (vec p k n))

/-- Greatest value of a bin on the grid (music.py:98). -/
noncomputable def top (p : Finder) (numSrc nPoints : Nat) (V : Nat → Fin p.M → Fin p.M → ℂ) (k : Nat) : Option ℝ :=
  ((List.range nPoints).mapM fun n => value numSrc (V k) (vec p k n)).map fun l => l.foldl max 0

/-- The normalised value of a bin (`_apply_frequency_normalization`, music.py:94-98); `none` if there is an infinite value on the grid (which gives zeros or no numbers). -/
noncomputable def normalised (p : Finder) (numSrc nPoints : Nat) (V : Nat → Fin p.M → Fin p.M → ℂ) (k n : Nat) : Option ℝ :=
  match value numSrc (V k) (vec p k n), top p numSrc nPoints V k with
  | some v, some t => some (v / t)
  | _, _ => none

/-- The spectrum at a point with the normalisation of the bins (`NormMUSIC`). -/
noncomputable def normSpectrum (p : Finder) (numSrc nPoints : Nat) (V : Nat → Fin p.M → Fin p.M → ℂ) (n : Nat) : Option ℝ :=
  mean (p.bins.map fun k => normalised p numSrc nPoints V k n)

end Verif.Music
