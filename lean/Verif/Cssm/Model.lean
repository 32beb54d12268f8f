import Verif.Py
import Verif.Sync.Model
import Verif.Music.Model
import Mathlib.LinearAlgebra.Matrix.NonsingularInverse

/-!
# Wideband methods with focusing: CSSM and WAVES

`pyroomacoustics/doa/cssm.py` (80-157) and `doa/waves.py` (80-154). The steering vectors are those of `Verif.Srp`, the correlation matrices those of `Verif.Music`. The decompositions of numpy and the search for peaks on
the grid are parameters. Complex numbers without rounding (the matrix of WAVES is in single precision in the code). `none` is infinity.
-/

namespace Verif.Cssm

open Finset Complex Verif.Srp Verif.Py Verif.Music
open scoped ComplexConjugate

/-- `1 / _compute_spatial_spectrum(C, k)` (cssm.py:98-100, music.py:146-155): one over a quotient, which is zero if that is infinite. -/
noncomputable def scan (p : Finder) (C : Fin p.M → Fin p.M → ℂ) (k n : Nat) : Option ℝ :=
  some ‖∑ r, conj (vec p k n r) * ∑ c, C r c * vec p k n c‖

/-- The bands with enough peaks, and the points of the peaks (cssm.py:90-107). -/
noncomputable def kept (p : Finder) (numSrc : Nat) (find : (Nat → Option ℝ) → List Nat) (C : Nat → Fin p.M → Fin p.M → ℂ) : List (Nat × List Nat) :=
  (List.range p.bins.length).filterMap fun (j : Nat) =>
    let k := p.bins.getD j 0
    let idx := find (scan p (C j) k)
    if idx.length < numSrc then none else some (k, idx)

/-- The amplitude of a band (cssm.py:114). -/
noncomputable def amplitude (p : Finder) (X : Nat → Nat → Nat → ℂ) (k : Nat) : ℝ := ∑ s ∈ range p.numSnap, ∑ i ∈ range p.M, ‖X i k s‖

/-- The reference band (cssm.py:113-115); the maximum of nothing raises. -/
noncomputable def reference (p : Finder) (X : Nat → Nat → Nat → ℂ) (bins : List Nat) : Except Err Nat := do
  let j ← Sync.argmax (bins.map fun k => some (amplitude p X k))
  .ok (bins.getD j 0)

/-- `np.c_[A, B]` (cssm.py:145-155): the steering vectors of the points, and the unit vectors from there on. -/
noncomputable def bordered (p : Finder) (k : Nat) (l : List Nat) : Matrix (Fin p.M) (Fin p.M) ℂ :=
  fun i c => if (c : Nat) < l.length then p.steer k i (l.getD c 0) else if i = c then 1 else 0

open Classical in
/-- The focusing matrix (cssm.py:142-155). More points than microphones are an array with a negative size; a singular matrix raises `LinAlgError`. -/
noncomputable def focus (p : Finder) (k f0 : Nat) (l : List Nat) : Except Err (Matrix (Fin p.M) (Fin p.M) ℂ) :=
  if p.M < l.length then .error .valueError
  else if (bordered p k l).det = 0 then .error .runtimeError
  else .ok (bordered p f0 l * (bordered p k l)⁻¹)

/-- The matrix `T C T^H`. -/
noncomputable def congr {M : Nat} (T : Matrix (Fin M) (Fin M) ℂ) (C : Fin M → Fin M → ℂ) : Fin M → Fin M → ℂ :=
  fun r c => ∑ i, ∑ j, T r i * C i j * conj (T c j)

/-- `_coherent_sum` (cssm.py:135-157). The correlation matrices are numbered as before bands were left out. -/
noncomputable def coherentSum (p : Finder) (C : Nat → Fin p.M → Fin p.M → ℂ) (f0 : Nat) (bands : List (Nat × List Nat)) : Except Err (Fin p.M → Fin p.M → ℂ) :=
  (List.range bands.length).foldlM (fun R j => do
    let b := bands.getD j (0, [])
    let T ← focus p b.1 f0 b.2
    .ok fun r c => R r c + congr T (C j) r c) fun _ _ => 0

/-- The denominator with the columns of `V` in a set: `a^H U U^H a` (cssm.py:128, music.py:151-153). -/
noncomputable def denomOf {M : Nat} (S : Finset (Fin M)) (V : Fin M → Fin M → ℂ) (a : Fin M → ℂ) : ℂ :=
  ∑ r, conj (a r) * ∑ c, (∑ i ∈ S, V r i * conj (V c i)) * a c

/-- The spectrum (music.py:146-155). -/
noncomputable def spectrumOf {M : Nat} (S : Finset (Fin M)) (V : Fin M → Fin M → ℂ) (a : Fin M → ℂ) : Option ℝ :=
  if ‖denomOf S V a‖ = 0 then none else some (1 / ‖denomOf S V a‖)

/-- The columns `v[:, :-num_src]` (music.py:193); `-0` is the start of the axis. -/
def noise (M numSrc : Nat) : Finset (Fin M) := Finset.univ.filter fun i => numSrc ≠ 0 ∧ (i : Nat) + numSrc < M

/-- All bands with new points (cssm.py:132). -/
def refresh (bands : List (Nat × List Nat)) (idx : List Nat) : List (Nat × List Nat) := bands.map fun b => (b.1, idx)

/-- The iterations (cssm.py:117-133) from the given values. -/
noncomputable def cssmLoop (p : Finder) (numSrc : Nat) (find : (Nat → Option ℝ) → List Nat) (eigh : (Fin p.M → Fin p.M → ℂ) → (Fin p.M → ℝ) × (Fin p.M → Fin p.M → ℂ)) (C : Nat → Fin p.M → Fin p.M → ℂ) (f0 : Nat) :
    Nat → List (Nat × List Nat) → (Nat → Option ℝ) → Except Err (Nat → Option ℝ)
  | 0, _, vals => .ok vals
  | iter + 1, bands, _ => do
    let R ← coherentSum p C f0 bands
    let vals := fun n => spectrumOf (noise p.M numSrc) (eigh R).2 (vec p f0 n)
    cssmLoop p numSrc find eigh C f0 iter (refresh bands (find vals)) vals

/-- `CSSM._process` (cssm.py:80-133): the values on the grid. Without iterations they are those of the last band. -/
noncomputable def cssm (p : Finder) (numSrc iter : Nat) (find : (Nat → Option ℝ) → List Nat) (eigh : (Fin p.M → Fin p.M → ℂ) → (Fin p.M → ℝ) × (Fin p.M → Fin p.M → ℂ)) (X : Nat → Nat → Nat → ℂ) :
    Except Err (Nat → Option ℝ) := do
  let C : Nat → Fin p.M → Fin p.M → ℂ := fun j => covLoop p X (p.bins.getD j 0)
  let bands := kept p numSrc find C
  let f0 ← reference p X (bands.map Prod.fst)
  cssmLoop p numSrc find eigh C f0 iter bands (scan p (C (p.bins.length - 1)) (p.bins.getD (p.bins.length - 1) 0))

/-- One block of the matrix of WAVES (waves.py:134-154): the signal space, weighted, focused. The last eigenvalue of the noise is that with the number `M - num_src - 1`. -/
noncomputable def block (p : Finder) (numSrc : Nat) (eigh : (Fin p.M → Fin p.M → ℂ) → (Fin p.M → ℝ) × (Fin p.M → Fin p.M → ℂ)) (C : Fin p.M → Fin p.M → ℂ) (k f0 : Nat) (l : List Nat) :
    Except Err (Fin p.M → Fin numSrc → ℂ) := do
  let T ← focus p k f0 l
  let (w, V) := eigh C
  if h : numSrc < p.M then
    let wn := w ⟨p.M - numSrc - 1, by omega⟩
    .ok fun r s =>
      let i : Fin p.M := ⟨p.M - numSrc + s, by omega⟩
      ∑ c, T r c * (V c i * (((w i - wn) / Real.sqrt (w i * wn + 1) : ℝ) : ℂ))
  else .error .indexError

/-- `_construct_waves_matrix` (waves.py:131-154): the blocks from left to right. -/
noncomputable def blocks (p : Finder) (numSrc : Nat) (eigh : (Fin p.M → Fin p.M → ℂ) → (Fin p.M → ℝ) × (Fin p.M → Fin p.M → ℂ)) (C : Nat → Fin p.M → Fin p.M → ℂ) (f0 : Nat) (bands : List (Nat × List Nat)) :
    Except Err (List (Fin p.M → Fin numSrc → ℂ)) :=
  (List.range bands.length).mapM fun j => block p numSrc eigh (C j) (bands.getD j (0, [])).1 f0 (bands.getD j (0, [])).2

/-- The iterations of WAVES (waves.py:110-129). The columns of the matrix are numbered by the band and the column of its block; `svd` gives the left singular vectors. -/
noncomputable def wavesLoop (p : Finder) (numSrc : Nat) (find : (Nat → Option ℝ) → List Nat) (eigh : (Fin p.M → Fin p.M → ℂ) → (Fin p.M → ℝ) × (Fin p.M → Fin p.M → ℂ))
    (svd : (N : Nat) → (Fin p.M → Fin N × Fin numSrc → ℂ) → Fin p.M → Fin p.M → ℂ) (C : Nat → Fin p.M → Fin p.M → ℂ) (f0 : Nat) :
    Nat → List (Nat × List Nat) → (Nat → Option ℝ) → Except Err (Nat → Option ℝ)
  | 0, _, vals => .ok vals
  | iter + 1, bands, _ => do
    let B ← blocks p numSrc eigh C f0 bands
    let U := svd B.length fun r q => B[q.1] r q.2
    let vals := fun n => spectrumOf (Finset.univ.filter fun i : Fin p.M => numSrc ≤ (i : Nat)) U (vec p f0 n)
    wavesLoop p numSrc find eigh svd C f0 iter (refresh bands (find vals)) vals

/-- `WAVES._process` (waves.py:80-129). -/
noncomputable def waves (p : Finder) (numSrc iter : Nat) (find : (Nat → Option ℝ) → List Nat) (eigh : (Fin p.M → Fin p.M → ℂ) → (Fin p.M → ℝ) × (Fin p.M → Fin p.M → ℂ))
    (svd : (N : Nat) → (Fin p.M → Fin N × Fin numSrc → ℂ) → Fin p.M → Fin p.M → ℂ) (X : Nat → Nat → Nat → ℂ) : Except Err (Nat → Option ℝ) := do
  let C : Nat → Fin p.M → Fin p.M → ℂ := fun j => covLoop p X (p.bins.getD j 0)
  let bands := kept p numSrc find C
  let f0 ← reference p X (bands.map Prod.fst)
  wavesLoop p numSrc find eigh svd C f0 iter bands (scan p (C (p.bins.length - 1)) (p.bins.getD (p.bins.length - 1) 0))

end Verif.Cssm
