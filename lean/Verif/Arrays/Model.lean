import Verif.Py
import Mathlib.Analysis.SpecialFunctions.Trigonometric.Basic
import Mathlib.Analysis.SpecialFunctions.Complex.Log

/-!
# Geometries of arrays and responses (`beamforming.py`)

Points are functions `Fin 2 → ℝ`; an array of shape `(2, n)` is its number of columns with a function that gives the columns (only those below `n` count). The draws of the random generator are parameters.
-/

namespace Verif.Arrays

open Py

/-- A point of the plane. -/
abbrev Pt := Fin 2 → ℝ

/-- An array of shape `(2, n)`. -/
structure Pts where
  /-- The number of columns. -/
  n : ℕ
  /-- The columns. -/
  at_ : ℕ → Pt

/-- `distance` (72-86): entry `i, j`. -/
noncomputable def distance {D : ℕ} (x y : ℕ → Fin D → ℝ) (i j : ℕ) : ℝ := Real.sqrt (∑ k, (x i k - y j k) ^ 2)

/-- `unit_vec2D` (89-90). -/
noncomputable def unitVec (phi : ℝ) : Pt := ![Real.cos phi, Real.sin phi]

/-- `linear_2D_array` (93-115). -/
noncomputable def linear (center : Pt) (M : ℕ) (phi d : ℝ) : Pts := ⟨M, fun m k => center k + d * ((m : ℝ) - ((M : ℝ) - 1) / 2) * unitVec phi k⟩

/-- `circular_2D_array` (118-142); for `M = 0` numpy makes an empty array. -/
noncomputable def circular (center : Pt) (M : ℕ) (phi0 radius : ℝ) : Pts := ⟨M, fun m k => center k + radius * ![Real.cos ((m : ℝ) * 2 * Real.pi / M + phi0), Real.sin ((m : ℝ) * 2 * Real.pi / M + phi0)] k⟩

/-- `poisson_2D_array` (145-173): `e` are the draws of `standard_exponential`, `b` those of `randint(0, 2)`. -/
noncomputable def poisson (center : Pt) (M : ℕ) (d : ℝ) (e : Fin 2 → ℕ → ℝ) (b : Fin 2 → ℕ → ℕ) : Pts :=
  let R0 := fun (k : Fin 2) (m : ℕ) => d * e k m * (2 * (b k m : ℝ) - 1)
  let R1 := fun (k : Fin 2) (m : ℕ) => ∑ j ∈ Finset.range (m + 1), R0 k j
  let mean := fun (k : Fin 2) => (∑ m ∈ Finset.range M, R1 k m) / M
  ⟨M, fun m k => R1 k m - mean k + center k⟩

/-- `square_2D_array` (176-202): row `i` is written to the columns from `i * N` to `(i + 1) * N`. -/
noncomputable def square (center : Pt) (M N : ℕ) (phi d : ℝ) : Pts :=
  let c := linear center M (phi + Real.pi / 2) d
  ⟨M * N, (List.range M).foldl (fun R i => fun col => if i * N ≤ col ∧ col < (i + 1) * N then (linear (c.at_ i) N phi d).at_ (col - i * N) else R col) fun _ _ => 0⟩

/-- `spiral_2D_array` (205-245); `angle` is the argument, or the draw `np.random.rand() * np.pi / divi`. -/
noncomputable def spiral (center : Pt) (M : ℕ) (radius : ℝ) (divi : ℕ) (angle : ℝ) : Except Err Pts :=
  if divi = 0 then .error .zeroDivision
  else
    let numSeg := ⌈(M : ℝ) / divi⌉₊
    let norm := fun (m : ℕ) => (m : ℝ) * (radius / M)
    let tile := fun (i : ℕ) => Real.pi * 2 * ((i % divi : ℕ) : ℝ) / divi
    let a := fun (r s : ℕ) => tile (r + divi * s) + (s : ℝ) * (2 * Real.pi / divi / numSeg)
    let flat := (List.range (divi * numSeg)).map fun i => a (i % divi) (i / divi)
    let ang := (0 :: slice flat none (some ((M : ℤ) - 1))).map (· + angle)
    if ang.length = M ∨ ang.length = 1 then
      .ok ⟨M, fun m k => center k + ![norm m * Real.cos (ang.getD (if ang.length = M then m else 0) 0), norm m * Real.sin (ang.getD (if ang.length = M then m else 0) 0)] k⟩
    else .error .valueError

/-- `circular_microphone_array_xyplane` (266-334): the places in the plane and the azimuths of the directivities in degrees (`copy.copy` keeps the orientation of each turn); the third coordinate is that of the centre, the colatitude 90 degrees. -/
noncomputable def circularMics (center : Pt) (M : ℕ) (phi0 radius : ℝ) : Pts × (ℕ → ℝ) := (circular center M phi0 radius, fun m => (m : ℝ) * 360 / M + phi0)

/-- `steering_vector_2D` (673-688) without attenuation: the entry of microphone `m` for the angle `phi`. -/
noncomputable def steering (R : Pts) (center : Pt) (c frequency dist phi : ℝ) (m : ℕ) : ℂ :=
  let X := fun (_ : ℕ) (k : Fin 2) => dist * ![Real.cos phi, Real.sin phi] k + center k
  Complex.exp (-Complex.I * ((2 * Real.pi * frequency * distance R.at_ X m 0 / c : ℝ) : ℂ))

/-- `steering_vector_2D` with `attn=True`; a microphone at the source gives inf or nan, modelled as `none`. -/
noncomputable def steeringAttn (R : Pts) (center : Pt) (c frequency dist phi : ℝ) (m : ℕ) : Option ℂ :=
  let X := fun (_ : ℕ) (k : Fin 2) => dist * ![Real.cos phi, Real.sin phi] k + center k
  if distance R.at_ X m 0 = 0 then none
  else some (((1 / (4 * Real.pi) / distance R.at_ X m 0 : ℝ) : ℂ) * Complex.exp (-Complex.I * ((2 * Real.pi * frequency * distance R.at_ X m 0 / c : ℝ) : ℂ)))

open Classical in
/-- `np.argmin` of `f 0, …, f n`. -/
noncomputable def argmin (f : ℕ → ℝ) : ℕ → ℕ
  | 0 => 0
  | n + 1 => if f (n + 1) < f (argmin f n) then n + 1 else argmin f n

/-- `Beamformer.frequencies` (608). -/
noncomputable def frequencies (N : ℕ) (fs : ℝ) (i : ℕ) : ℝ := (i : ℝ) / N * fs

/-- `Beamformer.response` (732-750): the frequency and the response in the direction `phi`; `weightsOf` is `weights_from_filters` (C86). The weights have `N // 2 + 1` columns. -/
noncomputable def response {F : Type} (R : Pts) (center : Pt) (c ffdist fs : ℝ) (N : ℕ) (weights : Option (ℕ → ℕ → ℂ)) (filters : Option F) (weightsOf : F → ℕ → ℕ → ℂ) (frequency phi : ℝ) : Except Err (ℝ × ℂ) :=
  let i := argmin (fun i => |frequencies N fs i - frequency|) (N / 2)
  match weights, filters with
  | some w, _ => .ok (frequencies N fs i, ∑ m ∈ Finset.range R.n, (starRingEnd ℂ) (w m i) * steering R center c (frequencies N fs i) ffdist phi m)
  | none, some g => .ok (frequencies N fs i, ∑ m ∈ Finset.range R.n, (starRingEnd ℂ) (weightsOf g m i) * steering R center c (frequencies N fs i) ffdist phi m)
  | none, none => .error .nameError

end Verif.Arrays
