import Verif.Angles.Model
import Verif.Random.Model
import Verif.Sphere.Model
import Mathlib.Data.Matrix.Mul
import Mathlib.Data.Finset.Max

/-!
# Measured directivities

`/repo/pyroomacoustics/directivities/measured.py` 93-295 (`MeasuredDirectivityEnergyDistribution`, `MeasuredDirectivity`), 409-587
(`MeasuredDirectivityFile`), and `/repo/pyroomacoustics/directivities/base.py` 69-84, 106-150 (`Directivity`).

Numbers are exact reals. Arguments of the model: the search in the k-d tree (`query`), the areas of the cells (`Verif.Sphere`), the energies of an impulse
response in octave bands and the bandwidths (`Verif.Bands`), the interpolation by spherical harmonics. A division by zero gives zero here and NaN
in the code; the theorems exclude it or show that the value is not used. Plots and the reading of files are left out.
-/

namespace Verif.Measured

open Verif.Py Verif.Angles

abbrev V := Fin 3 → ℝ

variable {n B : Nat}

/-- A triple as a vector. -/
def vec (p : ℝ × ℝ × ℝ) : V := ![p.1, p.2.1, p.2.2]

/-- The energies of the measurements, per octave band and share of the bandwidth (199-200). -/
noncomputable def bandEnergies (bw : Fin B → ℝ) (energy : List ℝ → Fin B → ℝ) (irs : Fin n → List ℝ) : Fin n → Fin B → ℝ :=
  let norm := fun b => bw b / ∑ c, bw c
  fun i b => energy (irs i) b / norm b

/-- `MeasuredDirectivity`: the grid given, the impulse responses, the areas and energies (187-214), the rotated grid and the values of the energy distribution
(216-241, 109-123). -/
structure Meas (n B : Nat) where
  original : Fin n → V
  irs : Fin n → List ℝ
  areas : Fin n → ℝ
  energies : Fin n → Fin B → ℝ
  grid : Fin n → V
  pattern : Fin n → ℝ
  normalizing : ℝ

/-- `energy_per_direction` (203). -/
noncomputable def perDirection (energies : Fin n → Fin B → ℝ) (i : Fin n) : ℝ := ∑ b, energies i b

/-- `total_energy` (207). -/
noncomputable def totalEnergy (energies : Fin n → Fin B → ℝ) (areas : Fin n → ℝ) : ℝ := ∑ i, ∑ b, energies i b * areas i

/-- `energies_coeff_random` (213-214). -/
noncomputable def coeffRandom (m : Meas n B) : Fin n → Fin B → ℝ :=
  let norm := fun i => perDirection m.energies i / totalEnergy m.energies m.areas
  fun i b => m.energies i b / norm i

/-- `energy.max()` (112). -/
noncomputable def maxOf [NeZero n] (x : Fin n → ℝ) : ℝ := Finset.univ.sup' ⟨0, Finset.mem_univ _⟩ x

/-- `set_orientation(orientation)` (216-241); `none`: not a `Rotation3D`. `GridSphere` divides the points by their norms. -/
noncomputable def Meas.setOrientation [NeZero n] (m : Meas n B) : Option (Matrix (Fin 3) (Fin 3) ℝ) → Except Err (Meas n B)
  | none => .error .valueError
  | some R =>
    let energy := perDirection m.energies
    let scaled := fun i => energy i / maxOf energy
    .ok { m with grid := Verif.Sphere.normalise fun i => R.mulVec (m.original i), pattern := scaled, normalizing := ∑ i, m.areas i * scaled i }

/-- `MeasuredDirectivity.__init__` (152-166), with `_compute_band_energies` (187-214). -/
noncomputable def Meas.new [NeZero n] (areasOf : (Fin n → V) → Except Err (Fin n → ℝ)) (bw : Fin B → ℝ) (energy : List ℝ → Fin B → ℝ) (orientation : Option (Matrix (Fin 3) (Fin 3) ℝ))
    (grid : Option (Fin n → V)) (irs : Fin n → List ℝ) : Except Err (Meas n B) :=
  match orientation, grid with
  | none, _ => .error .valueError
  | _, none => .error .valueError
  | some R, some g => do
    let areas ← areasOf g
    let m : Meas n B := ⟨g, irs, areas, bandEnergies bw energy irs, g, fun _ => 0, 0⟩
    m.setOrientation (some R)

/-- `get_response_cartesian` (243-260); `query points x` is the index of the point found by the k-d tree. -/
def Meas.cartesian (query : (Fin n → V) → V → Fin n) (m : Meas n B) (directions : List V) : List (List ℝ) := directions.map fun x => m.irs (query m.grid x)

/-- `get_response(azimuth, colatitude, degrees)` (262-283). `np.radians(None)` raises. Arrays of one angle are not spread to the length of the other here. -/
noncomputable def Meas.response (query : (Fin n → V) → V → Fin n) (m : Meas n B) (azimuth : List ℝ) (colatitude : Option (List ℝ)) (degrees : Bool) : Except Err (List (List ℝ)) :=
  match colatitude with
  | none => if degrees then .error .typeError else .ok (m.cartesian query (azimuth.map fun a => vec (spher2cart a none 1 false)))
  | some c =>
    if azimuth.length ≠ c.length then .error .valueError
    else
      let rad := fun x : ℝ => if degrees then x * (Real.pi / 180) else x
      .ok (m.cartesian query (List.zipWith (fun a c => vec (spher2cart (rad a) (some (rad c)) 1 false)) azimuth c))

/-- `_pattern` and `pdf` of the energy distribution (125-130). -/
noncomputable def Meas.patternAt (query : (Fin n → V) → V → Fin n) (m : Meas n B) (x : V) : ℝ := m.pattern (query m.grid x)

noncomputable def Meas.pdf (query : (Fin n → V) → V → Fin n) (m : Meas n B) (x : V) : ℝ := m.patternAt query x / m.normalizing

/-- The sampler of the energy distribution (114-118). -/
noncomputable def Meas.sampler (query : (Fin n → V) → V → Fin n) (m : Meas n B) : Verif.Random.Sampler V := Verif.Random.Sampler.init (m.patternAt query) (fun _ => 1) 3 (some 1)

/-- `sample_rays(n_rays)` without a generator (286-288, 293-295). -/
noncomputable def Meas.sampleRays (query : (Fin n → V) → V → Fin n) (m : Meas n B) (count : Nat) : List (V × (Fin B → ℝ)) :=
  (List.range count).map fun k => (vec (fibonacci count k), m.energies (query m.grid (vec (fibonacci count k))))

/-- `sample_rays(n_rays, rng)` (289-295); `none`: does not end within the fuel. -/
noncomputable def Meas.sampleRaysRng {R : Type} (query : (Fin n → V) → V → Fin n) (m : Meas n B) (draw : Nat → R → List (V × ℝ) × R) (fuel count : Nat) (rng : R) : Option (List (V × (Fin B → ℝ))) :=
  ((m.sampler query).call draw fuel (.int count) rng).bind fun r =>
    match r.2 with
    | .ok (_, rays) => some (rays.map fun x => (x, fun b => coeffRandom m (query m.grid x) b / (4 * Real.pi)))
    | .error _ => none

/-! ## Files -/

/-- The identifier of a measurement. -/
inductive Id where
  | int (i : Int)
  | label (s : String)

/-- `MeasuredDirectivityFile` after the file was read (425-467). `interp` is the interpolation when an order was given, from the directions and responses of the
measurements to the responses on `interpGrid`. The cache has one entry per kind (`true`: microphone) and number. -/
structure File where
  ir : Nat → Nat → List ℝ
  nSrc : Nat
  nMic : Nat
  srcLoc : Nat → ℝ × ℝ
  micLoc : Nat → ℝ × ℝ × ℝ
  srcLabels : Option (List String)
  micLabels : Option (List String)
  interp : Option (List V → List (List ℝ) → List (List ℝ))
  interpGrid : List V
  cache : List ((Bool × Nat) × List (List ℝ))

/-- The labels given by the user have to be as many as the microphones (437-446) or the sources (448-456). -/
def chooseLabels (given fromFile : Option (List String)) (count : Nat) : Except Err (Option (List String)) :=
  match given with
  | none => .ok fromFile
  | some l => if l.length ≠ count then .error .valueError else .ok (some l)

/-- `_get_measurement_index` (486-496); `labels.index` raises `ValueError` for an unknown label. -/
def measurementIndex (id : Id) (labels : Option (List String)) : Except Err Int :=
  match id with
  | .int i => .ok i
  | .label s =>
    match labels with
    | some l => if s ∈ l then .ok (l.idxOf s : Int) else .error .valueError
    | none => .error .valueError

/-- The number of a measurement, checked (507-510, 545-548, 571-574). -/
def checkedIndex (id : Id) (labels : Option (List String)) (count : Nat) : Except Err Nat := do
  let mid ← measurementIndex id labels
  if 0 ≤ mid ∧ mid < count then .ok mid.toNat else .error .valueError

/-- `_interpolate` (469-484). -/
def File.interpolate (f : File) (mic : Bool) (mid : Nat) (grid : List V) (irs : List (List ℝ)) : (List V × List (List ℝ)) × File :=
  match f.interp with
  | none => ((grid, irs), f)
  | some g =>
    match f.cache.lookup (mic, mid) with
    | some r => ((f.interpGrid, r), f)
    | none => ((f.interpGrid, g grid irs), { f with cache := ((mic, mid), g grid irs) :: f.cache })

/-- What `get_mic_directivity` passes to `MeasuredDirectivity` (545-557): grid and responses. -/
noncomputable def File.mic (f : File) (id : Id) : Except Err ((List V × List (List ℝ)) × File) := do
  let mid ← checkedIndex id f.micLabels f.nMic
  let irs := (List.range f.nSrc).map fun s => f.ir s mid
  let grid := (List.range f.nSrc).map fun s => vec (spher2cart (f.srcLoc s).1 (some (f.srcLoc s).2) 1 false)
  .ok (f.interpolate true mid grid irs)

/-- What `get_source_directivity` passes to `MeasuredDirectivity` (571-586). -/
noncomputable def File.source (f : File) (id : Id) : Except Err ((List V × List (List ℝ)) × File) := do
  let mid ← checkedIndex id f.srcLabels f.nSrc
  let irs := (List.range f.nMic).map fun m => f.ir mid m
  let grid := (List.range f.nMic).map fun m =>
    let p := cart2spher (f.micLoc m)
    vec (spher2cart p.1 (some p.2.1) 1 false)
  .ok (f.interpolate false mid grid irs)

/-- `get_mic_position` (498-512). -/
def File.micPosition (f : File) (id : Id) : Except Err (ℝ × ℝ × ℝ) := do
  let mid ← checkedIndex id f.micLabels f.nMic
  .ok (f.micLoc mid)

/-! ## The abstract class -/

/-- Which function an attribute of a class is. -/
inductive Method where
  | baseCartesian
  | baseAngles
  | own (name : Nat)
  deriving DecidableEq

/-- `Directivity.__init_subclass__` (69-84): `none` when the class is accepted. Both comparisons look at `get_response_cartesian`. -/
def initSubclass (getResponseCartesian _getResponse : Method) : Option Err :=
  let overridesCart := getResponseCartesian ≠ .baseCartesian
  let overridesSph := getResponseCartesian ≠ .baseAngles
  if ¬ (overridesCart ∨ overridesSph) then some .typeError else none

/-- `Directivity.get_response` (125-150) of a subclass that has only `get_response_cartesian`, which takes the directions as the rows of a matrix: `spher2cart` has
them in its columns, so the three rows are the coordinates. -/
noncomputable def baseResponse {α : Type} (cartesian : List (List ℝ) → List α) (azimuth colatitude : List ℝ) (degrees : Bool) : List α :=
  let pts := List.zipWith (fun a c => spher2cart a (some c) 1 degrees) azimuth colatitude
  cartesian [pts.map fun p => p.1, pts.map fun p => p.2.1, pts.map fun p => p.2.2]

end Verif.Measured
