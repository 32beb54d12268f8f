import Verif.Angles.Model
import Verif.Random.Model

/-!
# Model of the cardioid family

`pyroomacoustics/directivities/direction.py`, `DirectionVector` (41-90), and `pyroomacoustics/directivities/analytic.py`, `CardioidFamily` (77-244),
`cardioid_func` (429-466), `cardioid_energy` (469-488) and `CardioidEnergyDistribution` (491-557). Numbers are exact; what is not a number is `none`.
-/

namespace Verif.Directivity

open Verif.Py (Err)
open Verif.Angles

abbrev V3 := ℝ × ℝ × ℝ

/-- `DirectionVector` (55-73). -/
structure DirVec where
  azimuth : ℝ
  colatitude : ℝ
  unitV : V3

open Classical in
/-- `DirectionVector.__init__` (55-73). -/
noncomputable def DirVec.init (azimuth : ℝ) (colatitude : Option ℝ) (degrees : Bool) : Except Err DirVec :=
  let azimuth := if degrees then radians azimuth else azimuth
  let colatitude := (if degrees then colatitude.map radians else colatitude).getD (Real.pi / 2)
  if colatitude ≤ Real.pi ∧ colatitude ≥ 0 then
    .ok ⟨azimuth, colatitude, (Real.cos azimuth * Real.sin colatitude, Real.sin azimuth * Real.sin colatitude, Real.cos colatitude)⟩
  else .error .assertionError

/-- `np.linalg.norm`. -/
noncomputable def norm3 (v : V3) : ℝ := Real.sqrt (v.1 ^ 2 + v.2.1 ^ 2 + v.2.2 ^ 2)

noncomputable def divBy (v : V3) (r : ℝ) : V3 := (v.1 / r, v.2.1 / r, v.2.2 / r)

def dot3 (u v : V3) : ℝ := u.1 * v.1 + u.2.1 * v.2.1 + u.2.2 * v.2.2

/-- `CardioidEnergyDistribution` (491-557): the parameters that it keeps. -/
structure EnergyDist where
  loc : V3
  gain : ℝ
  coeff : ℝ
  total : ℝ

/-- The object. -/
structure Cardioid where
  orientation : DirVec
  p : ℝ
  gain : ℝ
  energy : EnergyDist

/-- The argument `orientation`: a list or an array of numbers, a direction, or something else. -/
inductive Orientation where
  | vector (l : List ℝ)
  | direction (d : DirVec)
  | other

open Classical in
/-- Lines 108-119. A zero vector gives angles that are not numbers, which the assertion of `DirectionVector` refuses. -/
noncomputable def parseOrientation : Orientation → Except Err DirVec
  | .vector [x, y, z] =>
    if norm3 (x, y, z) = 0 then .error .assertionError
    else
      let s := cart2spher (divBy (x, y, z) (norm3 (x, y, z)))
      DirVec.init s.1 (some s.2.1) false
  | .vector _ => .error .valueError
  | .direction d => .ok d
  | .other => .error .valueError

/-- `cardioid_energy(p, gain)` (469-488). -/
noncomputable def cardioidEnergy (p gain : ℝ) : ℝ := gain ^ 2 * (4 * Real.pi / 3) * (4 * p ^ 2 - 2 * p + 1)

open Classical in
/-- `CardioidEnergyDistribution.__init__` (509-535). -/
noncomputable def EnergyDist.init (loc : V3) (p gain : ℝ) : Except Err EnergyDist :=
  if |norm3 loc - 1| > 1 / 100000 then .error .valueError
  else if ¬ (0 ≤ p ∧ p ≤ 1) then .error .valueError
  else .ok ⟨loc, gain, p, cardioidEnergy p gain⟩

open Classical in
/-- `CardioidFamily.__init__` (107-132). -/
noncomputable def Cardioid.init (orientation : Orientation) (p gain : ℝ) : Except Err Cardioid :=
  match parseOrientation orientation with
  | .error e => .error e
  | .ok d =>
    if ¬ (0 ≤ p ∧ p ≤ 1) then .error .valueError
    else
      match EnergyDist.init d.unitV p gain with
      | .error e => .error e
      | .ok en => .ok ⟨d, p, gain, en⟩

/-- `set_orientation` (156-166): only the orientation is replaced. -/
def Cardioid.setOrientation (c : Cardioid) : Orientation → Except Err Cardioid
  | .direction d => .ok { c with orientation := d }
  | _ => .error .assertionError

/-- `get_azimuth` and `get_colatitude` (150-154): `degrees` is given twice to a method that takes it once. -/
def Cardioid.getAzimuth (_ : Cardioid) (_degrees : Bool) : Except Err ℝ := .error .typeError

/-- `_get_response_from_cartesian_vector` (168-172): what comes after the return is never reached. -/
noncomputable def Cardioid.fromVector (c : Cardioid) (v : V3) (_magnitude : Bool) : ℝ := c.gain * (c.p + (1 - c.p) * dot3 c.orientation.unitV v)

open Classical in
/-- `get_response_cartesian` (179-199); a zero direction gives no number. -/
noncomputable def Cardioid.getResponseCartesian (c : Cardioid) (directions : List V3) (magnitude : Bool) : List (Option ℝ) :=
  if c.p = 1 then directions.map fun _ => some (c.gain * 1)
  else directions.map fun v => if norm3 v = 0 then none else some (c.fromVector (divBy v (norm3 v)) magnitude)

open Classical in
/-- `get_response` (201-231). -/
noncomputable def Cardioid.getResponse (c : Cardioid) (azimuth : List ℝ) (colatitude : Option (List ℝ)) (magnitude degrees : Bool) : Except Err (List ℝ) :=
  match colatitude with
  | some col =>
    if azimuth.length ≠ col.length then .error .assertionError
    else if c.p = 1 then .ok (azimuth.map fun _ => c.gain * 1)
    else .ok ((azimuth.zip col).map fun a => c.fromVector (spher2cart a.1 (some a.2) 1 degrees) magnitude)
  | none =>
    if c.p = 1 then .ok (azimuth.map fun _ => c.gain * 1)
    else .ok (azimuth.map fun a => c.fromVector (spher2cart a none 1 degrees) magnitude)

/-- `cardioid_func` (429-466) for one point and without normalisation. -/
noncomputable def cardioidFunc (x direction : V3) (p gain : ℝ) (magnitude : Bool) : ℝ :=
  let resp := gain * (p + (1 - p) * dot3 direction x)
  if magnitude then |resp| else resp

/-- `_unnormalized_pdf` (541-551). -/
noncomputable def EnergyDist.unnormalizedPdf (e : EnergyDist) (x : V3) : ℝ := cardioidFunc x e.loc e.coeff e.gain true ^ 2

/-- The sampler of the distribution (531-535). -/
noncomputable def EnergyDist.sampler (e : EnergyDist) : Verif.Random.Sampler V3 := Verif.Random.Sampler.init e.unnormalizedPdf (fun _ => 1) 3 (some 1)

/-- `sample_rays(n_rays)` without a generator (234-237, 244): rays and energies. -/
noncomputable def Cardioid.sampleRays (c : Cardioid) (n : Nat) : List (V3 × ℝ) :=
  (List.range n).map fun k => (fibonacci n k, c.fromVector (fibonacci n k) false ^ 2)

/-- `sample_rays(n_rays, rng)` (238-244). -/
noncomputable def Cardioid.sampleRaysRng {R : Type} (c : Cardioid) (draw : Nat → R → List (V3 × ℝ) × R) (fuel n : Nat) (rng : R) : Option (List (V3 × ℝ)) :=
  (c.energy.sampler.call draw fuel (.int n) rng).bind fun r =>
    match r.2 with
    | .ok (_, rays) => some (rays.map fun x => (x, 1 * c.energy.total / (4 * Real.pi)))
    | .error _ => none

end Verif.Directivity
