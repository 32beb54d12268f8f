import Mathlib.Analysis.SpecialFunctions.Trigonometric.Basic
import Mathlib.Data.Finset.Max
import Mathlib.Data.Finset.Lattice.Fold
import Mathlib.Algebra.BigOperators.Fin

/-!
# Model of ray tracing

`pyroomacoustics/libroom_src/room.cpp`: `next_wall_hit` (573-706), `scat_ray` (708-791), `simul_ray` (807-936), for any number of dimensions; `wall.cpp`, 253-264 (`side`),
320-326 (`normal_reflect`), 329-338 (`cosine_angle`), 342-359 (`sample_lambertian_reflection`). Numbers are exact and a quotient by zero is zero. The intersection of a wall with a segment is an
arbitrary function (the one of the code is in `Verif.Geometry`); the generator of random numbers is an arbitrary state. What goes into the
histograms of the microphones is modelled as a list; the histograms themselves are in `Verif.Histogram`. The loop of `simul_ray` is bounded by `fuel`: `none`
means that it has not ended.
-/

namespace Verif.Rays

abbrev Vec (D : Nat) := Fin D → ℝ

/-- Values per band, at least one. -/
abbrev Bands (B : Nat) := Fin (B + 1) → ℝ

def dot {D : Nat} (u v : Vec D) : ℝ := ∑ i, u i * v i

/-- `norm` of Eigen. -/
noncomputable def norm {D : Nat} (v : Vec D) : ℝ := Real.sqrt (dot v v)

open Classical in
/-- `normalized` of Eigen, which leaves zero as it is. -/
noncomputable def normalized {D : Nat} (v : Vec D) : Vec D := if norm v = 0 then v else fun i => v i / norm v

/-- `maxCoeff` of Eigen. -/
noncomputable def maxCoeff {B : Nat} (e : Bands B) : ℝ := Finset.univ.sup' Finset.univ_nonempty e

/-- What the code uses of a wall. `isect` is `intersection`, with `none` for -1. -/
structure Wall (D B : Nat) where
  isect : Vec D → Vec D → Option (Vec D)
  normal : Vec D
  origin : Vec D
  basis : Fin 2 → Vec D
  energyReflection : Bands B
  scatter : Bands B
  averageScatter : ℝ
  doesScatter : Bool

/-- What the code uses of a room. `shoebox` is the size, if the room is a shoebox. -/
structure Room (D B : Nat) where
  eps : ℝ
  maxDist : ℝ
  shoebox : Option (Vec D)
  nWalls : Nat
  wall : Nat → Wall D B
  obstructing : List Nat
  mics : List (Vec D)
  timeThres : ℝ
  soundSpeed : ℝ
  energyThres : ℝ
  isHybrid : Bool
  ismOrder : Int
  micRadius : ℝ

/-- A call of `log_histogram(distance, energy, origin)` of microphone `mic`. -/
structure Entry (D B : Nat) where
  mic : Nat
  dist : ℝ
  energy : Bands B
  origin : Vec D

variable {D B : Nat} {R : Type}

/-- Lines 638-646 of `room.cpp`: plane, distance to it and which of the two it is. -/
noncomputable def facing (size start dir : Vec D) (a : Fin D) : ℝ × ℝ × Nat :=
  open Classical in if dir a < 0 then (0, start a, 0) else (size a, size a - start a, 1)

open Classical in
/-- Body of the loop over the planes (625-670). -/
noncomputable def shoeboxPlane (eps : ℝ) (size start dir : Vec D) (a : Fin D) : Option (Vec D × Nat × ℝ) :=
  if |dir a| < eps then none
  else
    let f := facing size start dir a
    if f.2.1 < eps then none
    else
      let ratio := f.2.1 / |dir a|
      let result : Vec D := fun i => if i = a then f.1 else start i + ratio * dir i
      if ∃ i, i ≠ a ∧ (result i ≤ -eps ∨ size i + eps ≤ result i) then none
      else some (result, 2 * a + f.2.2, norm (result - start))

/-- `hit_dist` (617, 697). -/
def hitLimit (r : Room D B) : Option (Vec D × Nat × ℝ) → ℝ
  | none => r.maxDist
  | some b => b.2.2

open Classical in
/-- Body of the loop over the walls (680-702). -/
noncomputable def nearer (r : Room D B) (start stop : Vec D) (best : Option (Vec D × Nat × ℝ)) (i : Nat) (w : Wall D B) : Option (Vec D × Nat × ℝ) :=
  match w.isect start stop with
  | none => best
  | some p =>
    let d := norm (p - start)
    if r.eps < d ∧ d < hitLimit r best then some (p, i, d) else best

/-- `next_wall_hit` (573-706): point, index of the wall and distance; `none` for the index -1. -/
noncomputable def nextWallHit (r : Room D B) (start stop : Vec D) (scattered : Bool) : Option (Vec D × Nat × ℝ) :=
  match r.shoebox with
  | some size => if scattered then none else (List.finRange D).findSome? (shoeboxPlane r.eps size start (stop - start))
  | none =>
    if scattered then r.obstructing.zipIdx.foldl (fun best o => nearer r start stop best o.2 (r.wall o.1)) none
    else (List.range r.nWalls).foldl (fun best i => nearer r start stop best i (r.wall i)) none

open Classical in
/-- `Wall::side` (wall.cpp 253-264). -/
noncomputable def side (eps : ℝ) (w : Wall D B) (p : Vec D) : Int :=
  if dot (p - w.origin) w.normal > eps then 1 else if dot (p - w.origin) w.normal < -eps then -1 else 0

/-- `Wall::normal_reflect` (wall.cpp 320-326). -/
def normalReflect (w : Wall D B) (v : Vec D) : Vec D := fun i => v i - w.normal i * 2 * dot v w.normal

/-- `Wall::cosine_angle` (wall.cpp 329-338). -/
noncomputable def cosineAngle (w : Wall D B) (p : Vec D) : ℝ := dot p w.normal / norm p

/-- `1 - sqrt(1 - mic_radius_sq / max(mic_radius_sq, h_sq))` (764, 778, 893). -/
noncomputable def pHit (radius h : ℝ) : ℝ := 1 - Real.sqrt (1 - radius ^ 2 / max (radius ^ 2) (h ^ 2))

open Classical in
/-- Body of the loop of `scat_ray` (731-788): the entry for a microphone, if any. -/
noncomputable def scatEntry (r : Room D B) (transmitted : Bands B) (w : Wall D B) (prev hit : Vec D) (travel : ℝ) (k : Nat) (mic : Vec D) : Option (Entry D B) :=
  if side r.eps w mic ≠ side r.eps w prev then none
  else if (nextWallHit r hit mic true).isSome then none
  else
    let hop := norm (mic - hit)
    let dist := travel + hop
    let trans : Bands B := fun b => w.scatter b * transmitted b * pHit r.micRadius hop * (2 * |cosineAngle w (mic - hit)|)
    if dist < r.timeThres * r.soundSpeed ∧ maxCoeff trans > r.energyThres then
      some ⟨k, dist, fun b => trans b / (dist ^ 2 * pHit r.micRadius dist), hit⟩
    else none

/-- `scat_ray` (708-791). -/
noncomputable def scatRay (r : Room D B) (transmitted : Bands B) (w : Wall D B) (prev hit : Vec D) (travel : ℝ) : List (Entry D B) :=
  r.mics.zipIdx.filterMap fun m => scatEntry r transmitted w prev hit travel m.2 m.1

open Classical in
/-- Body of the loop over the microphones in `simul_ray` (863-898). -/
noncomputable def specularEntry (r : Room D B) (transmitted : Bands B) (start dir : Vec D) (hitDist travel : ℝ) (k : Nat) (mic : Vec D) : Option (Entry D B) :=
  let impact := dot (mic - start) dir
  if (-r.eps < impact ∧ impact < hitDist + r.eps) ∧ norm (mic - start - fun i => dir i * impact) < r.micRadius + r.eps then
    let dist := travel + |impact|
    some ⟨k, dist, fun b => transmitted b / (dist ^ 2 * pHit r.micRadius dist), start⟩
  else none

/-- The loop over the microphones in `simul_ray` (861-900). -/
noncomputable def specular (r : Room D B) (counter : Nat) (transmitted : Bands B) (start dir : Vec D) (hitDist travel : ℝ) : List (Entry D B) :=
  if r.isHybrid = true ∧ (counter : Int) < r.ismOrder then [] else r.mics.zipIdx.filterMap fun m => specularEntry r transmitted start dir hitDist travel m.2 m.1

/-- `Wall::sample_lambertian_reflection` (wall.cpp 342-359) for given random numbers. -/
noncomputable def lambertian (w : Wall D B) (u1 u2 : ℝ) : Vec D := fun i =>
  w.basis 0 i * (Real.sqrt u1 * Real.cos (2 * Real.pi * u2)) + w.basis 1 i * (Real.sqrt u1 * Real.sin (2 * Real.pi * u2)) + Real.sqrt (max 0 (1 - u1)) * w.normal i

/-- Lines 923-932: the next direction. -/
noncomputable def rebound (draw : R → (ℝ × ℝ) × R) (w : Wall D B) (dir : Vec D) (rng : R) : Vec D × R :=
  let d := normalReflect w dir
  if w.doesScatter then
    let u := draw rng
    (normalized fun i => w.averageScatter * -lambertian w u.1.1 u.1.2 i + (1 - w.averageScatter) * d i, u.2)
  else (d, rng)

/-- The state of the loop of `simul_ray`. -/
structure Ray (D B : Nat) (R : Type) where
  start : Vec D
  dir : Vec D
  transmitted : Bands B
  travel : ℝ
  counter : Nat
  rng : R

open Classical in
/-- The loop of `simul_ray` (851-935). -/
noncomputable def loop (r : Room D B) (draw : R → (ℝ × ℝ) × R) (eThres : ℝ) : Nat → Ray D B R → List (Entry D B) → Option (List (Entry D B) × R)
  | 0, _, _ => none
  | fuel + 1, s, log =>
    match nextWallHit r s.start (s.start + fun i => s.dir i * r.maxDist) false with
    | none => some (log, s.rng)
    | some (hit, i, hitDist) =>
      let w := r.wall i
      let log := log ++ specular r s.counter s.transmitted s.start s.dir hitDist s.travel
      let travel := s.travel + hitDist
      let transmitted : Bands B := fun b => s.transmitted b * w.energyReflection b
      let log := if w.doesScatter then log ++ scatRay r transmitted w s.start hit travel else log
      if travel > r.timeThres * r.soundSpeed ∨ maxCoeff transmitted < eThres then some (log, s.rng)
      else
        let d := rebound draw w s.dir s.rng
        loop r draw eThres fuel ⟨hit, d.1, transmitted, travel, s.counter + 1, d.2⟩ log

/-- `simul_ray` (807-936): the entries and the generator afterwards. -/
noncomputable def simulRay (r : Room D B) (draw : R → (ℝ × ℝ) × R) (fuel : Nat) (dir source : Vec D) (energy0 : Bands B) (rng : R) : Option (List (Entry D B) × R) :=
  loop r draw (maxCoeff energy0 * r.energyThres) fuel ⟨source, dir, fun b => 1 * energy0 b, 0, 0, rng⟩ []

end Verif.Rays
