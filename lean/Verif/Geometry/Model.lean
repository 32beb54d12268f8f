import Mathlib.Data.Real.Sqrt
import Mathlib.Analysis.SpecialFunctions.Trigonometric.Basic
import Mathlib.Data.Matrix.Mul
import Mathlib.LinearAlgebra.CrossProduct

/-!
# Model of the geometry routines and of the walls

`pyroomacoustics/libroom_src/geometry.cpp`, `wall.cpp`. Real numbers without rounding; the
tolerance `libroom_eps` is the parameter `eps`. An Eigen column vector is a function on `Fin D`, a
`2 x N` matrix of corners is the list of its columns. The singular value decomposition of the constructor
of `Wall<3>` is not modelled: the basis it returns is a parameter.
-/

namespace Verif.Geometry

open Matrix

/-- Point or vector. -/
abbrev Vec (D : Nat) := Fin D → ℝ

/-- `norm()` of Eigen. -/
noncomputable def norm {D : Nat} (v : Vec D) : ℝ := Real.sqrt (v ⬝ᵥ v)

/-- `normalized()` of Eigen: a zero vector is returned unchanged. -/
noncomputable def normalized {D : Nat} (v : Vec D) : Vec D := if 0 < v ⬝ᵥ v then (norm v)⁻¹ • v else v

/-- `clamp` (geometry.cpp:43-50). -/
noncomputable def clamp (value min max : ℝ) : ℝ :=
  if value < min then min else if value > max then max else value

/-- The value `d` of `ccw3p` and `test_value` of `is_left` (geometry.cpp:70-71, 257-260). -/
def orient (p1 p2 p3 : Vec 2) : ℝ :=
  (p2 0 - p1 0) * (p3 1 - p1 1) - (p3 0 - p1 0) * (p2 1 - p1 1)

/-- `ccw3p` (geometry.cpp:53-79). -/
noncomputable def ccw3p (eps : ℝ) (p1 p2 p3 : Vec 2) : Int :=
  let d := orient p1 p2 p3
  if d < eps ∧ d > -eps then 0 else if d > 0 then 1 else -1

/-- `check_intersection_2d_segments` (geometry.cpp:81-113). The bits are added up since each is set at most once. -/
noncomputable def checkIntersection2d (eps : ℝ) (a1 a2 b1 b2 : Vec 2) : Int :=
  let a1a2b1 := ccw3p eps a1 a2 b1
  let a1a2b2 := ccw3p eps a1 a2 b2
  if a1a2b1 = a1a2b2 then -1
  else
    let b1b2a1 := ccw3p eps b1 b2 a1
    let b1b2a2 := ccw3p eps b1 b2 a2
    if b1b2a1 = b1b2a2 then -1
    else (if b1b2a1 = 0 ∨ b1b2a2 = 0 then 1 else 0) + (if a1a2b1 = 0 ∨ a1a2b2 = 0 then 2 else 0)

/-- `intersection_2d_segments` (geometry.cpp:115-172): result code, and the point if it was written. -/
noncomputable def intersection2d (eps : ℝ) (a1 a2 b1 b2 : Vec 2) : Int × Option (Vec 2) :=
  let ret := checkIntersection2d eps a1 a2 b1 b2
  if ret < 0 then (ret, none)
  else
    let normal : Vec 2 := ![a1 1 - a2 1, a2 0 - a1 0]
    let db := b2 - b1
    let denom := normal ⬝ᵥ db
    if |denom| < eps then (-1, none)
    else
      let num := normal ⬝ᵥ (a1 - b1)
      (ret, some ((num / denom) • db + b1))

/-- `intersection_3d_segment_plane` (geometry.cpp:174-227). -/
noncomputable def intersectionPlane (eps : ℝ) (a1 a2 p normal : Vec 3) : Int × Option (Vec 3) :=
  let u := a2 - a1
  let denom := normal ⬝ᵥ u
  if |denom| > eps then
    let w := a1 - p
    let num := -(normal ⬝ᵥ w)
    let s := num / denom
    if 0 - eps ≤ s ∧ s ≤ 1 + eps then
      (if |s| < eps ∨ |s - 1| < eps then 1 else 0, some (s • u + a1))
    else (-1, none)
  else (-1, none)

/-- `on_segment` (geometry.cpp:236-246). -/
def onSegment (c1 c2 p : Vec 2) : Prop :=
  min (c1 0) (c2 0) ≤ p 0 ∧ p 0 ≤ max (c1 0) (c2 0) ∧ min (c1 1) (c2 1) ≤ p 1 ∧ p 1 ≤ max (c1 1) (c2 1)

/-- `is_left` (geometry.cpp:248-268). -/
noncomputable def isLeft (eps : ℝ) (p0 p1 p2 : Vec 2) : Int :=
  let t := orient p0 p1 p2
  if |t| < eps then 0 else if t > 0 then 1 else -1

/-- The loop of `is_inside_2d_polygon` (geometry.cpp:297-316) over the remaining corners; `cj` is the
previous corner and `wn` the winding number so far. -/
noncomputable def insideLoop (eps : ℝ) (p : Vec 2) (cj : Vec 2) : List (Vec 2) → Int → Int
  | [], wn => if wn = 0 then -1 else 0
  | ci :: rest, wn =>
    open Classical in
    if ccw3p eps cj ci p = 0 ∧ onSegment cj ci p then 1
    else
      let wn :=
        if cj 1 ≤ p 1 then
          if ci 1 > p 1 then (if isLeft eps cj ci p > 0 then wn + 1 else wn) else wn
        else
          if ci 1 ≤ p 1 then (if isLeft eps cj ci p < 0 then wn - 1 else wn) else wn
      insideLoop eps p ci rest wn

/-- `is_inside_2d_polygon` (geometry.cpp:270-322): -1 outside, 0 inside, 1 boundary. -/
noncomputable def isInside2dPolygon (eps : ℝ) (p : Vec 2) (corners : List (Vec 2)) : Int :=
  match corners.getLast? with
  | none => -1
  | some last => insideLoop eps p last corners 0

/-- `area_2d_polygon` (geometry.cpp:324-344). -/
noncomputable def area2dPolygon (corners : List (Vec 2)) : ℝ :=
  (List.range corners.length).foldl (fun a c1 =>
    let c2 := if c1 = corners.length - 1 then 0 else c1 + 1
    let base := 0.5 * (corners.getD c2 0 1 + corners.getD c1 0 1)
    let height := corners.getD c2 0 0 - corners.getD c1 0 0
    a - height * base) 0

/-- `cos_angle_between` (geometry.cpp:347-361). -/
noncomputable def cosAngleBetween {D : Nat} (v1 v2 : Vec D) : ℝ := clamp (normalized v1 ⬝ᵥ normalized v2) (-1) 1

/-- `dist_line_point` (geometry.cpp:364-386). -/
noncomputable def distLinePoint {D : Nat} (start stop point : Vec D) : ℝ :=
  let u := normalized (stop - start)
  let v := point - start
  norm (v - (v ⬝ᵥ u) • u)

/-- Geometry of a wall (wall.hpp:64-71). -/
structure Wall (D : Nat) where
  normal : Vec D
  origin : Vec D

/-- Geometry of `Wall<2>`: constructor (wall.cpp:74-92). -/
noncomputable def wall2 (c0 c1 : Vec 2) : Wall 2 :=
  ⟨normalized ![c1 1 - c0 1, c0 0 - c1 0], c0⟩

/-- Geometry of `Wall<3>`: constructor (wall.cpp:94-144), given the two leading singular vectors `u0`, `u1`. Returns
the wall, the basis and the corners in the basis. The basis vectors are exchanged if the area of the
flat polygon is negative. -/
noncomputable def wall3 (corners : List (Vec 3)) (u0 u1 : Vec 3) : Wall 3 × (Vec 3 × Vec 3) × List (Vec 2) :=
  let origin := corners.getD 0 0
  let flat := corners.map fun c => ![u0 ⬝ᵥ (c - origin), u1 ⬝ᵥ (c - origin)]
  if area2dPolygon flat < 0 then
    (⟨crossProduct u1 u0, origin⟩, (u1, u0), flat.map fun c => ![c 1, c 0])
  else (⟨crossProduct u0 u1, origin⟩, (u0, u1), flat)

/-- `Wall<3>::intersection` (wall.cpp:157-211). -/
noncomputable def intersectionWall3 (eps : ℝ) (w : Wall 3) (basis : Vec 3 × Vec 3) (flat : List (Vec 2)) (p1 p2 : Vec 3) :
    Int × Option (Vec 3) :=
  match intersectionPlane eps p1 p2 w.origin w.normal with
  | (ret1, none) => (ret1, none)
  | (ret1, some q) =>
    if ret1 = -1 then (-1, none)
    else
      let f : Vec 2 := ![basis.1 ⬝ᵥ (q - w.origin), basis.2 ⬝ᵥ (q - w.origin)]
      let ret2 := isInside2dPolygon eps f flat
      if ret2 < 0 then (-1, some q)
      else ((if ret1 = 1 then 1 else 0) + (if ret2 = 1 then 2 else 0), some q)

/-- `Wall::reflect` (wall.cpp:220-248): result code and reflected point. -/
noncomputable def reflect {D : Nat} (eps : ℝ) (w : Wall D) (p : Vec D) : Int × Vec D :=
  let d := w.normal ⬝ᵥ (w.origin - p)
  (if d > eps then 1 else if d < -eps then -1 else 0, p + (2 * d) • w.normal)

/-- `Wall::side` (wall.cpp:252-264). -/
noncomputable def side {D : Nat} (eps : ℝ) (w : Wall D) (p : Vec D) : Int :=
  let ip := (p - w.origin) ⬝ᵥ w.normal
  if ip > eps then 1 else if ip < -eps then -1 else 0

/-- `Wall::normal_reflect` on a direction (wall.cpp:319-326). -/
def normalReflectDir {D : Nat} (w : Wall D) (incident : Vec D) : Vec D :=
  incident - (2 * (incident ⬝ᵥ w.normal)) • w.normal

/-- `Wall::normal_reflect` (wall.cpp:290-317). -/
noncomputable def normalReflect {D : Nat} (w : Wall D) (start hit : Vec D) (length : ℝ) : Vec D :=
  let incident := normalized (hit - start)
  hit + length • (incident - (2 * (incident ⬝ᵥ w.normal)) • w.normal)

/-- `Wall::cosine_angle` (wall.cpp:328-338). -/
noncomputable def cosineAngle {D : Nat} (w : Wall D) (p : Vec D) : ℝ := (p ⬝ᵥ w.normal) / norm p

/-- `Wall<2>::area` (wall.cpp:35-39). -/
noncomputable def wall2Area (c0 c1 : Vec 2) : ℝ := norm (c1 - c0)

/-- `Wall::sample_lambertian_reflection` (wall.cpp:341-359) for given uniform numbers `u1`, `u2` and a given content of the member `basis`. The
constructor of `Wall<2>` (wall.cpp:74-92) never writes that member. -/
noncomputable def lambertian {D : Nat} (w : Wall D) (basis : Vec D × Vec D) (u1 u2 : ℝ) : Vec D :=
  let r := Real.sqrt u1
  let phi := 2 * Real.pi * u2
  (r * Real.cos phi) • basis.1 + (r * Real.sin phi) • basis.2 + Real.sqrt (max 0 (1 - u1)) • w.normal

/-- The direction of a ray after a wall (room.cpp:922-932): `scatter` is `average_scatter` if the wall scatters. -/
noncomputable def nextDir {D : Nat} (w : Wall D) (basis : Vec D × Vec D) (scatter : Option ℝ) (u1 u2 : ℝ) (dir : Vec D) : Vec D :=
  let dir := normalReflectDir w dir
  match scatter with
  | none => dir
  | some s => normalized (s • (-lambertian w basis u1 u2) + (1 - s) • dir)

end Verif.Geometry
