import Verif.Geometry.Model

/-!
# Model of the image source model for polygonal rooms

`pyroomacoustics/libroom_src/room.cpp` lines 184-381, `room.hpp` lines 39-80: `image_source_model`, `fill_sources`,
`image_sources_dfs`, `is_visible_dfs`, `is_obstructed_dfs`. The walls are indexed by `Fin n`; the indices in
`obstructing_walls` are in range since `find_non_convex_walls` (room.py:744-793) makes them from
`range(len(walls))`. A pointer to the parent image is the parent itself; the engine does not change an image while
its children are visited, except for the visibility, which the children do not read.
-/

namespace Verif.Ism

open Verif.Geometry Matrix

/-- What the image source model reads of a wall: normal and origin, `intersection` (code and point), transmission and scattering
coefficients per band, `scatter.maxCoeff() > 0`. -/
structure WallG (D : Nat) where
  geo : Wall D
  isect : Vec D → Vec D → Int × Vec D
  trans : Nat → ℝ
  scat : Nat → ℝ
  scatters : Bool

/-- The room engine. -/
structure Room (D : Nat) where
  n : Nat
  walls : Fin n → WallG D
  obstructing : List (Fin n)
  hybrid : Bool
  eps : ℝ

/-- `Wall<2>::intersection` (wall.cpp:146-154); `junk` is the content of the result variable if the routine does not write it. -/
noncomputable def isect2 (eps : ℝ) (c0 c1 junk : Vec 2) (p1 p2 : Vec 2) : Int × Vec 2 :=
  let r := intersection2d eps p1 p2 c0 c1
  (r.1, r.2.getD junk)

/-- `Wall<3>::intersection` (wall.cpp:156-211). -/
noncomputable def isect3 (eps : ℝ) (w : Wall 3) (basis : Vec 3 × Vec 3) (flat : List (Vec 2)) (junk : Vec 3) (p1 p2 : Vec 3) : Int × Vec 3 :=
  let r := intersectionWall3 eps w basis flat p1 p2
  (r.1, r.2.getD junk)

/-- `ImageSource` (room.hpp:39-80): the source itself, or an image with location, attenuation, order, generating
wall and parent. -/
inductive Src (D n : Nat) where
  | root (loc : Vec D)
  | image (loc : Vec D) (att : Nat → ℝ) (order : Nat) (wall : Fin n) (parent : Src D n)

namespace Src

variable {D n : Nat}

/-- Member `loc`. -/
def loc : Src D n → Vec D
  | root l => l
  | image l _ _ _ _ => l

/-- Member `attenuation`: ones for the source. -/
def att : Src D n → Nat → ℝ
  | root _ => fun _ => 1
  | image _ a _ _ _ => a

/-- Member `order`. -/
def order : Src D n → Nat
  | root _ => 0
  | image _ _ o _ _ => o

/-- Member `gen_wall`: -1 for the source. -/
def genWall : Src D n → Int
  | root _ => -1
  | image _ _ _ w _ => w

end Src

variable {D : Nat}

/-- `is_obstructed_dfs` (room.cpp:337-381). -/
noncomputable def isObstructed (room : Room D) (p : Vec D) (s : Src D room.n) : Bool :=
  room.obstructing.any fun ow =>
    if (ow : Int) ≠ s.genWall then
      let r := (room.walls ow).isect s.loc p
      if r.1 = 0 ∨ r.1 = 2 then
        match s with
        | .root _ => true
        | .image l _ _ w _ =>
          let imgSide := side room.eps (room.walls w).geo l
          let intersectionSide := side room.eps (room.walls w).geo r.2
          decide (imgSide ≠ intersectionSide ∧ intersectionSide ≠ 0)
      else false
    else false

/-- `is_visible_dfs` (room.cpp:293-335): the direction from the source, if visible. -/
noncomputable def isVisible (room : Room D) : Vec D → Src D room.n → Option (Vec D)
  | p, .root l => if isObstructed room p (.root l) then none else some (normalized (p - l))
  | p, .image l a o w parent =>
    if isObstructed room p (.image l a o w parent) then none
    else
      let r := (room.walls w).isect p l
      if r.1 ≥ 0 then isVisible room r.2 parent else none

/-- The image of an image across a wall (room.cpp:276-286). -/
noncomputable def child (room : Room D) (s : Src D room.n) (w : Fin room.n) : Src D room.n :=
  let wall := room.walls w
  let att := fun b => s.att b * wall.trans b
  let att := if wall.scatters && room.hybrid then fun b => att b * Real.sqrt (1 - wall.scat b) else att
  .image (reflect room.eps wall.geo s.loc).2 att (s.order + 1) w s

/-- A visible image: with the direction of departure for each microphone which sees it. -/
structure Vis (D n : Nat) where
  src : Src D n
  dirs : List (Option (Vec D))

/-- `image_sources_dfs` (room.cpp:243-291): the images which are pushed on the stack, in this order. -/
noncomputable def dfs (room : Room D) (mics : List (Vec D)) : Nat → Src D room.n → List (Vis D room.n)
  | 0, s =>
    let dirs := mics.map fun m => isVisible room m s
    if dirs.any fun d => d.isSome then [⟨s, dirs⟩] else []
  | k + 1, s =>
    let dirs := mics.map fun m => isVisible room m s
    (if dirs.any fun d => d.isSome then [⟨s, dirs⟩] else []) ++
      (List.finRange room.n).flatMap fun w =>
        if (reflect room.eps (room.walls w).geo s.loc).1 ≤ 0 then [] else dfs room mics k (child room s w)

/-- `image_source_model` and `fill_sources` (room.cpp:184-241): the columns of the arrays `sources`, `attenuations`, ... in order
(`fill_sources` empties the stack from the last column to the first). -/
noncomputable def imageSourceModel (room : Room D) (mics : List (Vec D)) (order : Nat) (source : Vec D) : List (Vis D room.n) :=
  dfs room mics order (.root source)

end Verif.Ism
