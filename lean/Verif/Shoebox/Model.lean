import Mathlib.Analysis.Real.Sqrt


/-!
# Model of the shoebox image source model

`pyroomacoustics/libroom_src/room.cpp` lines 33-46 (count formulas) and 383-505
(`Room::image_source_shoebox`). Coordinates and coefficients are real numbers (no
rounding), `int`/`size_t` are unbounded, `ism_order` is non-negative.
-/

namespace Verif.Shoebox

/-- `number_image_sources_2` (room.cpp:33-38). -/
def numberImageSources2 (maxOrder : Nat) : Nat := 1 + 2 * maxOrder * (maxOrder + 1)

/-- `number_image_sources_3` (room.cpp:40-46); `/` is the integer division of C. -/
def numberImageSources3 (maxOrder : Nat) : Nat :=
  let maxOrderSq := maxOrder * maxOrder
  1 + 2 * maxOrder * (2 * maxOrderSq + 3 * maxOrder + 4) / 3

/-- The loop `for (v = lo; v <= hi; v++)`: the values taken by `v`, in order. -/
def irange (lo hi : Int) : List Int := (List.range (hi - lo + 1).toNat).map (fun k : Nat => lo + (k : Int))

/-- The three nested loops (room.cpp:413-424): values of `point` visited, as
`(point[0], point[1], point[2])`. -/
def points (D : Nat) (order : Int) : List (Int × Int × Int) :=
  let zMax : Int := if D = 2 then 0 else order
  (irange (-zMax) zMax).flatMap fun z =>
    let yMax := order - |z|
    (irange (-yMax) yMax).flatMap fun y =>
      let xMax := yMax - |y|
      let xMax := if xMax < 0 then 0 else xMax
      (irange (-xMax) xMax).map fun x => (x, y, z)

/-- `point[d]`. -/
def coord (p : Int × Int × Int) : Nat → Int
  | 0 => p.1
  | 1 => p.2.1
  | _ => p.2.2

/-- What `image_source_shoebox` uses of the room: the size per axis, the absorption and
scattering coefficients (indexed by band and by column `2 d` / `2 d + 1` for the walls
of axis `d`), the number of bands, the microphone positions, and the settings. -/
structure Room where
  dim : Nat
  size : Nat → ℝ
  nBands : Nat
  absorption : Nat → Nat → ℝ
  scattering : Nat → Nat → ℝ
  hybrid : Bool
  order : Nat
  mics : List (Nat → ℝ)

open Classical in
/-- First power of the transmission coefficients (room.cpp:390-395). -/
noncomputable def trans1 (room : Room) (band col : Nat) : ℝ :=
  let t := Real.sqrt (1 - room.absorption band col)
  if (∃ b c, b < room.nBands ∧ c < 2 * room.dim ∧ room.scattering b c > 0) ∧ room.hybrid = true then
    t * Real.sqrt (1 - room.scattering band col)
  else t

/-- `transmission_pwr` (room.cpp:385-397): a list with `order + 1` entries. -/
noncomputable def transPwr (room : Room) : Nat → List (Nat → Nat → ℝ)
  | 0 => [fun _ _ => 1]
  | 1 => [fun _ _ => 1, trans1 room]
  | n + 2 =>
    let prev := transPwr room (n + 1)
    prev ++ [fun b c => (prev.getD (n + 1) (fun _ _ => 0)) b c * trans1 room b c]

/-- Exponent of the wall at coordinate 0 (room.cpp:460-467); `/` truncates. -/
def p1 (p : Int) : Nat :=
  if p > 0 then (Int.tdiv p 2).toNat else if p < 0 then (|Int.tdiv (p - 1) 2|).toNat else 0

/-- Exponent of the wall at the room length (room.cpp:460-467). -/
def p2 (p : Int) : Nat :=
  if p > 0 then (Int.tdiv (p + 1) 2).toNat else if p < 0 then (|Int.tdiv p 2|).toNat else 0

/-- The data computed for an image source (room.hpp:40-69, room.cpp:425-475).
`dirs m` is the direction towards microphone `m` before normalisation. -/
structure Img where
  loc : Nat → ℝ
  order : Int
  orderXyz : Nat → Int
  atten : Nat → ℝ
  dirs : Nat → Nat → ℝ
  visible : Bool

/-- `ImageSource(n_bands, n_mics)` (room.hpp:61-69). -/
def Img.blank : Img :=
  { loc := fun _ => 0, order := 0, orderXyz := fun _ => 0, atten := fun _ => 1,
    dirs := fun _ _ => 0, visible := false }

/-- Body of the loop over the axes (room.cpp:431-473). `none`: an index of
`transmission_pwr` is out of range. -/
noncomputable def axisStep (room : Room) (source : Nat → ℝ) (pwr : List (Nat → Nat → ℝ))
    (p : Int × Int × Int) (d : Nat) (is : Img) : Option Img :=
  let point := coord p d
  let step := if Int.tmod |point| 2 = 1 then room.size d - source d else source d
  let loc := (point : ℝ) * room.size d + step
  match pwr[p1 point]?, pwr[p2 point]? with
  | some w, some e => some
      { loc := fun i => if i = d then loc else is.loc i
        orderXyz := fun i => if i = d then point else is.orderXyz i
        dirs := fun m i =>
          if i = d then
            (if Int.tmod |point| 2 = 1 then loc - (room.mics.getD m (fun _ => 0)) d
             else (room.mics.getD m (fun _ => 0)) d - loc)
          else is.dirs m i
        order := is.order + |point|
        atten := fun b => is.atten b * w b (2 * d) * e b (2 * d + 1)
        visible := is.visible }
  | _, _ => none

/-- `for (size_t d = 0; d < D; d++)` starting at axis `d` with `n` axes to go. -/
noncomputable def axisLoop (room : Room) (source : Nat → ℝ) (pwr : List (Nat → Nat → ℝ))
    (p : Int × Int × Int) : Nat → Nat → Img → Option Img
  | _, 0, is => some is
  | d, n + 1, is => (axisStep room source pwr p d is).bind (axisLoop room source pwr p (d + 1) n)

/-- One image source (room.cpp:425-474). -/
noncomputable def image (room : Room) (source : Nat → ℝ) (p : Int × Int × Int) : Option Img :=
  axisLoop room source (transPwr room room.order) p 0 room.dim { Img.blank with visible := true }

/-- `image_source_shoebox` (room.cpp:383-505): the vector of image sources. It is
allocated with the size given by the count formula; `none` if more images than that are
written or a table index is out of range. Copying into the result arrays and normalising
the directions (lines 479-500) is the identity in the model. -/
noncomputable def imageSourceShoebox (room : Room) (source : Nat → ℝ) : Option (List Img) :=
  let n := if room.dim = 2 then numberImageSources2 room.order else numberImageSources3 room.order
  match (points room.dim room.order).mapM (image room source) with
  | none => none
  | some imgs =>
    if imgs.length ≤ n then some (imgs ++ List.replicate (n - imgs.length) Img.blank) else none

end Verif.Shoebox
