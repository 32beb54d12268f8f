import Verif.Py
import Verif.LinPred.Model
import Verif.Delays.Model

/-!
# The class `SoundSource` and the channel matrix

`/repo/pyroomacoustics/soundsource.py` 18-247 (`SoundSource`), 250-335 (`build_rir_matrix`), and the assignments of `Room.image_source_model` (`room.py` 2123-2147).
Numbers are exact (the code keeps the images in single precision). The arrays `images`, `damping`, `generators`, `walls`, `orders` have one column or entry per image: an
object is a list of images. The signal, its delay and the directivity play no role here and are not modelled. Slices have no step. `np.argsort` is an argument.
-/

namespace Verif.SoundSrc

open Verif.Py

/-- An image source: column of `images`, column of `damping` (one number per band), `generators`, `walls`, `orders`. -/
structure Img where
  pos : List ℝ
  damp : List ℝ
  gen : Int
  wall : Int
  ord : Int

/-- The names of the orderings; any other string is `other`. -/
inductive Ordering where
  | order | nearest | strongest | other
deriving DecidableEq

/-- The object. `floatGen`: the array of generators has floating point numbers, as it has after `image_source_model` (room.py:2147). -/
structure Src where
  position : List ℝ
  imgs : List Img
  I : List Nat
  ordering : Ordering
  maxOrder : Int
  floatGen : Bool

/-- `np.max` of a list of integers. -/
def maxInt : List Int → Except Err Int
  | [] => .error .valueError
  | a :: l => .ok (l.foldl max a)

/-- End of the constructor (88-97). -/
def finish (position : List ℝ) (imgs : List Img) : Except Err Src :=
  (maxInt (imgs.map Img.ord)).map fun m => ⟨position, imgs, List.range imgs.length, .order, m, false⟩

/-- Images, damping, generators, walls and orders, put together image by image. -/
def assemble : List (List ℝ) → List (List ℝ) → List Int → List Int → List Int → List Img
  | p :: ps, d :: ds, g :: gs, w :: ws, o :: os => ⟨p, d, g, w, o⟩ :: assemble ps ds gs ws os
  | _, _, _, _, _ => []

/-- The constructor without images (35-62). The position has the shape `(dim,)` or `(dim, 1)`. -/
def new (position : List ℝ) : Except Err Src :=
  if position.length ≠ 2 ∧ position.length ≠ 3 then .error .valueError else finish position [⟨position, [1], -1, -1, 0⟩]

/-- The constructor with images (35-54, 64-97). `np.array(None, dtype=np.int32)` raises `TypeError`. -/
def newWith (position : List ℝ) (images : List (List ℝ)) (damping : Option (List (List ℝ))) (generators walls orders : Option (List Int)) : Except Err Src :=
  if position.length ≠ 2 ∧ position.length ≠ 3 then .error .valueError
  else
    let damping := damping.getD (images.map fun _ => [1])
    if images.length ≠ damping.length then .error .nameError
    else if generators.any fun l => decide (l.length ≠ images.length) then .error .nameError
    else if walls.any fun l => decide (l.length ≠ images.length) then .error .nameError
    else if orders.any fun l => decide (l.length ≠ images.length) then .error .nameError
    else match walls, generators, orders with
      | some w, some g, some o => finish position (assemble images damping g w o)
      | _, _, _ => .error .typeError

/-- A part of the images, as in `__getitem__` (166-197): all arrays are indexed alike, and are given to the constructor. -/
def sub (s : Src) (imgs : List Img) : Except Err Src :=
  newWith s.position (imgs.map Img.pos) (some (imgs.map Img.damp)) (some (imgs.map Img.gen)) (some (imgs.map Img.wall)) (some (imgs.map Img.ord))

/-- `l[k]` for a non-negative integer. -/
def pick {α : Type} (l : List α) (k : Nat) : Except Err α :=
  match l[k]? with
  | some i => .ok i
  | none => .error .indexError

/-- Indexing of the arrays with an array of non-negative integers. -/
def take (imgs : List Img) (idx : List Nat) : Except Err (List Img) := idx.mapM (pick imgs)

/-- `source[a:b]` (158-186). -/
def getSlice (s : Src) (a b : Option Int) : Except Err Src :=
  if s.ordering = .order then
    let p := slice ((List.range (s.maxOrder + 1).toNat).map fun (k : Nat) => (k : Int)) a b
    sub s (s.imgs.filter fun i => decide (i.ord ∈ p))
  else (take s.imgs (slice s.I a b)).bind (sub s)

/-- `source[i]` (158-186). With the natural ordering the entry of `np.arange` is a number, which has no axes to index; with another one the image is an array with one axis
only, and `images.shape[1]` raises. -/
def getInt (s : Src) (i : Int) : Except Err Src :=
  if s.ordering = .order then
    (Py.get ((List.range (s.maxOrder + 1).toNat).map fun (k : Nat) => (k : Int)) i).bind fun _ => .error .indexError
  else (Py.get s.I i).bind fun k => (take s.imgs [k]).bind fun _ => .error .indexError

/-- `source[[i, j, …]]` (187-197). -/
def getList (s : Src) (idx : List Int) : Except Err Src := (idx.mapM fun i => Py.get s.imgs i).bind (sub s)

/-- `source[mask]` (187-197). -/
def getMask (s : Src) (mask : List Bool) : Except Err Src :=
  if mask.length ≠ s.imgs.length then .error .indexError else sub s (((s.imgs.zip mask).filter Prod.snd).map Prod.fst)

/-- The distance of two points. -/
noncomputable def dist (p q : List ℝ) : ℝ := Real.sqrt ((List.zipWith (fun a b => (a - b) ^ 2) p q).sum)

/-- `distance` (121-122). -/
noncomputable def distance (s : Src) (ref : List ℝ) : List ℝ := s.imgs.map fun i => dist i.pos ref

/-- `set_ordering` (124-153): the object afterwards, and whether it raised. `np.linalg.norm(self.damping, 0)` of an array with two axes raises `ValueError`. -/
noncomputable def setOrdering (argsort : List ℝ → List Nat) (s : Src) (o : Ordering) (ref : Option (List ℝ)) : Src × Except Err Unit :=
  let s := { s with ordering := o }
  match o, ref with
  | .nearest, none => (s, .error .nameError)
  | .nearest, some r => ({ s with I := argsort (distance s r) }, .ok ())
  | .strongest, none => (s, .error .nameError)
  | .strongest, some _ => (s, .error .valueError)
  | .order, _ => (s, .ok ())
  | .other, _ => (s, .error .nameError)

/-- The reference point of `get_images`: a column, an array with one axis, or none. -/
inductive Ref where
  | column (v : List ℝ)
  | flat (v : List ℝ)
  | missing

/-- `np.sum((img - ref_point) ** 2, axis=0)` (224) with NumPy's rules for axes of different length. -/
noncomputable def squares (pts : List (List ℝ)) : Ref → Except Err (List ℝ)
  | .missing => .error .typeError
  | .column v => .ok (pts.map fun p => (List.zipWith (fun a b => (a - b) ^ 2) p v).sum)
  | .flat v =>
    if pts.length = v.length then .ok (List.zipWith (fun p r => (p.map fun a => (a - r) ^ 2).sum) pts v)
    else match pts with
      | [p] => .ok (v.map fun r => (p.map fun a => (a - r) ^ 2).sum)
      | _ => .error .valueError

/-- `get_images` (201-228). -/
noncomputable def getImages (argsort : List ℝ → List Nat) (s : Src) (maxOrder : Option Int) (nNearest : Option Int) (ref : Ref) : Except Err (List (List ℝ)) :=
  (match maxOrder with
    | some m => (.ok m : Except Err Int)
    | none => maxInt (s.imgs.map Img.ord)).bind fun m =>
      let img := (s.imgs.filter fun (i : Img) => decide (i.ord ≤ m)).map Img.pos
      match nNearest with
      | none => .ok img
      | some n => (squares img ref).bind fun d => (slice (argsort d) (some 0) (some n)).mapM (pick img)

/-- `get_damping` (230-234): `len` of a number raises. -/
def getDamping (s : Src) : Option Int → Except Err (List (List ℝ))
  | none => .error .typeError
  | some m => .ok ((s.imgs.filter fun i => decide (i.ord ≤ m)).map Img.damp)

/-- The loop of `wall_sequence` (244-246). No integer is NaN. `none`: the loop has not ended after `fuel` steps. -/
def wallLoop (imgs : List Img) : Nat → Int → List Int → Option (Except Err (List Int))
  | 0, _, _ => none
  | fuel + 1, p, w => match Py.get imgs p with
    | .error e => some (.error e)
    | .ok i => wallLoop imgs fuel i.gen (w ++ [i.wall])

/-- `wall_sequence` (236-247). Arrays cannot be indexed with floating point numbers. -/
def wallSequence (s : Src) (fuel : Nat) (i : Int) : Option (Except Err (List Int)) :=
  match Py.get s.imgs i with
  | .error e => some (.error e)
  | .ok im => if s.floatGen then some (.error .indexError) else wallLoop s.imgs fuel im.gen [im.wall]

/-- What `Room.image_source_model` assigns to a source with visible images (room.py:2129-2147): neither `I` nor `max_order` is touched. -/
def afterIsm (s : Src) (imgs : List Img) : Src := { s with imgs := imgs.map fun i => { i with gen := -1 }, floatGen := true }

/-! ## The channel matrix -/

/-- Largest number of a list, and zero (`np.maximum(..., 0.0)`). -/
noncomputable def max0 (l : List ℝ) : ℝ := l.foldl max 0

/-- Damping of an image at a distance (299-305, 325-328). -/
noncomputable def strength (unit : Bool) (i : Img) (m : List ℝ) : ℝ := (if unit then 1 else i.damp.headD 0) / (4 * Real.pi * dist i.pos m)

/-- The numbers `t_min`, `offset` and `Lh` (293-315). The maxima and minima over sources are those over all pairs of images and microphones. `none`: a distance is zero, or there is no source,
so that `int` gets a number that is infinite or not a number. -/
noncomputable def sizes (mics : List (List ℝ)) (sources : List (List Img)) (Fs eps c : ℝ) (unit : Bool) : Except Err (Option (ℝ × ℝ × Nat)) :=
  let pairs := sources.flatten.flatMap fun i => mics.map fun m => (i, m)
  match pairs.map fun p => dist p.1.pos p.2 with
  | [] => if sources = [] then .ok none else .error .valueError
  | a :: l =>
    if (0 : ℝ) ∈ a :: l then .ok none
    else
      let dmin := l.foldl min a
      let dmax := max0 (a :: l)
      let dmpMax := max0 (pairs.map fun p => strength unit p.1 p.2)
      let tmax := dmax / c
      let tmin := dmin / c
      let offset := dmpMax / (Real.pi * Fs * eps)
      .ok (some (tmin, offset, ⌊(tmax - tmin + 2 * offset) * Fs⌋.toNat))

/-- The impulse response between a microphone and a source (323-332). -/
noncomputable def response (unit : Bool) (Fs c tmin offset : ℝ) (Lh : Nat) (m : List ℝ) (src : List Img) : List ℝ :=
  (List.range Lh).map fun (n : Nat) => (src.map fun i => (Delays.lowPassDirac (dist i.pos m / c - tmin + offset) (strength unit i m) Fs Lh).getD n 0).sum

/-- The assignments `H[r * Lg : (r + 1) * Lg, s * L : (s + 1) * L] = convmtx(h, Lg).T` (321-333). -/
def fill (Lg L : Nat) (h : Nat → Nat → List ℝ) : List (Nat × Nat) → (Nat → Nat → ℝ) → Except Err (Nat → Nat → ℝ)
  | [], H => .ok H
  | (s, r) :: l, H => (LinPred.convmtx (h s r) Lg).bind fun M => fill Lg L h l fun a b =>
      if r * Lg ≤ a ∧ a < (r + 1) * Lg ∧ s * L ≤ b ∧ b < (s + 1) * L then M.val (b - s * L) (a - r * Lg) else H a b

/-- `build_rir_matrix` (250-335): the number of columns of a block, and the matrix. -/
noncomputable def buildRirMatrix (mics : List (List ℝ)) (sources : List (List Img)) (Lg : Nat) (Fs eps c : ℝ) (unit : Bool) : Except Err (Option (Nat × (Nat → Nat → ℝ))) :=
  if sources.any fun s => s.any fun i => decide (1 < i.damp.length) then .error .notImplemented
  else (sizes mics sources Fs eps c unit).bind fun r => match r with
    | none => .ok none
    | some (tmin, offset, Lh) =>
      let L := Lg + Lh - 1
      (fill Lg L (fun s r => response unit Fs c tmin offset Lh (mics.getD r []) (sources.getD s []))
        ((List.range sources.length).flatMap fun s => (List.range mics.length).map fun r => (s, r)) fun _ _ => 0).map fun H => some (L, H)

end Verif.SoundSrc
