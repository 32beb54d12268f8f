import Verif.Py
import Verif.RirBuilder.Model

/-!
# Model of the impulse response of the image source method

`pyroomacoustics/simulation/ism.py`, 61-67 and 111-279 (`compute_ism_rir`, the branch without directivities given as impulse
responses) and the part of `room.py`, 2117-2181 (`Room.image_source_model`), that prepares its arguments.

Samples, positions and times are real numbers (the conversions to `float32` are not modelled). An image that is at the microphone
(numpy: division by zero, then `nan` samples) is an error of the model. Directivities are functions of the position (or of the
departure direction) of an image that give one gain. The analysis filters of the octave bands are an argument.
-/

namespace Verif.IsmRir

open Py (Err)
open RirBuilder (check rirTasks Builds maxOf)

/-- A column of `src.images` and of `src.damping`. -/
structure Img where
  pos : Nat → ℝ
  damping : Nat → ℝ

/-- A row of `self.visibility[s]`: the engine returns a boolean matrix, the fallback for a source without any visible path is an
integer array (room.py:2172). -/
inductive Visible
  | mask (l : List Bool)
  | index (l : List Int)

/-- `xs[:, is_visible]` (ism.py:126-127): numpy selects by a mask or, with an integer array, by position. -/
def select {α : Type} (v : Visible) (xs : List α) : Except Err (List α) :=
  match v with
  | .mask l => if l.length = xs.length then .ok ((xs.zip l).filterMap fun p => if p.2 then some p.1 else none) else .error .indexError
  | .index l => l.mapM (Py.get xs)

/-- The arguments of `compute_ism_rir`, with the constants it reads. `rows` is the number of rows of `src.damping`. -/
structure Args where
  dim : Nat
  images : List Img
  rows : Nat
  mic : Nat → ℝ
  micGain : Option ((Nat → ℝ) → ℝ)
  srcGain : Option ((Nat → ℝ) → ℝ)
  dirs : List (Nat → ℝ)
  visible : Visible
  fdl : Nat
  c : ℝ
  fs : Int
  air : Option (List ℝ)
  analysis : Nat → List ℝ → List ℝ
  gran : Nat
  threads : Nat

/-- `np.sqrt(np.sum((images - mic[:, None]) ** 2, axis=0))` for one image (129-131). -/
noncomputable def Args.dist (a : Args) (p : Nat → ℝ) : ℝ := Real.sqrt ((List.range a.dim).map fun d => (p d - a.mic d) ^ 2).sum

/-- Number of rows of a product of two arrays with `n` and `m` rows. -/
def broadcast (n m : Nat) : Except Err Nat :=
  if n = m then .ok n else if n = 1 then .ok m else if m = 1 then .ok n else .error .valueError

/-- What the loop over the bands uses. -/
structure Prep where
  time : List ℝ
  bands : Nat
  amp : Nat → List ℝ
  N : Nat

/-- The row `b` of an array with `n` rows that is broadcast. -/
def row (n b : Nat) : Nat := if n = 1 then 0 else b

/-- `exp(-0.5 * air_abs_coeffs[:, None] * distance)` (61-67): row `b`, image at distance `d`. -/
noncomputable def airFactor (air : Option (List ℝ)) (b : Nat) (d : ℝ) : ℝ :=
  match air with
  | none => 1
  | some m => Real.exp (-0.5 * m.getD (row m.length b) 0 * d)

/-- The factor of an optional directivity. -/
noncomputable def gainOf (g : Option ((Nat → ℝ) → ℝ)) (p : Nat → ℝ) : ℝ :=
  match g with
  | none => 1
  | some f => f p

/-- Number of rows of `oct_band_amplitude` (136-142). -/
def bandsOf (a : Args) : Except Err Nat :=
  match a.air with
  | none => .ok a.rows
  | some m => broadcast a.rows m.length

/-- `src_directions[:, is_visible]` if the source has a directivity (159-160). -/
def dirsOf (a : Args) (images : List Img) : Except Err (List (Nat → ℝ)) :=
  match a.srcGain with
  | none => .ok (images.map fun _ => fun _ => 0)
  | some _ => select a.visible a.dirs

/-- One entry of `oct_band_amplitude` (136-170). -/
noncomputable def amplitudeOf (a : Args) (b : Nat) (g : Img) (dir : Nat → ℝ) : ℝ :=
  g.damping (row a.rows b) / a.dist g.pos * airFactor a.air b (a.dist g.pos) * gainOf a.micGain g.pos * gainOf a.srcGain dir

/-- `time` after the shift by the delay of the filters (134, 246-247). -/
noncomputable def timesOf (a : Args) (images : List Img) : List ℝ :=
  images.map fun g => a.dist g.pos / a.c + ((a.fdl / 2 : Nat) : ℝ) / (a.fs : ℝ)

open Classical in
/-- Lines 124-170 and 246-258. -/
noncomputable def prepare (a : Args) : Except Err Prep := do
  let images ← select a.visible a.images
  if ∃ g ∈ images, a.dist g.pos = 0 then .error .zeroDivision else
  let bands ← bandsOf a
  let dirs ← dirsOf a images
  let time := timesOf a images
  if time = [] then .error .valueError else
  .ok ⟨time, bands, fun b => List.zipWith (amplitudeOf a b) images dirs, (⌈maxOf time * a.fs + (a.fdl / 2 : Nat) + 1⌉ + 1).toNat⟩

/-- `rir += x`. -/
noncomputable def addTo (rir x : List ℝ) : Except Err (List ℝ) :=
  if x.length = rir.length then .ok (List.zipWith (· + ·) rir x) else .error .valueError

/-- The sum of the bands (261-262, 274-277); `loc b` is `ir_loc` of band `b` after the call of the builder. -/
noncomputable def combine (a : Args) (p : Prep) (loc : Nat → List ℝ) : Except Err (List ℝ) :=
  (List.range p.bands).foldlM (fun rir b => addTo rir (if 1 < p.bands then a.analysis b (loc b) else loc b)) (List.replicate p.N 0)

/-- `libroom.rir_builder` (264-272) on `N` zeros for band `b` returns and leaves `out`: the checks pass and some schedule of the
threads ends with `out` (`Verif.RirBuilder`). -/
def Built (a : Args) (p : Prep) (b : Nat) (out : List ℝ) : Prop :=
  check a.fs a.fdl p.time (p.amp b) p.N = .pass ∧
    ∃ tasks, rirTasks a.fs a.fdl a.gran p.time (p.amp b) p.N a.threads = some tasks ∧ Builds tasks a.threads p.N (List.replicate p.N 0) out

/-- `compute_ism_rir` (111-279) can end with `res`. -/
inductive Run (a : Args) : Except Err (List ℝ) → Prop
  | raised {e : Err} (h : prepare a = .error e) : Run a (.error e)
  | refused {p : Prep} {b : Nat} (h : prepare a = .ok p) (hb : b < p.bands)
      (hc : check a.fs a.fdl p.time (p.amp b) p.N ≠ .pass) : Run a (.error .runtimeError)
  | done {p : Prep} {loc : Nat → List ℝ} (h : prepare a = .ok p) (hl : ∀ b, b < p.bands → Built a p b (loc b)) : Run a (combine a p loc)

/-! ## Arguments set up by the room -/

/-- An image source of the engine: position, damping in `rows` bands, departure direction and visibility per microphone. -/
structure EngineImg where
  pos : Nat → ℝ
  damping : Nat → ℝ
  dirs : Nat → Nat → ℝ
  visible : Nat → Bool

/-- What the room stores for a source: its images, the number of rows of the damping, and per microphone the directions and the
visibility. -/
structure SrcState where
  images : List Img
  rows : Nat
  dirs : Nat → List (Nat → ℝ)
  visible : Nat → Visible

/-- A source before any simulation (soundsource.py:56-61): it is its own image, with damping 1. -/
def SrcState.fresh (position : Nat → ℝ) (dirs : Nat → List (Nat → ℝ)) (visible : Nat → Visible) : SrcState :=
  ⟨[⟨position, fun _ => 1⟩], 1, dirs, visible⟩

/-- `image_source_model` for one source (room.py:2123-2177), without the random displacement; `inside m` is `self.is_inside` for
microphone `m`. -/
def imageSourceModel (st : SrcState) (engine : List EngineImg) (rows : Nat) (inside : Nat → Bool) : SrcState :=
  if 0 < engine.length then
    { images := engine.map fun g => ⟨g.pos, g.damping⟩
      rows := rows
      dirs := fun m => engine.map fun g => g.dirs m
      visible := fun m => .mask (engine.map fun g => if inside m then g.visible m else false) }
  else { st with dirs := fun _ => [fun _ => 0], visible := fun _ => .index [0] }

/-- The settings of the room that do not depend on the source. -/
structure Setting where
  dim : Nat
  micGain : Nat → Option ((Nat → ℝ) → ℝ)
  fdl : Nat
  c : ℝ
  fs : Int
  air : Option (List ℝ)
  analysis : Nat → List ℝ → List ℝ
  gran : Nat
  threads : Nat

/-- The call of `compute_ism_rir` for microphone `m` at `mic` (room.py:2307-2319). -/
def argsOf (s : Setting) (st : SrcState) (srcGain : Option ((Nat → ℝ) → ℝ)) (m : Nat) (mic : Nat → ℝ) : Args :=
  { dim := s.dim, images := st.images, rows := st.rows, mic := mic, micGain := s.micGain m, srcGain := srcGain, dirs := st.dirs m,
    visible := st.visible m, fdl := s.fdl, c := s.c, fs := s.fs, air := s.air, analysis := s.analysis, gran := s.gran, threads := s.threads }

end Verif.IsmRir
