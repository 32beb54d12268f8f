import Verif.DFT
import Verif.IsmRir.Model
import Mathlib.Data.Nat.Log

/-!
# Model of the image source method with directivities given as impulse responses

`pyroomacoustics/simulation/ism.py`, 40-58 (`multi_convolve`) and the branch "Case 3" (195-234) of `compute_ism_rir`. The lines before
(111-170) are those of `Verif.IsmRir`.

Samples are real numbers (the conversions to `float32` are not modelled). The filter design of the octave bands is an argument. A
length below one in `multi_convolve` (in numpy the logarithm fails) is a `ValueError` of the model.
-/

namespace Verif.IsmIr

open Py (Err)
open DFT
open RirBuilder (fracRow oddLen delaySumCheck delaySumTasks Builds)
open IsmRir (Img Visible select Prep)

/-- A two-dimensional array: rows of `len` samples. -/
structure Arr where
  len : Nat
  rows : List (List ℝ)

/-- Row `r`, zero behind its end. -/
def Arr.row (s : Arr) (r i : Nat) : ℝ := (s.rows.getD r []).getD i 0

/-- The loop that finds `max_len` (41-47). -/
def maxLen (s : Arr) (ss : List Arr) : Except Err Int :=
  ss.foldlM (fun n t => if s.rows.length = t.rows.length then .ok (n + t.len - 1) else .error .valueError) (s.len : Int)

/-- `fd` for row `r` at frequency `k` (51-53); transforms have `n` points. -/
noncomputable def product (n : Nat) (s : Arr) (ss : List Arr) (r k : Nat) : ℂ :=
  ss.foldl (fun fd t => fd * rfft n (t.row r) k) (rfft n (s.row r) k)

/-- `multi_convolve(s, *ss)` (40-58). -/
noncomputable def multiConvolve (s : Arr) (ss : List Arr) : Except Err Arr := do
  let len ← maxLen s ss
  if len ≤ 0 then .error .valueError else
  let n := 2 ^ Nat.clog 2 len.toNat
  .ok ⟨len.toNat, (List.range s.rows.length).map fun r => (List.range len.toNat).map (irfft n (product n s ss r))⟩

/-- A directivity: a gain (`is_impulse_response` is false), or a filter with `taps` samples, as functions of the position or direction
of an image. -/
inductive Directivity
  | gain (f : (Nat → ℝ) → ℝ)
  | ir (taps : Nat) (f : (Nat → ℝ) → List ℝ)

/-- The directivity as a factor of `oct_band_amplitude` (153-156, 167-170). -/
def Directivity.toGain : Option Directivity → Option ((Nat → ℝ) → ℝ)
  | some (.gain f) => some f
  | _ => none

/-- The arguments of `compute_ism_rir`; those of `base` except for the gains, the directivities, `octave_bands.synthesis` (which returns
`synthLen` samples), `min_phase`, and the constant `octave_bands_n_fft`. -/
structure Args where
  base : IsmRir.Args
  mic : Option Directivity
  src : Option Directivity
  synthesis : List ℝ → List ℝ
  synthLen : Nat
  minPhase : Bool
  nfft : Nat

/-- The arguments as seen by the lines that compute the amplitudes. -/
def Args.gains (a : Args) : IsmRir.Args := { a.base with micGain := Directivity.toGain a.mic, srcGain := Directivity.toGain a.src }

/-- `full_band_imp_resp` after line 156: the filters of the microphone. -/
def micFilters (a : Args) (images : List Img) : List Arr :=
  match a.mic with
  | some (.ir taps f) => [⟨taps, images.map fun g => f g.pos⟩]
  | _ => []

/-- What lines 158-168 append: the filters of the source. -/
def srcFilters (a : Args) : Except Err (List Arr) :=
  match a.src with
  | some (.ir taps f) => do
    let dirs ← select a.base.visible a.base.dirs
    .ok [⟨taps, dirs.map f⟩]
  | _ => .ok []

/-- `time` of the images (134), in samples (197). -/
noncomputable def sampleFrac (a : Args) (images : List Img) : List ℝ := images.map fun g => a.base.dist g.pos / a.base.c * a.base.fs

/-- A row of `frac_delays` (202-208): a filter of odd length, and a zero if `fdl` is even. -/
noncomputable def fracDelay (a : Args) (x : ℝ) : Option (List ℝ) :=
  (fracRow a.base.fdl a.base.gran (x - ⌊x⌋)).map fun row => row ++ List.replicate (a.base.fdl - oddLen a.base.fdl) 0

/-- What is given to `delay_sum`. -/
structure Parts where
  delays : List Int
  irs : Arr
  bands : Nat

/-- `irs *= oct_band_amplitude.T` (213-214) with one band. -/
noncomputable def scale (amp : List ℝ) (x : Arr) : Arr := ⟨x.len, List.zipWith (fun c row => row.map (· * c)) amp x.rows⟩

/-- Row `j` of `octave_bands.synthesis(oct_band_amplitude.T)` for all images (219). -/
noncomputable def bandFilters (a : Args) (p : Prep) (n : Nat) : Arr :=
  ⟨a.synthLen, (List.range n).map fun j => a.synthesis ((List.range p.bands).map fun b => (p.amp b).getD j 0)⟩

/-- `signals[0]` and the others. -/
noncomputable def convolveAll : List Arr → Except Err Arr
  | [] => .error .indexError
  | s :: ss => multiConvolve s ss

/-- Lines 210-221. -/
noncomputable def convolved (a : Args) (p : Prep) (filters : List Arr) (frac : Arr) : Except Err Arr :=
  if p.bands = 1 then (convolveAll (filters ++ [frac])).map (scale (p.amp 0))
  else convolveAll (filters ++ [frac] ++ [bandFilters a p frac.rows.length])

/-- Lines 124-221, if there is a directivity that is an impulse response; `frac` are the rows written by `fractional_delay`. -/
noncomputable def prepare (a : Args) (frac : List (List ℝ)) : Except Err Parts := do
  let p ← IsmRir.prepare a.gains
  let images ← select a.base.visible a.base.images
  let src ← srcFilters a
  let irs ← convolved a p (micFilters a images ++ src) ⟨a.base.fdl, frac⟩
  .ok ⟨(sampleFrac a images).map fun x => ⌊x⌋, irs, p.bands⟩

/-- The images given to `fractional_delay`. -/
def imagesOf (a : Args) : List Img := (select a.base.visible a.base.images).toOption.getD []

/-- `n_max = int(time_ip.max() + irs.shape[1])` (224). -/
def nMax (p : Parts) : Nat := ((match p.delays with | [] => 0 | d :: ds => ds.foldl max d) + (p.irs.len : Int)).toNat

/-- Lines 230-234. -/
def trim (a : Args) (bands : Nat) (rir : List ℝ) : List ℝ := if 1 < bands ∧ a.minPhase = false then rir.drop (a.nfft / 2) else rir

/-- `len(full_band_imp_resp) > 0` (194). -/
def Args.hasIr (a : Args) : Prop := (∃ taps f, a.mic = some (.ir taps f)) ∨ ∃ taps f, a.src = some (.ir taps f)

/-- `compute_ism_rir` (111-279) can end with `res`. If a directivity is an impulse response: the filters written by `fractional_delay`
have values (207-208), the checks of `delay_sum` pass and some schedule of its threads ends (226-228). -/
inductive Run (a : Args) : Except Err (List ℝ) → Prop
  | other {res : Except Err (List ℝ)} (hi : ¬ a.hasIr) (h : IsmRir.Run a.gains res) : Run a res
  | raised {frac : List (List ℝ)} {e : Err} (hi : a.hasIr) (hf : (sampleFrac a (imagesOf a)).mapM (fracDelay a) = some frac)
      (h : prepare a frac = .error e) : Run a (.error e)
  | refused {frac : List (List ℝ)} {p : Parts} (hi : a.hasIr) (hf : (sampleFrac a (imagesOf a)).mapM (fracDelay a) = some frac)
      (h : prepare a frac = .ok p) (hc : delaySumCheck p.irs.rows.length p.irs.len p.delays (nMax p) ≠ .pass) : Run a (.error .runtimeError)
  | done {frac : List (List ℝ)} {p : Parts} {tasks : List (List (Int × ℝ))} {out : List ℝ} (hi : a.hasIr)
      (hf : (sampleFrac a (imagesOf a)).mapM (fracDelay a) = some frac) (h : prepare a frac = .ok p)
      (hc : delaySumCheck p.irs.rows.length p.irs.len p.delays (nMax p) = .pass)
      (ht : delaySumTasks p.irs.rows p.irs.len p.delays (nMax p) a.base.threads = some tasks)
      (hb : Builds tasks a.base.threads (nMax p) (List.replicate (nMax p) 0) out) : Run a (.ok (trim a p.bands out))

/-- The filter bank of the room, its `min_phase` (room.py:949-953, 993) and the constant `octave_bands_n_fft`. -/
structure Bank where
  synthesis : List ℝ → List ℝ
  synthLen : Nat
  minPhase : Bool
  nfft : Nat

/-- The call of `compute_ism_rir` for microphone `m` at `pos` with directivity `mic` (room.py:2307-2319). -/
def argsOf (s : IsmRir.Setting) (st : IsmRir.SrcState) (mic src : Option Directivity) (o : Bank) (m : Nat) (pos : Nat → ℝ) : Args :=
  ⟨IsmRir.argsOf s st none m pos, mic, src, o.synthesis, o.synthLen, o.minPhase, o.nfft⟩

end Verif.IsmIr
