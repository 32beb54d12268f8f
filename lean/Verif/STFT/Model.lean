import Verif.DFT
import Verif.Py

/-!
# Model of the short-time Fourier transform

`pyroomacoustics/transform/stft.py` (class `STFT`, `compute_synthesis_window`) and the parts
of `pyroomacoustics/transform/dft.py` it uses.

Simplifications: one channel (with more channels the code applies the same operations to
every column); samples are real numbers; a buffer is a function of the index of which only
the first entries, as many as the buffer has, matter; `rfft`/`irfft` are the mathematical
transforms. `squeeze` and the array shapes derived from it are not modelled: the spectra
are a list of frames. Windows must have exactly the transform length (numpy would also
accept windows of length one).
-/

namespace Verif.STFT

open Verif.Py Verif.DFT

/-- Attributes fixed by the constructor and the padding methods (stft.py:77-137). `fixed` is
`num_frames` if given (then `fixed_input` is set). -/
structure Conf where
  N : Nat
  hop : Nat
  zf : Nat
  zb : Nat
  aw : Option (List ℝ)
  sw : Option (List ℝ)
  streaming : Bool
  fixed : Option Nat

/-- `nfft = num_samples + zb + zf` (stft.py:115,247,264). -/
def Conf.nfft (c : Conf) : Nat := c.N + c.zb + c.zf

/-- `n_state` (stft.py:146). -/
def Conf.nState (c : Conf) : Nat := c.N - c.hop

/-- `n_state_out` (stft.py:147). -/
def Conf.nStateOut (c : Conf) : Nat := c.nfft - c.hop

/-- The object. `buf` is `fft_in_buffer`, `xp` is `x_p`, `yp` is `y_p`, `out` is the array
returned by single-frame synthesis. -/
structure St where
  conf : Conf
  buf : Nat → ℝ
  xp : Nat → ℝ
  yp : Nat → ℝ
  out : Nat → ℝ
  H : Option (Nat → ℂ)
  X : List (Nat → ℂ)
  numFrames : Nat

/-- `_make_buffers` (stft.py:139-221): all buffers zero. -/
def makeBuffers (c : Conf) (H : Option (Nat → ℂ)) (numFrames : Nat) : St :=
  ⟨c, fun _ => 0, fun _ => 0, fun _ => 0, fun _ => 0, H, [], numFrames⟩

/-- The constructor (stft.py:77-137); a hop above the frame length makes
`np.zeros(n_state)` raise. -/
def create (N hop : Nat) (aw sw : Option (List ℝ)) (streaming : Bool) (fixed : Option Nat) : Except Err St :=
  if N < hop then .error .valueError
  else .ok (makeBuffers ⟨N, hop, 0, 0, aw, sw, streaming, fixed⟩ none (fixed.getD 0))

/-- `zero_pad_front` (stft.py:242-257). -/
def zeroPadFront (s : St) (zf : Nat) : St :=
  makeBuffers { s.conf with zf := zf, aw := s.conf.aw.map (fun w => List.replicate zf 0 ++ w),
                            sw := s.conf.sw.map (fun w => List.replicate zf 0 ++ w) } s.H s.numFrames

/-- `zero_pad_back` (stft.py:259-274). -/
def zeroPadBack (s : St) (zb : Nat) : St :=
  makeBuffers { s.conf with zb := zb, aw := s.conf.aw.map (fun w => w ++ List.replicate zb 0),
                            sw := s.conf.sw.map (fun w => w ++ List.replicate zb 0) } s.H s.numFrames

/-- `set_filter` with time-domain coefficients (stft.py:276-321). The filter is stored before
the length check; the object after a refusal is the second component. -/
noncomputable def setFilter (s : St) (h : List ℝ) (zb zf : Option Nat) : Except Err Unit × St :=
  let s1 := match zb with | some z => zeroPadBack s z | none => s
  let s2 := match zf with | some z => zeroPadFront s1 z | none => s1
  let s3 := { s2 with H := some (rfft s2.conf.nfft (fun n => h.getD n 0)) }
  if s3.conf.nfft < s3.conf.N + h.length - 1 then (.error .valueError, s3) else (.ok (), s3)

/-- Assignment to a slice: `b[start : start+len] = v`. -/
def putSlice (b : Nat → ℝ) (start len : Nat) (v : Nat → ℝ) : Nat → ℝ :=
  fun i => if start ≤ i ∧ i < start + len then v (i - start) else b i

/-- Multiplication by an optional window (dft.py:225-226, 276-277). -/
def applyWin (w : Option (List ℝ)) (nfft : Nat) (x : Nat → ℝ) : Except Err (Nat → ℝ) :=
  match w with
  | none => .ok x
  | some l => if l.length = nfft then .ok (fun i => l.getD i 0 * x i) else .error .valueError

/-- `DFT.analysis` (dft.py:202-237). With a transform of one point the buffers of the object
are squeezed to zero dimensions and the shape check fails while formatting its message. -/
noncomputable def dftAnalysis (w : Option (List ℝ)) (nfft : Nat) (x : Nat → ℝ) :
    Except Err ((Nat → ℝ) × (Nat → ℂ)) :=
  if nfft = 1 then .error .indexError
  else
    match applyWin w nfft x with
    | .error e => .error e
    | .ok y => .ok (y, rfft nfft y)

/-- Analysis of one frame (`_analysis_single`, stft.py:436-454, and the body of the loop of
`_analysis_streaming`, 466-478): the window is multiplied into the buffer in place. -/
noncomputable def frame (s : St) (xn : Nat → ℝ) : Except Err (St × (Nat → ℂ)) :=
  let c := s.conf
  let b1 := putSlice s.buf (c.zf + c.nState) c.hop xn
  let xp := fun i => b1 (c.zf + c.hop + i)
  match dftAnalysis c.aw c.nfft b1 with
  | .error e => .error e
  | .ok (b2, X) => .ok ({ s with buf := putSlice b2 c.zf c.nState xp, xp := xp }, X)

/-- The loop of `_analysis_streaming` (stft.py:462-478): `count` frames, the next one at
sample `n` of `x`. (The branch for a single frame does the same.) -/
noncomputable def frameLoop (x : Nat → ℝ) : Nat → Nat → St → Except Err (St × List (Nat → ℂ))
  | 0, _, s => .ok (s, [])
  | count + 1, n, s =>
    match frame s (fun i => x (n + i)) with
    | .error e => .error e
    | .ok (s1, X) =>
      match frameLoop x count (n + s.conf.hop) s1 with
      | .error e => .error e
      | .ok (s2, Xs) => .ok (s2, X :: Xs)

/-- `int(np.ceil(n / d))`. -/
def ceilDiv (n d : Nat) : Nat := (n + d - 1) / d

/-- `reset` (stft.py:223-240). -/
def reset (s : St) : St :=
  { s with buf := fun _ => 0, xp := fun _ => 0, yp := fun _ => 0, out := fun _ => 0,
           X := s.X.map (fun _ => fun _ => 0) }

/-- One column of `_analysis_non_streaming` (stft.py:480-518): zero padding, window, transform. -/
noncomputable def nsFrame (c : Conf) (x : Nat → ℝ) (k : Nat) : Except Err (Nat → ℂ) :=
  match dftAnalysis c.aw c.nfft (fun i => if c.zf ≤ i ∧ i < c.zf + c.N then x (k * c.hop + (i - c.zf)) else 0) with
  | .error e => .error e
  | .ok (_, X) => .ok X

/-- Number of frames and required length in non-streaming mode (stft.py:383-402). -/
def nsFrames (c : Conf) (len : Nat) : Nat :=
  if len < c.N then 1 else ceilDiv (len - c.N) c.hop + 1

/-- `analysis` (stft.py:323-434). The missing samples are zeros (`getD`). -/
noncomputable def analysis (s : St) (x : List ℝ) : Except Err (St × List (Nat → ℂ)) :=
  let c := s.conf
  let run (s : St) (frames : Nat) : Except Err (St × List (Nat → ℂ)) :=
    match frameLoop (fun i => x.getD i 0) frames 0 s with
    | .error e => .error e
    | .ok (s1, Xs) => .ok ({ s1 with X := Xs, numFrames := frames }, Xs)
  let runNs (s : St) (frames : Nat) : Except Err (St × List (Nat → ℂ)) :=
    match (List.range frames).mapM (nsFrame c (fun i => x.getD i 0)) with
    | .error e => .error e
    | .ok Xs => .ok ({ reset s with X := Xs, numFrames := frames }, Xs)
  if c.streaming then
    match c.fixed with
    | some n => if x.length ≠ n * c.hop then .error .valueError else run s n
    | none => if c.hop = 0 then .error .zeroDivision else run s (ceilDiv x.length c.hop)
  else
    match c.fixed with
    | some n =>
      -- stft.py:374, over the integers
      if (x.length : Int) ≠ (c.hop : Int) * ((n : Int) - 1) + c.N then .error .valueError else runNs s n
    | none =>
      if x.length < c.N then runNs s 1
      else if c.hop = 0 then .error .zeroDivision
      else runNs s (nsFrames c x.length)

/-- `process` (stft.py:569-612). -/
noncomputable def process (s : St) : St :=
  match s.H with
  | none => s
  | some H => { s with X := s.X.map (fun F k => F k * H k) }

/-- `_overlap_and_add` (stft.py:710-725). -/
def overlapAdd (s : St) (x : Nat → ℝ) : St × (Nat → ℝ) :=
  let c := s.conf
  let out : Nat → ℝ := fun i => x i
  if 0 < c.nStateOut then
    let m := min c.hop c.nStateOut
    let out := fun i => if i < m then out i + s.yp i else out i
    let y1 := fun i => if i < c.nStateOut - c.hop then s.yp (i + c.hop) else s.yp i
    let y2 := fun i => if c.nStateOut - c.hop ≤ i then 0 else y1 i
    let y3 := fun i => y2 i + x (c.nfft - c.nStateOut + i)
    ({ s with yp := y3, out := out }, out)
  else ({ s with out := out }, out)

/-- Synthesis of the frames (stft.py:646-708): inverse transform, window, overlap-add; each
frame gives `hop` output samples. -/
noncomputable def synthLoop : List (Nat → ℂ) → St → Except Err (St × List ℝ)
  | [], s => .ok (s, [])
  | F :: Fs, s =>
    match applyWin s.conf.sw s.conf.nfft (irfft s.conf.nfft F) with
    | .error e => .error e
    | .ok x =>
      let (s1, out) := overlapAdd s x
      match synthLoop Fs s1 with
      | .error e => .error e
      | .ok (s2, y) => .ok (s2, (List.range s.conf.hop).map out ++ y)

/-- `synthesis()` (stft.py:614-708): nothing is returned if there are no frames. -/
noncomputable def synthesis (s : St) : Except Err (St × List ℝ) := synthLoop s.X s

/-! ## Synthesis window -/

/-- The loop moving the window back (stft.py:844-846); `m` is `-n`. -/
def backLoop (hop L m : Nat) : Nat :=
  if 0 < hop ∧ m + hop < L then backLoop hop L (m + hop) else m
termination_by L - m

/-- Contribution of the window moved by `n` (stft.py:850-855). -/
def shiftedSq (w : Nat → ℝ) (L : Nat) (n : Int) (i : Nat) : ℝ :=
  if n = 0 then w i ^ 2
  else if n < 0 then (if (i : Int) < n + L then w ((L : Int) - (n + L) + i).toNat ^ 2 else 0)
  else (if n ≤ i then w ((i : Int) - n).toNat ^ 2 else 0)

/-- The loop summing the contributions (stft.py:849-857). -/
def normLoop (w : Nat → ℝ) (hop L : Nat) (n : Int) (norm : Nat → ℝ) : Nat → ℝ :=
  if 0 < hop ∧ n < L then normLoop w hop L (n + hop) (fun i => norm i + shiftedSq w L n i) else norm
termination_by ((L : Int) - n).toNat
decreasing_by omega

/-- `compute_synthesis_window` (stft.py:823-859). (With hop 0 the code does not terminate.) -/
noncomputable def synthesisWindow (w : List ℝ) (hop : Nat) : List ℝ :=
  let L := w.length
  let norm := normLoop (fun i => w.getD i 0) hop L (-(backLoop hop L 0 : Int)) (fun _ => 0)
  (List.range L).map (fun i => w.getD i 0 / norm i)

end Verif.STFT
