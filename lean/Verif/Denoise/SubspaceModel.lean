import Mathlib.Data.Real.Basic
import Mathlib.Algebra.Module.Pi
import Verif.Py

/-!
# Model of the covariance estimates of the subspace denoiser

`pyroomacoustics/denoise/subspace.py`, class `Subspace`: `__init__` (118-160) and `update_cov_matrices` (217-260). Numbers are exact, so the casts to
`float32` do nothing. The projection that is computed from the estimates (200-214) is not modelled here.
-/

namespace Verif.Denoise

open Verif.Py (Err)

/-- A matrix; only the entries below the length of the frame are ever different from zero. -/
abbrev Mat := Nat → Nat → ℝ

/-- `np.outer(f, f)` (242). -/
def outer (f : List ℝ) : Mat := fun i j => f.getD i 0 * f.getD j 0

/-- `np.std(f) ** 2` (248). -/
noncomputable def variance (f : List ℝ) : ℝ := (f.map fun v => (v - f.sum / f.length) ^ 2).sum / f.length

/-- The attributes that `update_cov_matrices` uses. -/
structure Subspace where
  frameLen : Nat
  hop : Nat
  lookback : Nat
  skip : Nat
  thresh : ℝ
  nSamples : Nat
  input : List ℝ
  nFrames : Nat
  nNoise : List ℝ
  covSn : Mat
  covSnParts : List Mat
  covN : Mat
  covNParts : List Mat

/-- `__init__` (118-160). -/
def Subspace.init (frameLen lookback skip : Nat) (thresh : ℝ) : Except Err Subspace :=
  if frameLen % 2 = 1 then .error .valueError
  else if skip = 0 then .error .zeroDivision
  else
    let hop := frameLen / 2
    .ok ⟨frameLen, hop, lookback, skip, thresh, hop * lookback + frameLen, List.replicate (hop * lookback + frameLen) 0, lookback * (hop / skip),
      List.replicate lookback ((hop / skip : Nat) : ℝ), 0, List.replicate lookback 0, 0, List.replicate lookback 0⟩

/-- `np.roll(l, -k)` along the first axis. -/
def roll {α : Type} (k : Nat) (l : List α) : List α := l.drop k ++ l.take k

/-- `l[-1] = v`. -/
def setEnd {α : Type} (l : List α) (v : α) : List α := l.set (l.length - 1) v

/-- `range(0, hop, skip)`. -/
def steps (hop skip : Nat) : List Nat := (List.range ((hop + skip - 1) / skip)).map (· * skip)

open Classical in
/-- The loop of lines 238-251: sum for the signal, sum for the noise, number of noise frames. -/
noncomputable def Subspace.collect (s : Subspace) (input : List ℝ) : Mat × Mat × ℝ :=
  (steps s.hop s.skip).foldl (fun acc i =>
    let a := s.nSamples - s.hop - s.frameLen + i
    let f := (input.drop a).take s.frameLen
    if variance f < s.thresh then (acc.1 + outer f, acc.2.1 + outer f, acc.2.2 + 1) else (acc.1 + outer f, acc.2.1, acc.2.2)) (0, 0, 0)

/-- The fallback of lines 253-256. -/
noncomputable def fallback (old : Mat) (c : Mat × Mat × ℝ) : Mat × ℝ :=
  open Classical in if c.2.2 = 0 then (old, 1) else (c.2.1, c.2.2)

/-- `update_cov_matrices` (217-260). Without look-back the first access raises. -/
noncomputable def Subspace.update (s : Subspace) (new : List ℝ) : Except Err Subspace :=
  match s.covSnParts, s.covNParts with
  | firstSn :: _, firstN :: _ =>
    let sn := (s.nFrames : ℝ) • s.covSn - firstSn
    let n := s.nNoise.sum • s.covN - firstN
    let input := (roll s.hop s.input).take (s.input.length - s.hop) ++ new
    let c := s.collect input
    let f := fallback s.covN c
    let nNoise := setEnd (roll 1 s.nNoise) f.2
    .ok { s with
      input := input
      covSnParts := setEnd (roll 1 s.covSnParts) c.1
      covNParts := setEnd (roll 1 s.covNParts) f.1
      nNoise := nNoise
      covSn := (1 / (s.nFrames : ℝ)) • (sn + c.1)
      covN := (1 / nNoise.sum) • (n + f.1) }
  | _, _ => .error .indexError

/-- The object after the first `n` blocks of a signal. -/
noncomputable def Subspace.feed (s : Subspace) (x : Nat → ℝ) : Nat → Except Err Subspace
  | 0 => .ok s
  | n + 1 => (s.feed x n).bind fun t => t.update ((List.range s.hop).map fun i => x (n * s.hop + i))

end Verif.Denoise
