import Verif.STFT.Model

/-!
# Specification of the short-time Fourier transform
-/

namespace Verif.STFT

open Verif.Py Verif.DFT Finset

/-- A signal seen as a sequence over the integers, zero outside. -/
def sigAt (sig : List ℝ) (j : Int) : ℝ := if 0 ≤ j then sig.getD j.toNat 0 else 0

/-- Sample of a window; no window is a window of ones. -/
def winAt (w : Option (List ℝ)) (i : Nat) : ℝ :=
  match w with
  | none => 1
  | some l => l.getD i 0

/-- A signal extended by zeros to a whole number of hops. -/
def padded (hop : Nat) (x : List ℝ) : List ℝ := x ++ List.replicate ((hop - x.length % hop) % hop) 0

/-- The frame whose last sample is sample `t - 1` of `g`: `zf` zeros, the last `N` samples,
`zb` zeros, multiplied by the analysis window. -/
def block (c : Conf) (g : Int → ℝ) (t : Int) (i : Nat) : ℝ :=
  winAt c.aw i * (if c.zf ≤ i ∧ i < c.zf + c.N then g (t - c.N + (i - c.zf)) else 0)

/-- Usable configurations: hop between one and the frame length, a transform of at least
two points, windows of the length of the transform. -/
structure Conf.Ok (c : Conf) : Prop where
  hop_pos : 1 ≤ c.hop
  hop_le : c.hop ≤ c.N
  nfft_ge : 2 ≤ c.nfft
  aw_len : ∀ w ∈ c.aw, w.length = c.nfft
  sw_len : ∀ w ∈ c.sw, w.length = c.nfft

/-- A history of calls to `analysis`: the spectra returned by each call. -/
noncomputable def runAnalysis (s : St) : List (List ℝ) → Except Err (St × List (List (Nat → ℂ)))
  | [] => .ok (s, [])
  | x :: xs =>
    match analysis s x with
    | .error e => .error e
    | .ok (s1, X) =>
      match runAnalysis s1 xs with
      | .error e => .error e
      | .ok (s2, Xs) => .ok (s2, X :: Xs)

/-- A history of streaming: each signal goes through `analysis`, `process`, `synthesis`. The
outputs of all calls, concatenated. -/
noncomputable def runPipe (s : St) : List (List ℝ) → Except Err (St × List ℝ)
  | [] => .ok (s, [])
  | x :: xs =>
    match analysis s x with
    | .error e => .error e
    | .ok (s1, _) =>
      match synthesis (process s1) with
      | .error e => .error e
      | .ok (s2, y) =>
        match runPipe s2 xs with
        | .error e => .error e
        | .ok (s3, ys) => .ok (s3, y ++ ys)

/-- The overlap-add of frames `G f`, `nfft` samples each, `hop` apart, at sample `m`. -/
noncomputable def ola (nfft hop frames : Nat) (G : Nat → Nat → ℝ) (m : Nat) : ℝ :=
  ∑ f ∈ range frames, if f * hop ≤ m ∧ m - f * hop < nfft then G f (m - f * hop) else 0

end Verif.STFT
