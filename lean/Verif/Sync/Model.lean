import Verif.Py
import Verif.DFT

/-!
# Model of the synchronisation helpers

`pyroomacoustics/sync.py`. Samples are real numbers without rounding; NaN is `none`. The
interpolation factor is a natural number.
-/

namespace Verif.Sync

open Verif.Py Verif.DFT Finset

/-- `fft.rfft(x, n=N)` for `N` not smaller than the length: zero padded. -/
noncomputable def spectrum (N : Nat) (x : List ℝ) : Nat → ℂ := rfft N (fun n => x.getD n 0)

/-- `X /= np.abs(X) + np.mean(np.abs(X)) * 1e-10` (sync.py:73-76). If the mean is zero all
coefficients are 0/0. -/
noncomputable def whiten (N : Nat) (X : Nat → ℂ) : Option (Nat → ℂ) :=
  let mean := (∑ k ∈ range (N / 2 + 1), ‖X k‖) / (N / 2 + 1 : Nat)
  let eps := mean * 1e-10
  if mean = 0 then none else some fun k => X k / ((‖X k‖ + eps : ℝ) : ℂ)

/-- The cross-spectrum `X1 * np.conj(X2)` (sync.py:69-80). -/
noncomputable def cross (N : Nat) (x1 x2 : List ℝ) (phat : Bool) : Option (Nat → ℂ) :=
  let X1 := spectrum N x1
  let X2 := spectrum N x2
  if phat then
    match whiten N X1, whiten N X2 with
    | some Y1, some Y2 => some fun k => Y1 k * (starRingEnd ℂ) (Y2 k)
    | _, _ => none
  else some fun k => X1 k * (starRingEnd ℂ) (X2 k)

/-- `fft.irfft(S, n=M)` where `S` has `N/2+1` coefficients and `M` is a multiple of `N`: missing
coefficients are zero. -/
noncomputable def irfftPad (N M : Nat) (S : Option (Nat → ℂ)) : List (Option ℝ) :=
  (List.range M).map fun n => S.map fun S => irfft M (fun k => if k ≤ N / 2 then S k else 0) n

/-- `correlate` (sync.py:47-83). Transforms of length zero raise. -/
noncomputable def correlate (x1 x2 : List ℝ) (interp : Nat) (phat : Bool) : Except Err (List (Option ℝ)) :=
  let N1 := x1.length
  let N2 := x2.length
  if N1 + N2 ≤ 1 then .error .valueError
  else
    let N := N1 + N2 - 1
    if N * interp = 0 then .error .valueError
    else
      let out := irfftPad N (N * interp) (cross N x1 x2 phat)
      .ok (slice out (some (-(interp : Int) * ((N2 : Int) - 1))) none ++ slice out none (some ((interp : Int) * N1)))

/-- Is the value `b` preferred to `a` by `np.argmax`? NaN counts as largest. -/
noncomputable def better (a b : Option ℝ) : Bool :=
  match a, b with
  | none, _ => false
  | some _, none => true
  | some a, some b => open Classical in decide (a < b)

/-- `np.argmax`: index of the first largest value. -/
noncomputable def argmaxFrom (i : Nat) (best : Option ℝ) (idx : Nat) : List (Option ℝ) → Nat
  | [] => idx
  | v :: t => if better best v then argmaxFrom (i + 1) v i t else argmaxFrom (i + 1) best idx t

/-- `np.argmax`; an empty array raises. -/
noncomputable def argmax : List (Option ℝ) → Except Err Nat
  | [] => .error .valueError
  | v :: t => .ok (argmaxFrom 1 v 0 t)

/-- `tdoa` (sync.py:11-44). -/
noncomputable def tdoa (sig ref : List ℝ) (interp : Nat) (phat : Bool) (fs : ℝ) : Except Err ℝ :=
  match correlate sig ref interp phat with
  | .error e => .error e
  | .ok r =>
    match argmax (r.map (Option.map abs)) with
    | .error e => .error e
    | .ok p => .ok (((p : ℝ) / interp - ((ref.length : ℝ) - 1)) / fs)

/-- `np.median`. -/
noncomputable def median (l : List ℝ) : Option ℝ :=
  let s := l.mergeSort (fun a b => open Classical in decide (a ≤ b))
  let n := l.length
  if n = 0 then none
  else if n % 2 = 1 then some (s.getD (n / 2) 0)
  else some ((s.getD (n / 2 - 1) 0 + s.getD (n / 2) 0) / 2)

/-- `int(x)`: towards zero; NaN raises. -/
noncomputable def pyInt : Option ℝ → Except Err Int
  | none => .error .valueError
  | some x => .ok (if 0 ≤ x then ⌊x⌋ else ⌈x⌉)

/-- The loop over blocks in `delay_estimation` (sync.py:94-96). -/
noncomputable def blockDelays (x1 x2 : List ℝ) (L : Nat) : Nat → Except Err (List ℝ)
  | 0 => .ok []
  | k + 1 =>
    match blockDelays x1 x2 L k with
    | .error e => .error e
    | .ok l =>
      let s : Int := k * L
      match tdoa (slice x1 (some s) (some (s + L))) (slice x2 (some s) (some (s + L))) 1 true 1 with
      | .error e => .error e
      | .ok d => .ok (l ++ [d])

/-- `delay_estimation` (sync.py:86-98). -/
noncomputable def delayEstimation (x1 x2 : List ℝ) (L : Nat) : Except Err Int :=
  if L = 0 then .error .zeroDivision
  else
    match blockDelays x1 x2 L (min x1.length x2.length / L) with
    | .error e => .error e
    | .ok l => pyInt (median l)

/-- `time_align` (sync.py:101-122). -/
noncomputable def timeAlign (ref deg : List ℝ) (L : Nat) : Except Err (List ℝ) :=
  match delayEstimation ref deg L with
  | .error e => .error e
  | .ok delay =>
    let sig := List.replicate ref.length (0 : ℝ)
    if 0 ≤ delay then
      let length := min (deg.length : Int) ((ref.length : Int) - delay)
      setSlice sig (some delay) (some (length + delay)) (slice deg none (some length))
    else
      let length := min ((deg.length : Int) + delay) (ref.length : Int)
      setSlice sig none (some length) (slice deg (some (-delay)) (some (-delay + length)))

end Verif.Sync
