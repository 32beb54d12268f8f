import Verif.Py
import Mathlib.Analysis.SpecialFunctions.Log.Base
import Mathlib.Analysis.SpecialFunctions.Pow.Real
import Mathlib.Data.List.ProdSigma

/-!
# Model of `Room.simulate`

`pyroomacoustics/room.py`, 2357-2486. Samples are real numbers. `scipy.signal.fftconvolve` is the full convolution (its rounding is not modelled).
The random numbers of the generator are an argument: standard normal numbers, multiplied with the standard deviation.
-/

namespace Verif.Simulate

open Py (Err)

/-- The attributes of a `SoundSource` that `simulate` uses. -/
structure Source where
  signal : Option (List ℝ)
  delay : ℝ

/-- `fftconvolve(h, sig)`; empty if one of them is empty. -/
noncomputable def fftconvolve (h x : List ℝ) : List ℝ :=
  if h.length = 0 ∨ x.length = 0 then [] else
  (List.range (h.length + x.length - 1)).map fun i =>
    ((List.range h.length).map fun j => if j ≤ i then h.getD j 0 * x.getD (i - j) 0 else 0).sum

/-- numpy `a[s:e] += v`. -/
noncomputable def addSlice (a : List ℝ) (s e : Int) (v : List ℝ) : Except Err (List ℝ) :=
  let old := Py.slice a (some s) (some e)
  if v.length = old.length then Py.setSlice a (some s) (some e) (List.zipWith (· + ·) old v)
  else match v with
    | [x] => Py.setSlice a (some s) (some e) (old.map (· + x))
    | _ => .error .valueError

/-- `np.array(l).max()`. -/
def npMax : List Int → Except Err Int
  | [] => .error .valueError
  | x :: xs => .ok (xs.foldl max x)

/-- `int(np.floor(source.delay * fs))` (2452). -/
noncomputable def Source.start (s : Source) (fs : ℝ) : Int := ⌊s.delay * fs⌋

/-- `f` (2432-2434): `len` of a missing signal raises. -/
noncomputable def sigEnd (fs : ℝ) (s : Source) : Except Err Int :=
  match s.signal with
  | none => .error .typeError
  | some x => .ok (x.length + s.start fs)

/-- `self.rir[m][s]`. -/
def rirAt (rir : List (List (List ℝ))) (m s : Nat) : Except Err (List ℝ) := do
  let r ← Py.get rir m
  Py.get r s

/-- The length of the signals (2426-2438). -/
noncomputable def simLength (fs : ℝ) (srcs : List Source) (rir : List (List (List ℝ))) (M : Nat) : Except Err Int := do
  let lens ← ((List.range M).product (List.range srcs.length)).mapM fun ms => (rirAt rir ms.1 ms.2).map fun h => (h.length : Int)
  let maxLenRir ← npMax lens
  let ends ← srcs.mapM (sigEnd fs)
  let maxSigLen ← npMax ends
  let L := maxLenRir + maxSigLen - 1
  if L % 2 = 1 then return L + 1 else return L

/-- One turn of the loop (2447-2456) for the row `[s, m]`. -/
noncomputable def rowStep (fs : ℝ) (srcs : List Source) (rir : List (List (List ℝ))) (ms : Nat × Nat) (row : List ℝ) : Except Err (List ℝ) := do
  let src ← Py.get srcs ms.2
  match src.signal with
  | none => return row
  | some sig =>
    let d := src.start fs
    let h ← rirAt rir ms.1 ms.2
    addSlice row d (d + sig.length + h.length - 1) (fftconvolve h sig)

/-- `premix_signals` after the loop (2440-2456), by pairs (microphone, source). -/
noncomputable def premix (fs : ℝ) (srcs : List Source) (rir : List (List (List ℝ))) (M : Nat) : Except Err (Nat × (Nat × Nat → List ℝ)) := do
  let L ← simLength fs srcs rir M
  if L < 0 then .error .valueError
  let P ← ((List.range M).product (List.range srcs.length)).foldlM (fun (P : Nat × Nat → List ℝ) ms => do
    let row ← rowStep fs srcs rir ms (P ms)
    return fun k => if k = ms then row else P k) (fun _ => List.replicate L.toNat 0)
  return (L.toNat, P)

/-- `np.sum(premix_signals, axis=0)`. -/
noncomputable def mixDown (L M S : Nat) (P : Nat × Nat → List ℝ) : List (List ℝ) :=
  (List.range M).map fun m => (List.range L).map fun i => ((List.range S).map fun s => (P (m, s)).getD i 0).sum

/-- `np.mean`. -/
noncomputable def mean (x : List ℝ) : ℝ := x.sum / x.length

/-- `np.std`. -/
noncomputable def std (x : List ℝ) : ℝ := Real.sqrt (mean (x.map fun v => (v - mean x) ^ 2))

/-- What is left after a call: the recorded signals (`none` if every sample is infinite or not a number), the individual signals and `sigma2_awgn`. -/
structure Result where
  signals : Option (List (List ℝ))
  premix : Nat × Nat → List ℝ
  sigma2 : Option ℝ

/-- Adding the noise (2473-2476). -/
noncomputable def addNoise (sigma2 : Option ℝ) (z : Nat → Nat → ℝ) (signals : List (List ℝ)) : List (List ℝ) :=
  match sigma2 with
  | none => signals
  | some v => signals.zipIdx.map fun rm => rm.1.zipIdx.map fun xi => xi.1 + Real.sqrt v * z rm.2 xi.2

open Classical in
/-- `Room.simulate` (2357-2486) with impulse responses `rir` (the current ones), without callback. `micArray` is the number of microphones, if there is an
array. -/
noncomputable def simulate (fs : ℝ) (srcs : List Source) (rir : List (List (List ℝ))) (micArray : Option Nat) (sigma2 : Option ℝ) (z : Nat → Nat → ℝ)
    (snr : Option ℝ) (ref : Int) : Except Err Result :=
  if srcs.length = 0 then .error .valueError else
  match micArray with
  | none => .error .valueError
  | some M =>
    match premix fs srcs rir M with
    | .error e => .error e
    | .ok (L, P) =>
      match snr with
      | none => .ok ⟨some (addNoise sigma2 z (mixDown L M srcs.length P)), P, sigma2⟩
      | some q =>
        match Py.normIdx M ref with
        | none => .error .indexError
        | some r =>
          let denom := fun s : Nat => std (P (r, s))
          let P' := fun ms : Nat × Nat => (P ms).map (· / denom ms.2)
          let v := (10 : ℝ) ^ (-q / 10) * srcs.length
          let signals := if ∃ s, s < srcs.length ∧ denom s = 0 then none else some (addNoise (some v) z (mixDown L M srcs.length P'))
          .ok ⟨signals, P', some v⟩

/-- `Room.simulate` with `callback_mix` (2458-2461): the mixture of the callback is recorded and `sigma2_awgn` is forgotten. -/
noncomputable def simulateCallback (fs : ℝ) (srcs : List Source) (rir : List (List (List ℝ))) (micArray : Option Nat)
    (cb : (Nat × Nat → List ℝ) → List (List ℝ)) : Except Err Result :=
  if srcs.length = 0 then .error .valueError else
  match micArray with
  | none => .error .valueError
  | some M =>
    match premix fs srcs rir M with
    | .error e => .error e
    | .ok (_, P) => .ok ⟨some (cb P), P, none⟩

end Verif.Simulate
