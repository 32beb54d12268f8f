import Verif.Py
import Verif.DFT
import Verif.Sync.Model
import Mathlib.Analysis.RCLike.Basic

/-!
# Model of linear prediction and related helpers

`pyroomacoustics/utilities.py`: `convmtx` (478-490), `levinson` (666-715), `autocorr`
(718-764), `lpc` (767-792), `goertzel` (795-806). No rounding.
-/

namespace Verif.LinPred

open Verif.Py Verif.DFT Finset

/-! ## Levinson recursion -/

/-- The variables `a`, `x`, `epsilon` of `levinson` (utilities.py:687-695). The right-hand side has
entries in a vector space `V`: numbers for a vector `b`, rows for a matrix `b`. -/
structure Lev (K V : Type) where
  a : List K
  x : List V
  eps : K

variable {K V : Type} [RCLike K] [AddCommGroup V] [Module K V]

/-- Body of the loop (utilities.py:697-713). `none`: a division by zero, after which all
results are NaN or infinite. The product of `r[1:j+1]` and the reversed `a` (or `x`) raises
if `r` is too short. -/
noncomputable def levStep (r : List K) (b : List V) (j : Nat) (s : Lev K V) : Except Err (Option (Lev K V)) :=
  let rc := (slice r (some 1) (some ((j : Int) + 1))).map (starRingEnd K)
  if rc.length ≠ s.x.length then .error .valueError
  else
    match get b j with
    | .error e => .error e
    | .ok bj =>
      let g : K := (List.zipWith (· * ·) rc s.a.reverse).sum
      if s.eps = 0 then .ok none
      else
        let gamma : K := -g / s.eps
        let a1 := List.zipWith (· + ·) (s.a ++ [0]) ((0 :: s.a.reverse.map (starRingEnd K)).map (gamma * ·))
        let eps1 : K := s.eps * (1 - (‖gamma‖ : K) ^ 2)
        let delta : V := (List.zipWith (fun c v => c • v) rc s.x.reverse).sum
        if eps1 = 0 then .ok none
        else
          let q : V := eps1⁻¹ • (bj - delta)
          let x1 := List.zipWith (· + ·) (s.x ++ [0]) ((a1.reverse.map (starRingEnd K)).map (fun c => c • q))
          .ok (some ⟨a1, x1, eps1⟩)

/-- The loop `for j in np.arange(1, p)`; `n` steps. -/
noncomputable def levLoop (r : List K) (b : List V) : Nat → Except Err (Option (Lev K V))
  | 0 =>
    match get r 0, get b 0 with
    | .ok r0, .ok b0 => if r0 = 0 then .ok none else .ok (some ⟨[1], [r0⁻¹ • b0], r0⟩)
    | .error e, _ => .error e
    | _, .error e => .error e
  | n + 1 =>
    match levLoop r b n with
    | .error e => .error e
    | .ok none => if r.length < n + 2 then .error .valueError else .ok none
    | .ok (some s) => levStep r b (n + 1) s

/-- `levinson` (utilities.py:666-715). -/
noncomputable def levinson (r : List K) (b : List V) : Except Err (Option (List V)) :=
  match levLoop r b (b.length - 1) with
  | .error e => .error e
  | .ok none => .ok none
  | .ok (some s) => .ok (some s.x)

/-! ## Autocorrelation -/

/-- The `method` argument of `autocorr`. -/
inductive Method
  | fft | time | numpy | pra | other
  deriving DecidableEq

/-- `np.dot` of two vectors. -/
noncomputable def dot (u v : List ℝ) : Except Err ℝ :=
  if u.length ≠ v.length then .error .valueError else .ok (List.zipWith (· * ·) u v).sum

/-- `np.array([np.dot(x[: L - m], x[m:]) for m in range(n)])` (utilities.py:748). -/
noncomputable def timeLags (x : List ℝ) : Nat → Except Err (List ℝ)
  | 0 => .ok []
  | m + 1 =>
    match timeLags x m with
    | .error e => .error e
    | .ok l =>
      match dot (slice x none (some ((x.length : Int) - m))) (slice x (some (m : Int)) none) with
      | .error e => .error e
      | .ok v => .ok (l ++ [v])

/-- `np.correlate(x, x, "full")`: entry `k` is the sum of `x[n + k - (L-1)] * x[n]`. -/
noncomputable def npCorrelate (x : List ℝ) : List ℝ :=
  (List.range (2 * x.length - 1)).map fun k : Nat =>
    ∑ n ∈ range x.length, (if x.length - 1 ≤ n + k then x.getD (n + k - (x.length - 1)) 0 else 0) * x.getD n 0

/-- The raw lags of `autocorr` (utilities.py:744-757). An empty signal raises in all methods. -/
noncomputable def rawLags (x : List ℝ) (p : Nat) (method : Method) : Except Err (List ℝ) :=
  let L := x.length
  match method with
  | .fft =>
    if L = 0 then .error .valueError
    else
      -- the default length of `irfft` is `2 * (L + 1 - 1)`
      let X := rfft (2 * L) (fun n => x.getD n 0)
      .ok (((List.range (2 * L)).map fun n => irfft (2 * L) (fun k => X k * (starRingEnd ℂ) (X k)) n).take (p + 1))
  | .time => timeLags x (p + 1)
  | .numpy =>
    if L = 0 then .error .valueError
    else .ok (slice (npCorrelate x) (some ((L : Int) - 1)) (some ((L : Int) + p)))
  | .pra =>
    match Sync.correlate x x 1 false with
    | .error e => .error e
    | .ok r => .ok (slice (r.map (·.getD 0)) (some ((L : Int) - 1)) (some ((L : Int) + p)))
  | .other => .error .valueError

/-- `autocorr` (utilities.py:718-764). Division of arrays of different lengths raises unless
one of them has length one (then it is broadcast). A division by zero is `none`. -/
noncomputable def autocorr (x : List ℝ) (p : Nat) (biased : Bool) (method : Method) : Except Err (List (Option ℝ)) :=
  match rawLags x p method with
  | .error e => .error e
  | .ok r =>
    let div (u v : ℝ) : Option ℝ := if v = 0 then none else some (u / v)
    if biased then .ok (r.map fun v => div v x.length)
    else
      let d := (List.range (p + 1)).map fun m : Nat => (x.length : ℝ) - m
      if r.length = d.length then .ok (List.zipWith div r d)
      else
        match r, d with
        | [u], d => .ok (d.map fun v => div u v)
        | r, [v] => .ok (r.map fun u => div u v)
        | _, _ => .error .valueError

/-- `lpc` (utilities.py:767-792), with the default method of `autocorr`. NaN lags give NaN. -/
noncomputable def lpc (x : List ℝ) (p : Nat) (biased : Bool) : Except Err (Option (List ℝ)) :=
  match autocorr x p biased .numpy with
  | .error e => .error e
  | .ok r =>
    if r.any (·.isNone) then .ok none
    else
      let r := r.map (·.getD 0)
      levinson (K := ℝ) (V := ℝ) (slice r none (some (p : Int))) (slice r (some 1) none)

/-! ## Convolution matrix and Goertzel's algorithm -/

/-- A matrix as numpy array. -/
structure Mat where
  rows : Nat
  cols : Nat
  val : Nat → Nat → ℝ

/-- `convmtx` (utilities.py:478-490): `toeplitz(c, r)` with `c` the zero-padded signal and `r`
zero. `n = 0` raises. -/
def convmtx (x : List ℝ) (n : Nat) : Except Err Mat :=
  if n = 0 then .error .valueError
  else
    let c := x ++ List.replicate (n - 1) 0
    let r := List.replicate n (0 : ℝ)
    .ok ⟨c.length, r.length, fun i j => if j ≤ i then c.getD (i - j) 0 else r.getD (j - i) 0⟩

/-- `scipy.signal.lfilter([1], [1, a1, a2], x)`, with the two previous outputs. -/
noncomputable def lfilter2 (a1 a2 : ℂ) (s1 s2 : ℂ) : List ℂ → List ℂ
  | [] => []
  | v :: t =>
    let s := v - a1 * s1 - a2 * s2
    s :: lfilter2 a1 a2 s s1 t

/-- `goertzel` (utilities.py:795-806). -/
noncomputable def goertzel (x : List ℂ) (k : ℝ) : Except Err ℂ :=
  if x.length = 0 then .error .zeroDivision
  else
    let f : ℝ := k / x.length
    let s := lfilter2 ((-2 * Real.cos (2 * Real.pi * f) : ℝ) : ℂ) 1 0 0 x
    match get s (-1), get s (-2) with
    | .ok s1, .ok s2 => .ok (Complex.exp (2 * Complex.I * Real.pi * f) * s1 - s2)
    | .error e, _ => .error e
    | _, .error e => .error e

end Verif.LinPred
