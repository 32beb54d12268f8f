import Verif.Py
import Verif.DFT
import Mathlib.Analysis.SpecialFunctions.Log.Base

/-!
# Model of the structured matrix products

`pyroomacoustics/adaptive/util.py:25-208`. Entries are real numbers without rounding (with
complex arguments `rfft` drops the imaginary part). The argument `A` is a one- or
two-dimensional array. Empty `c` or `r` are modelled as an error (`log2` of zero or less).
-/

namespace Verif.Toeplitz

open Verif.Py Verif.DFT Finset

/-- A numpy array of one or two dimensions (`cols` is unused for one dimension). -/
structure Arr where
  twoD : Bool
  rows : Nat
  cols : Nat
  val : Nat → Nat → ℝ

/-- `int(2 ** np.ceil(np.log2(k)))`. -/
noncomputable def fftLen (k : Nat) : Nat := 2 ^ ⌈Real.logb 2 (k : ℝ)⌉₊

/-- `np.concatenate((c, zeros(zp), r[-1:0:-1]))` (util.py:47, 116); a negative number of zeros
raises. -/
def embed (c r : List ℝ) (zp : Int) : Except Err (List ℝ) :=
  if zp < 0 then .error .valueError
  else .ok (c ++ List.replicate zp.toNat 0 ++ (r.drop 1).reverse)

/-- Column `j` of `A`, cut or padded to the length of the transform, as `rfft(A, n, axis=0)` sees
it. -/
def padCol (A : Arr) (j : Nat) (i : Nat) : ℝ := if i < A.rows then A.val i j else 0

/-- `irfft(rfft(A) * rfft(x))` along the first axis (util.py:48-52, 117-129). -/
noncomputable def fftMul (N : Nat) (x : List ℝ) (A : Arr) : Nat → Nat → ℝ := fun i j =>
  irfft N (fun k => rfft N (padCol A j) k * rfft N (fun n => x.getD n 0) k) i

/-- `toeplitz_multiplication` (util.py:25-53). -/
noncomputable def toeplitzMul (c r : List ℝ) (A : Arr) : Except Err Arr :=
  if c.length + r.length ≤ 1 then .error .valueError
  else
    let m := c.length
    let n := r.length
    let N := fftLen (m + n - 1)
    let zp : Int := (N : Int) - m - n + 1
    if A.rows ≠ n then .error .valueError
    else
      match embed c r zp with
      | .error e => .error e
      | .ok x => .ok ⟨A.twoD, min m N, A.cols, fftMul N x A⟩

/-- Keyword arguments of `mkl_toeplitz_multiplication`; `out` only provides scratch memory. -/
structure MklArgs where
  padded : Bool := false
  fftLen : Option Nat := none

/-- `if fft_len is None: fft_len = ...` (util.py:109-110). -/
noncomputable def MklArgs.len (a : MklArgs) (k : Nat) : Nat :=
  match a.fftLen with
  | none => Toeplitz.fftLen k
  | some N => N

/-- `mkl_toeplitz_multiplication` (util.py:82-131). `out *= xf[:, None]` needs two
dimensions (a vector would be broadcast to a matrix, which cannot be stored in place). -/
noncomputable def mklToeplitzMul (hasMkl : Bool) (c r : List ℝ) (A : Arr) (k : MklArgs) : Except Err Arr :=
  if !hasMkl then .error .valueError
  else if c.length + r.length ≤ 1 then .error .valueError
  else
    let m := c.length
    let n := r.length
    let N := k.len (m + n - 1)
    let zp : Int := (N : Int) - m - n + 1
    if (k.padded = false ∧ A.rows ≠ n) ∨ (k.padded = true ∧ A.rows ≠ N) then .error .valueError
    else
      match embed c r zp with
      | .error e => .error e
      | .ok x =>
        if !A.twoD then .error .valueError
        else .ok ⟨true, min m N, A.cols, fftMul N x A⟩

/-- `hankel_multiplication` (util.py:56-79). -/
noncomputable def hankelMul (hasMkl : Bool) (c r : List ℝ) (A : Arr) (mkl : Bool := true) (k : MklArgs := {}) :
    Except Err Arr :=
  let rev (x : Except Err Arr) : Except Err Arr :=
    match x with
    | .error e => .error e
    | .ok y => .ok { y with val := fun i j => y.val (y.rows - 1 - i) j }
  if mkl && hasMkl then rev (mklToeplitzMul hasMkl c.reverse r A k)
  else if !A.twoD then .error .indexError
  else rev (toeplitzMul c.reverse r { A with rows := min A.rows r.length })

/-- `toeplitz_strang_circ_approx` (util.py:170-193), first column. -/
def strang (r : List ℝ) : Except Err (List ℝ) :=
  let n := r.length
  let m := if n % 2 = 0 then n / 2 else (n - 1) / 2
  -- `r[m:0:-1]`
  setSlice r (some (-(m : Int))) none ((r.take (m + 1)).drop 1).reverse

/-- `toeplitz_opt_circ_approx` (util.py:196-222), first column. The division by `n` is never
evaluated on an empty array. -/
noncomputable def optCirc (r : List ℝ) : List ℝ :=
  let n := r.length
  let rRev : List ℝ := (0 : ℝ) :: (r.drop 1).reverse
  let c := (List.range n).map fun i : Nat => ((i : ℝ) * rRev.getD i 0 + ((n : ℝ) - i) * r.getD i 0) / n
  c.take 1 ++ (c.drop 1).reverse

/-- `scipy.linalg.circulant` (util.py:190, 219). -/
def circulant (c : List ℝ) (i j : Nat) : ℝ := c.getD ((i + c.length - j) % c.length) 0

end Verif.Toeplitz
