import Verif.Py
import Mathlib.Analysis.SpecialFunctions.Trigonometric.Basic
import Mathlib.Algebra.Order.Floor.Ring

/-!
# Delay filters and resampling

`/repo/pyroomacoustics/utilities.py` 580-589 (`low_pass_dirac`), 592-614 (`fractional_delay`), 617-663 (`fractional_delay_filter_bank`), 866-970 (`resample`).
Numbers are exact. The resampling libraries are arguments that work on each channel separately. Arrays of any dimension are a shape and a function of
the position in memory.
-/

namespace Verif.Delays

open Verif.Py

/-- `np.sinc`. -/
noncomputable def sinc (x : ℝ) : ℝ := if x = 0 then 1 else Real.sin (Real.pi * x) / (Real.pi * x)

/-- `np.hanning(L)[k]`. -/
noncomputable def hanning (L k : Nat) : ℝ := if L = 1 then 1 else 0.5 + 0.5 * Real.cos (Real.pi * (1 - (L : ℝ) + 2 * k) / ((L : ℝ) - 1))

/-- `low_pass_dirac` (580-589) for one delay. -/
noncomputable def lowPassDirac (t0 alpha Fs : ℝ) (N : Nat) : List ℝ := (List.range N).map fun (n : Nat) => alpha * sinc ((n : ℝ) - Fs * t0)

/-- `fractional_delay` (592-614) for one delay; `N` is the constant `frac_delay_length`. -/
noncomputable def fractionalDelay (N : Nat) (t0 : ℝ) : List ℝ :=
  (List.range N).map fun (n : Nat) => hanning N n * sinc ((n : ℝ) - ((N : ℝ) - 1) / 2 - t0)

/-- Minimum and maximum of a list with at least one entry. -/
noncomputable def minOf : List ℝ → Except Err ℝ
  | [] => .error .valueError
  | a :: l => .ok (l.foldl min a)

/-- `int(np.ceil(delays).max())`. -/
noncomputable def maxCeil : List ℝ → Except Err Int
  | [] => .error .valueError
  | a :: l => .ok (l.foldl (fun m v => max m ⌈v⌉) ⌈a⌉)

/-- The assignment `flat[indices] = values`, one after the other. `none`: index outside of the array. -/
def assignAll (size : Nat) (flat : Nat → ℝ) : List (Int × ℝ) → Except Err (Nat → ℝ)
  | [] => .ok flat
  | (i, v) :: l => match normIdx size i with
    | none => .error .indexError
    | some k => assignAll size (Function.update flat k v) l

/-- `fractional_delay_filter_bank` (617-663): number of columns, and the array in row-major order. -/
noncomputable def filterBank (L : Nat) (delays : List ℝ) : Except Err (Int × (Nat → ℝ)) :=
  (minOf delays).bind fun m =>
    let d := delays.map (· - m)
    (maxCeil d).bind fun c =>
      let N := d.length
      let filterLength : Int := L + c
      let entries := (List.range N).flatMap fun (i : Nat) => (List.range L).map fun (t : Nat) =>
        let di := ⌊d.getD i 0⌋
        let df := d.getD i 0 - di
        ((t : Int) + (di + filterLength * i), hanning L t * sinc ((t : ℝ) - df - ((L : ℝ) - 1) / 2))
      (assignAll (N * filterLength.toNat) (fun _ => 0) entries).map fun flat => (filterLength, flat)

/-! ## Resampling -/

/-- An array: shape and values in row-major order. -/
structure Nd where
  shape : List Nat
  val : Nat → ℝ

/-- A library that resamples one channel: number of samples and samples of the output. -/
structure Chan where
  len : Nat → Nat
  val : Nat → (Nat → ℝ) → Nat → ℝ

/-- Names of the libraries. -/
inductive Backend where
  | soxr | samplerate | scipy | other
deriving DecidableEq

/-- Choice of the library (905-921). -/
def choose (b : Backend) (hasSoxr hasSamplerate : Bool) : Except Err Backend :=
  if b = .other then .error .valueError
  else
    let b := if b = .soxr ∧ hasSoxr = false then .samplerate else b
    .ok (if b = .samplerate ∧ hasSamplerate = false then .scipy else b)

/-- Data with `n` samples in rows and `c` channels in columns (924-934). Without a dimension, `data.shape[-1]` raises; `-1` cannot be found if the last dimension is zero. -/
def toColumns (d : Nd) : Except Err (Nat × Nat × (Nat → Nat → ℝ)) :=
  match d.shape with
  | [] => .error .indexError
  | [n] => .ok (n, 1, fun s _ => d.val s)
  | [c, n] => .ok (n, c, fun s ch => d.val (ch * n + s))
  | a :: b :: l =>
    let n := (a :: b :: l).getLastD 0
    if n = 0 then .error .valueError else .ok (n, (a :: b :: l).prod / n, fun s ch => d.val (ch * n + s))

/-- Channels of a block: the columns from `i` to at most `i + 128` (940-943). -/
def block (c i : Nat) : List Nat := (List.range (min (i + 128) c - i)).map (i + ·)

/-- A library on all channels (936-959): output samples and columns. The blocks of 128 channels are resampled one after the other and put side by side; without any
block, the concatenation raises. `f` is the library with its rates. -/
def runColumns (b : Backend) (f : Chan) (n c : Nat) (x : Nat → Nat → ℝ) : Except Err (List (Nat → ℝ)) :=
  match b with
  | .samplerate =>
    if c = 0 then .error .valueError
    else .ok (((List.range ((c + 127) / 128)).map fun k => (block c (k * 128)).map fun ch => f.val n fun s => x s ch).flatten)
  | _ => .ok ((List.range c).map fun ch => f.val n fun s => x s ch)

/-- The original shape (961-968). -/
def fromColumns (shape : List Nat) (m : Nat) (cols : List (Nat → ℝ)) : Nd :=
  match shape with
  | [_] => ⟨[m], fun s => (cols.getD 0 fun _ => 0) s⟩
  | [_, _] => ⟨[cols.length, m], fun i => (cols.getD (i / m) fun _ => 0) (i % m)⟩
  | _ => ⟨shape.dropLast ++ [m], fun i => (cols.getD (i / m) fun _ => 0) (i % m)⟩

/-- The rates as given to `scipy.signal.resample_poly` (951-957): the fraction of the integer parts in lowest terms. -/
def fraction (newFs oldFs : Int) : Except Err (Int × Int) :=
  if oldFs = 0 then .error .zeroDivision else .ok (((newFs : ℚ) / oldFs).num, ((newFs : ℚ) / oldFs).den)

/-- `resample` (866-970). `soxr`, `samplerate`: the libraries with both rates, with the ratio; `poly`: with the factors up and down. -/
noncomputable def resample (soxr : ℝ → ℝ → Chan) (samplerate : ℝ → Chan) (poly : Int → Int → Chan) (hasSoxr hasSamplerate : Bool) (d : Nd) (oldFs newFs : ℝ)
    (backend : Backend) : Except Err Nd :=
  (choose backend hasSoxr hasSamplerate).bind fun b => (toColumns d).bind fun p =>
    (match b with
      | .soxr => (.ok (soxr oldFs newFs) : Except Err Chan)
      | .samplerate => if p.2.1 = 0 then .error .valueError else if oldFs = 0 then .error .zeroDivision else .ok (samplerate (newFs / oldFs))
      | _ => (fraction (if 0 ≤ newFs then ⌊newFs⌋ else ⌈newFs⌉) (if 0 ≤ oldFs then ⌊oldFs⌋ else ⌈oldFs⌉)).map fun (r : Int × Int) => poly r.1 r.2).bind fun f =>
        (runColumns b f p.1 p.2.1 p.2.2).map fun cols => fromColumns d.shape (f.len p.1) cols

end Verif.Delays
