import Verif.Py
import Mathlib.Algebra.Order.Floor.Ring
import Mathlib.Algebra.Order.Round
import Mathlib.Algebra.Order.Archimedean.Real.Basic

/-!
# Critical bands and bands in bins (`acoustics.py` 866-965)

Exact numbers.
-/

namespace Verif.Bark

open Verif.Py

/-- `fb` (905-931). -/
def fb : List ℝ :=
  [0, 100, 200, 300, 400, 510, 630, 770, 920, 1080, 1270, 1480, 1720, 2000, 2320, 2700, 3150, 3700, 4400, 5300, 6400, 7700, 9500, 12000, 15500]

/-- `fc` (873-898). -/
def fc : List ℝ := [50, 150, 250, 350, 450, 570, 700, 840, 1000, 1170, 1370, 1600, 1850, 2150, 2500, 2900, 3400, 4000, 4800, 5800, 7000, 8500, 10500, 13500]

/-- `critical_bands` (866-932). -/
def criticalBands : List (ℝ × ℝ) × List ℝ := ((List.range (fb.length - 1)).map fun (j : Nat) => (fb.getD j 0, fb.getD (j + 1) 0), fc)

open Classical in
/-- `np.around` (external): to the nearest integer, halves to the even one. -/
noncomputable def around (x : ℝ) : ℤ :=
  if Int.fract x < 1 / 2 then ⌊x⌋ else if 1 / 2 < Int.fract x then ⌊x⌋ + 1 else if ⌊x⌋ % 2 = 0 then ⌊x⌋ else ⌊x⌋ + 1

/-- The conversion of a float to an integer by `np.array(…, dtype=int)` (external): towards zero. -/
noncomputable def trunc (x : ℝ) : ℤ := if 0 ≤ x then ⌊x⌋ else ⌈x⌉

open Classical in
/-- The loop that removes duplicates (957-963). -/
noncomputable def dedup (j : Nat) (l : List (ℝ × ℝ)) : List (ℝ × ℝ) :=
  if h : j + 1 < l.length then
    if (l[j]'(by omega)).1 = l[j + 1].1 then dedup j (l.eraseIdx j) else dedup (j + 1) l
  else l
termination_by l.length - j
decreasing_by
  · rw [List.length_eraseIdx_of_lt (by omega)]
    omega
  · omega

/-- `bands_s[-1][1] = N / 2` (955). -/
noncomputable def setLast (l : List (ℝ × ℝ)) (v : ℝ) : Except Err (List (ℝ × ℝ)) :=
  match l.getLast? with
  | none => .error .indexError
  | some b => .ok (l.dropLast ++ [(b.1, v)])

/-- The bin width (943-946). -/
noncomputable def width (Fs : ℝ) (N : Nat) (dct : Bool) : ℝ := if dct then Fs / 2 / N else Fs / N

open Classical in
/-- `bands_hz2s` (935-965) with positive `Fs` and `N`. -/
noncomputable def bandsHz2s (bands : List (ℝ × ℝ)) (Fs : ℝ) (N : Nat) (dct : Bool) : Except Err (List (ℤ × ℤ)) := do
  let lastBand ← match bands.getLast? with
    | none => (.error .indexError : Except Err (ℝ × ℝ))
    | some b => .ok b
  let limit := min (Fs / 2) lastBand.2
  let s := (bands.filter fun (b : ℝ × ℝ) => b.1 ≤ limit).map fun (b : ℝ × ℝ) => ((around (b.1 / width Fs N dct) : ℝ), (around (b.2 / width Fs N dct) : ℝ))
  let s ← setLast s ((N : ℝ) / 2)
  return (dedup 0 s).map fun (b : ℝ × ℝ) => (trunc b.1, trunc b.2)

end Verif.Bark
