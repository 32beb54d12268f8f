import Verif.Py
import Mathlib.Analysis.SpecialFunctions.Log.Base
import Mathlib.Algebra.BigOperators.Intervals

/-!
# Model of the measurement of the reverberation time

`pyroomacoustics/experimental/rt60.py`, with the fit in the logarithmic domain (the default) and without the plots. Real numbers without rounding.
-/

namespace Verif.Rt60

open Verif.Py Finset

/-- Mean of the first `m` values. -/
noncomputable def mean (m : Nat) (f : Nat → ℝ) : ℝ := (∑ k ∈ range m, f k) / m

/-- The slope of the line with the least squares (`np.linalg.lstsq`, rt60.py:49-50), for at least two points. -/
noncomputable def slope (m : Nat) (t y : Nat → ℝ) : ℝ :=
  (∑ k ∈ range m, (t k - mean m t) * (y k - mean m y)) / ∑ k ∈ range m, (t k - mean m t) ^ 2

/-- `_fit_exp_and_extrapolate` (rt60.py:38-53). `none` stands for a division by a slope of zero; for a single point, `lstsq` gives the solution with the least norm,
which has the slope zero. -/
noncomputable def fit (data : List ℝ) (fs : ℝ) : Except Err (Option ℝ) :=
  if data.length = 0 then .error .indexError
  else if data.length = 1 then .ok none
  else
    let p := slope data.length (fun k => (k : ℝ) / fs) (fun k => data.getD k 0 - data.getD 0 0)
    if p = 0 then .ok none else .ok (some (-60 / p))

open Classical in
/-- From the curve in decibels to the reverberation time (rt60.py:137-160). -/
noncomputable def fromDb (db : List ℝ) (fs decay : ℝ) : Except Err (Option ℝ) :=
  let minDb := -db.foldl min (db.headD 0)
  let decay := if minDb - 5 < decay then minDb else decay
  match db.findIdx? fun x => x < -5 with
  | none => .ok (some 0)
  | some i5 =>
    let e5 := db.getD i5 0
    let i := (db.findIdx? fun x => x < e5 - decay).getD db.length
    fit ((db.drop i5).take (i - i5)) fs

/-- Schroeder's integral (rt60.py:119-121). -/
noncomputable def energy (h : List ℝ) (n : Nat) : ℝ := ∑ m ∈ Ico n h.length, h.getD m 0 ^ 2

/-- The curve after the threshold (rt60.py:123-126). -/
noncomputable def curve (h : List ℝ) (thres : ℝ) (n : Nat) : ℝ :=
  if thres < 1 then max (energy h n - energy h 0 * (1 - thres)) 0 else energy h n

/-- In decibels, with respect to the first value (rt60.py:134-135). -/
noncomputable def toDb (e : Nat → ℝ) (n : Nat) : ℝ := 10 * Real.logb 10 (e n) - 10 * Real.logb 10 (e 0)

open Classical in
/-- `measure_rt60` (rt60.py:74-160, 201). If there is no energy at all, the values in decibels are not numbers, and no comparison holds. -/
noncomputable def measure (h : List ℝ) (fs decay thres : ℝ) : Except Err (Option ℝ) :=
  if h.length = 0 then .error .indexError
  else if thres < 1 ∧ ¬ 0 < thres then .error .assertionError
  else
    let e := curve h thres
    let positive := (range h.length).filter fun n => e n > 0
    if positive = ∅ then .ok (some 0)
    else
      let nz := positive.sup id
      if nz = 0 then .error .indexError  -- `energy_db[0]` of an empty array
      else fromDb ((List.range nz).map (toDb e)) fs decay

end Verif.Rt60
