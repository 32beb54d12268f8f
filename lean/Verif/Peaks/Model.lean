import Mathlib.Data.Real.Basic
import Mathlib.Data.Finset.Sort

/-!
# Model of the peak detection

`pyroomacoustics/doa/detect_peaks.py`, 18-166. Samples are real numbers or NaN (`none`). `np.argsort` does not specify the order of equal
values: it is an argument of the model.
-/

namespace Verif.Peaks

/-- The argument `edge`; `other` is any string that is not one of the three. -/
inductive Edge
  | no | rising | falling | both | other
  deriving DecidableEq

/-- `dx[i]` after lines 110-115: `none` is infinity, which replaces NaN. -/
noncomputable def dxAt (x : List (Option ℝ)) (i : Nat) : Option ℝ :=
  match x.getD (i + 1) none, x.getD i none with
  | some a, some b => some (a - b)
  | _, _ => none

/-- Comparisons of an entry of `dx` with zero. -/
def ltZero : Option ℝ → Prop | some v => v < 0 | none => False
@[inherit_doc ltZero] def leZero : Option ℝ → Prop | some v => v ≤ 0 | none => False
@[inherit_doc ltZero] def gtZero : Option ℝ → Prop | some v => v > 0 | none => True
@[inherit_doc ltZero] def geZero : Option ℝ → Prop | some v => v ≥ 0 | none => True

/-- `np.hstack((dx, 0))[i]` for `n` samples. -/
noncomputable def next (x : List (Option ℝ)) (i : Nat) : Option ℝ := if i + 1 < x.length then dxAt x i else some 0

/-- `np.hstack((0, dx))[i]`. -/
noncomputable def prev (x : List (Option ℝ)) (i : Nat) : Option ℝ := if i = 0 then some 0 else dxAt x (i - 1)

open Classical in
/-- `np.where(...)[0]`. -/
noncomputable def whereIdx (n : Nat) (p : Nat → Prop) : List Nat := (List.range n).filter fun i => decide (p i)

/-- `np.unique`. -/
def unique (l : List Nat) : List Nat := l.toFinset.sort (· ≤ ·)

/-- Lines 116-124. -/
noncomputable def extrema (x : List (Option ℝ)) (edge : Edge) : List Nat :=
  let ine := if edge = .no then whereIdx x.length fun i => ltZero (next x i) ∧ gtZero (prev x i) else []
  let ire := if edge = .rising ∨ edge = .both then whereIdx x.length fun i => leZero (next x i) ∧ gtZero (prev x i) else []
  let ife := if edge = .falling ∨ edge = .both then whereIdx x.length fun i => ltZero (next x i) ∧ geZero (prev x i) else []
  unique (ine ++ ire ++ ife)

open Classical in
/-- Lines 125-132: neither NaN nor its neighbours are peaks. -/
noncomputable def dropNan (x : List (Option ℝ)) (ind : List Nat) : List Nat :=
  let indnan := whereIdx x.length fun i => x.getD i none = none
  if ind = [] ∨ indnan = [] then ind else
  ind.filter fun i => ¬ ∃ k ∈ indnan, (i : Int) = k ∨ (i : Int) = (k : Int) - 1 ∨ (i : Int) = (k : Int) + 1

/-- Lines 133-135: the first sample is no peak. -/
def dropFirst : List Nat → List Nat
  | [] => []
  | i :: t => if i = 0 then t else i :: t

/-- Lines 136-137: the last sample is no peak. -/
def dropFinal (n : Nat) (ind : List Nat) : List Nat := if ind.getLast? = some (n - 1) then ind.dropLast else ind

/-- `x[i]` at an index that is not NaN. -/
noncomputable def val (x : List (Option ℝ)) (i : Nat) : ℝ := (x.getD i none).getD 0

open Classical in
/-- Lines 138-144. -/
noncomputable def limits (x : List (Option ℝ)) (mph : Option ℝ) (threshold : ℝ) (ind : List Nat) : List Nat :=
  let ind := match mph with
    | none => ind
    | some h => ind.filter fun i => val x i ≥ h
  if threshold > 0 then ind.filter fun i => ¬ min (val x i - val x (i - 1)) (val x i - val x (i + 1)) < threshold else ind

open Classical in
/-- Body of the loop of lines 149-155; `ind` is sorted by decreasing height. -/
noncomputable def mark (x : List (Option ℝ)) (mpd : Int) (kpsh : Bool) (ind : List Nat) (idel : Nat → Bool) (i : Nat) : Nat → Bool :=
  if idel i then idel else fun j =>
    if j = i then false else
    idel j || decide (((ind.getD j 0 : Nat) : Int) ≥ (ind.getD i 0 : Nat) - mpd ∧ ((ind.getD j 0 : Nat) : Int) ≤ (ind.getD i 0 : Nat) + mpd ∧
      (kpsh = true → val x (ind.getD i 0) > val x (ind.getD j 0)))

/-- Lines 145-157. `argsort` sorts indices by their heights. -/
noncomputable def separate (x : List (Option ℝ)) (mpd : Int) (kpsh : Bool) (argsort : List Nat → List Nat) (ind : List Nat) : List Nat :=
  if mpd > 1 then
    let ind := (argsort ind).reverse
    let idel := (List.range ind.length).foldl (mark x mpd kpsh ind) fun _ => false
    (((List.range ind.length).filter fun i => !idel i).map fun i => ind.getD i 0).mergeSort
  else ind

/-- `detect_peaks` (18-166), without the plot. -/
noncomputable def detectPeaks (x : List (Option ℝ)) (mph : Option ℝ) (mpd : Int) (threshold : ℝ) (edge : Edge) (kpsh valley : Bool)
    (argsort : List (Option ℝ) → List Nat → List Nat) : List Nat :=
  if x.length < 3 then [] else
  let x := if valley then x.map (Option.map (- ·)) else x
  separate x mpd kpsh (argsort x) (limits x mph threshold (dropFinal x.length (dropFirst (dropNan x (extrema x edge)))))

end Verif.Peaks
