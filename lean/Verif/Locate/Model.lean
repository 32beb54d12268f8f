import Verif.Py
import Verif.Sync.Model
import Verif.Cloud.Model
import Mathlib.Data.List.Sort

/-!
# `experimental/localization.py`: localisation from time differences

Exact numbers, a sampling frequency other than zero; the samples are not rounded to single precision. `lstsq` and `eigh` are parameters. The part of `tdoa_loc` in a string (54-91) is not executed.
-/

namespace Verif.Locate

open Verif.Py Finset

/-- A point. -/
abbrev Pt := Fin 3 → ℝ

/-- `la.norm(r) ** 2` (44-46). -/
def norm2 (r : Pt) : ℝ := ∑ k, r k ^ 2

/-- The kept microphones with their differences of time (31-37): those with a difference to the first, and the first. -/
noncomputable def kept (R : List Pt) (tdoa : List ℝ) : List (Pt × ℝ) :=
  let tau := tdoa.map fun t => t - tdoa.headD 0
  let keep := (tau.map fun t => open Classical in decide (t ≠ 0)).set 0 true
  ((R.zip tau).zip keep).filterMap fun p => if p.2 then some p.1 else none

/-- The linear equation of a microphone (48-51). -/
noncomputable def row (c : ℝ) (m0 m1 m : Pt × ℝ) : Pt × ℝ :=
  (fun k => 2 * (m.1 k - m0.1 k) / (c * m.2) - 2 * (m1.1 k - m0.1 k) / (c * m1.2),
    c * m1.2 - c * m.2 + (norm2 m.1 - norm2 m0.1) / (c * m.2) - (norm2 m1.1 - norm2 m0.1) / (c * m1.2))

/-- `tdoa_loc` (14-93). The mask must be as long as `R`; with no second microphone `tau[1]` does not exist; `lstsq` refuses numbers that are not finite. -/
noncomputable def tdoaLoc (lstsq : List (Pt × ℝ) → Pt) (R : List Pt) (tdoa : List ℝ) (c : ℝ) : Except Err Pt :=
  if tdoa = [] then .error .indexError
  else if R.length ≠ tdoa.length then .error .indexError
  else match kept R tdoa with
    | m0 :: m1 :: rm => if c = 0 ∧ rm ≠ [] then .error .valueError else .ok (lstsq (rm.map (row c m0 m1)))
    | _ => .error .indexError

/-- The padded length (142-144). -/
def padded (n1 n2 : Nat) : Nat := if (n1 + n2 - 1) % 2 ≠ 0 then n1 + n2 - 1 + 1 else n1 + n2 - 1

/-- `X /= np.abs(X)` (153-154): a coefficient that is zero is not a number, and the inverse transform then has no numbers. -/
noncomputable def whiten (N : Nat) (X : Nat → ℂ) : Option (Nat → ℂ) :=
  open Classical in if ∃ k, k ≤ N / 2 ∧ X k = 0 then none else some fun k => X k / (‖X k‖ : ℂ)

/-- The cross-spectrum (149-156). -/
noncomputable def cross (N : Nat) (x1 x2 : List ℝ) (phat : Bool) : Option (Nat → ℂ) :=
  let X1 := Sync.spectrum N x1
  let X2 := Sync.spectrum N x2
  if phat then (whiten N X1).bind fun Y1 => (whiten N X2).map fun Y2 => fun k => Y1 k * (starRingEnd ℂ) (Y2 k)
  else some fun k => X1 k * (starRingEnd ℂ) (X2 k)

/-- The end of an array before its beginning (162). -/
def reorder {α : Type} (t : Nat) (l : List α) : List α := slice l (some (-(t : Int))) none ++ slice l none (some (t : Int))

/-- `tdoa` (96-169). A transform of length zero raises. -/
noncomputable def tdoa (x1 x2 : List ℝ) (interp : Nat) (fs : ℝ) (phat : Bool) : Except Err ℝ :=
  if x1.length + x2.length ≤ 1 then .error .valueError
  else
    let n := padded x1.length x2.length
    if interp * n = 0 then .error .valueError
    else
      let cc := Sync.irfftPad n (n * interp) (cross n x1 x2 phat)
      let tmax := n / 2 + 1
      match Sync.argmax ((reorder tmax cc).map (Option.map abs)) with
      | .error e => .error e
      | .ok p => .ok (((p : ℝ) - (tmax : ℝ)) / (fs * interp))

/-- `np.linspace(a, b, steps)` (202). -/
noncomputable def linspace (a b : ℝ) (steps : Nat) : List ℝ := (List.range steps).map fun (i : Nat) => a + i * ((b - a) / (steps - 1 : Nat))

/-- The distance matrix bordered by the squared distances of the unknown point (198-199, 209). -/
def bordered {dim m : Nat} (R : Fin dim → Fin m → ℝ) (dif : Fin m → ℝ) (d : ℝ) : Fin (m + 1) → Fin (m + 1) → ℝ := fun i j =>
  if hi : i.1 < m then
    if hj : j.1 < m then Cloud.edm R ⟨i, hi⟩ ⟨j, hj⟩ else (dif ⟨i, hi⟩ + d) ^ 2
  else if hj : j.1 < m then (dif ⟨j, hj⟩ + d) ^ 2 else 0

/-- The sum of the smallest eigenvalues (210-212). -/
noncomputable def costOf {n : Nat} (w : Fin n → ℝ) : ℝ :=
  (slice ((List.ofFn fun k => |w k|).insertionSort (· ≤ ·)) none (some ((n : Int) - 5))).sum

/-- `edm_line_search` (172-214). The minimum of no numbers raises. -/
noncomputable def lineSearch {dim m : Nat} (eigh : (Fin (m + 1) → Fin (m + 1) → ℝ) → Fin (m + 1) → ℝ) (R : Fin dim → Fin m → ℝ) (tdoa : Fin m → ℝ) (lo hi : ℝ) (steps : Nat) :
    Except Err (List ℝ × List ℝ) :=
  if h : 0 < m then
    let low := (univ : Finset (Fin m)).inf' ⟨⟨0, h⟩, mem_univ _⟩ tdoa
    let d := linspace lo hi steps
    .ok (d.map fun x => costOf (eigh (bordered R (fun i => tdoa i - low) x)), d)
  else .error .valueError

end Verif.Locate
