import Verif.Py
import Mathlib.Analysis.SpecialFunctions.Log.Basic
import Mathlib.Analysis.SpecialFunctions.Pow.Real

/-!
# Model of the formulas for the reverberation time

`pyroomacoustics/acoustics.py`: `inverse_sabine` (1070-1129), `rt60_eyring` (1132-1155), `rt60_sabine` (1158-1181);
`room.py`: `Room.rt60_theory` (2683-2715).

Numbers are real numbers. Where numpy gives an infinite reverberation time (division by zero for a wall without absorption), the
model has zero; both have the inverse zero, which is what `rt60_theory` adds up.
-/

namespace Verif.Reverb

open Py (Err)

open Classical in
/-- `inverse_sabine` (1070-1129). For other numbers of dimensions the surface is never assigned. -/
noncomputable def inverseSabine (rt60 : ℝ) (dim : List ℝ) (c : ℝ) : Except Err (ℝ × Int) :=
  let finish (R V S coef : ℝ) : Except Err (ℝ × Int) :=
    let e := coef * Real.log 10 * V / (c * S * rt60)
    if e > 1 then .error .valueError else .ok (e, ⌈c * rt60 / R - 1⌉)
  let r := fun l1 l2 : ℝ => l1 * l2 / Real.sqrt (l1 ^ 2 + l2 ^ 2)
  match dim with
  | [l1, l2] => finish (r l1 l2) (l1 * l2) (2 * (l1 + l2)) 12
  | [l1, l2, l3] => finish (min (min (r l1 l2) (r l1 l3)) (r l2 l3)) (l1 * l2 * l3) (2 * (l1 * l2 + l1 * l3 + l2 * l3)) 24
  | _ => .error .nameError

/-- `rt60_eyring` (1132-1155). -/
noncomputable def rt60Eyring (S V a m c : ℝ) : ℝ := -(24 * Real.log 10 / c) * V / (S * Real.log (1 - a) + 4 * m * V)

/-- `rt60_sabine` (1158-1181). -/
noncomputable def rt60Sabine (S V a m c : ℝ) : ℝ := (24 * Real.log 10 / c) * V / (a * S + 4 * m * V)

/-- A wall: its area and its absorption by bands. -/
structure Wall where
  area : ℝ
  absorption : Nat → ℝ

/-- `Room.rt60_theory` (2683-2715). `bandwidths` is `[1.0]` for a room with one band; `air` is the coefficient of the air by bands. -/
noncomputable def rt60Theory (fn : ℝ → ℝ → ℝ → ℝ → ℝ → ℝ) (bandwidths : List ℝ) (V c : ℝ) (air : Option (Nat → ℝ)) (walls : List Wall) : ℝ :=
  let inv := (bandwidths.zipIdx.foldl (fun acc bi =>
    let m := match air with
      | none => 0
      | some f => f bi.2
    walls.foldl (fun acc w => acc + bi.1 / fn w.area V (w.absorption bi.2) m c) acc) 0)
  bandwidths.sum / inv

end Verif.Reverb
