import Verif.LinPred.Model

/-!
# Rational models of signals

`/repo/pyroomacoustics/utilities.py` 493-533 (`prony`), 536-577 (`shanks`), with `convmtx` of `Verif.LinPred`. Signals are real and exact; `np.linalg.lstsq` is an
argument that gets the number of rows and columns, the matrix and the right-hand side.
-/

namespace Verif.Prony

open Verif.Py Verif.LinPred

/-- Type of the least squares routine. -/
abbrev Lstsq := (rows cols : Nat) → (Nat → Nat → ℝ) → (Nat → ℝ) → Nat → ℝ

/-- `prony` (493-533): the arrays `a`, `b` and the number `err`. -/
noncomputable def prony (lstsq : Lstsq) (x : List ℝ) (p q : Nat) : Except Err (List ℝ × List ℝ × ℝ) :=
  let nx := x.length
  if p + q ≥ nx then .error .nameError
  else (convmtx x (p + 1)).map fun X =>
    let sol := lstsq (nx + p - 1 - q) p (fun i j => X.val (q + i) j) (fun i => X.val (q + 1 + i) 0)
    let a := 1 :: (List.range p).map fun j => -sol j
    let b := (List.range (q + 1)).map fun (i : Nat) => ∑ j ∈ Finset.range (p + 1), X.val i j * a.getD j 0
    let err := ∑ n ∈ Finset.range (nx - (q + 1)), x.getD (q + 1 + n) 0 * ∑ j ∈ Finset.range (p + 1), X.val (q + 1 + n) j * a.getD j 0
    (a, b, err)

/-- The first samples of `scipy.signal.lfilter(np.ones(1), a, u)` with `u` an impulse; `a` begins with one. -/
noncomputable def allPole (a : List ℝ) : Nat → List ℝ
  | 0 => []
  | n + 1 =>
    let g := allPole a n
    g ++ [(if n = 0 then 1 else 0) - ∑ k ∈ Finset.range (a.length - 1), a.getD (k + 1) 0 * (if k < n then g.getD (n - 1 - k) 0 else 0)]

/-- `shanks` (536-577). -/
noncomputable def shanks (lstsq : Lstsq) (x : List ℝ) (p q : Nat) : Except Err (List ℝ × List ℝ × ℝ) :=
  let nx := x.length
  if p + q ≥ nx then .error .nameError
  else (prony lstsq x p q).bind fun r =>
    let a := r.1
    let g := allPole a nx
    (convmtx g (q + 1)).map fun G =>
      let sol := lstsq nx (q + 1) G.val (fun n => x.getD n 0)
      let b := (List.range (q + 1)).map sol
      let err := ∑ n ∈ Finset.range nx, x.getD n 0 * x.getD n 0 -
        ∑ n ∈ Finset.range nx, x.getD n 0 * ∑ j ∈ Finset.range (q + 1), G.val n j * b.getD j 0
      (a, b, err)

end Verif.Prony
