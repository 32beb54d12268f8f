import Mathlib.Data.Real.Basic
import Mathlib.Algebra.BigOperators.Group.List.Basic
import Verif.Py

/-!
# Model of the rejection sampler

`pyroomacoustics/random/sampler.py`, class `RejectionSampler` (10-83). The random generator is a state `R` with a function that draws a number of
proposals together with the same number of uniform values; nothing is assumed of it but that it draws as many as asked. The loop is bounded by
`fuel`: `none` means that it has not ended yet.
-/

namespace Verif.Random

open Verif.Py (Err)

/-- The object (11-28). -/
structure Sampler (P : Type) where
  desired : P → ℝ
  pdf : P → ℝ
  scale : ℝ
  dim : Nat
  nProposed : Nat
  nAccepted : Nat

/-- `__init__` (11-28): a scale of zero counts as not given. -/
noncomputable def Sampler.init {P : Type} (desired pdf : P → ℝ) (dim : Nat) (scale : Option ℝ) : Sampler P :=
  open Classical in
  ⟨desired, pdf, (match scale with | none => 1 | some s => if s = 0 then 1 else s), dim, 0, 0⟩

/-- `efficiency` (30-37). -/
noncomputable def Sampler.efficiency {P : Type} (s : Sampler P) : ℝ := if s.nProposed = 0 then 1 else (s.nAccepted : ℝ) / s.nProposed

open Classical in
/-- Lines 61-68 for one proposal. -/
noncomputable def Sampler.accepts {P : Type} (s : Sampler P) (x : P) (u : ℝ) : Bool := decide (u * s.pdf x * s.scale < s.desired x)

/-- The loop of lines 56-77: samples so far, generator, counters. -/
noncomputable def Sampler.loop {P R : Type} (s : Sampler P) (draw : Nat → R → List (P × ℝ) × R) (flatSize : Nat) :
    Nat → R → List P → Nat → Nat → Option (List P × R × Nat × Nat)
  | 0, _, _, _, _ => none
  | fuel + 1, rng, samples, proposed, accepted =>
    if samples.length < flatSize then
      let n := flatSize - samples.length
      let d := draw n rng
      let ok := (d.1.filter fun p => s.accepts p.1 p.2).map Prod.fst
      s.loop draw flatSize fuel d.2 (samples ++ ok) (proposed + n) (accepted + ok.length)
    else some (samples, rng, proposed, accepted)

/-- The argument `size`. -/
inductive Size where
  | none
  | int (n : Nat)
  | npInt (n : Nat)
  | tuple (l : List Nat)

/-- `if not size: size = 1` (45-46). -/
def Size.orOne : Size → Size
  | .none => .int 1
  | .int 0 => .int 1
  | .npInt 0 => .int 1
  | .tuple [] => .int 1
  | s => s

/-- `int(np.prod(size))` (51). -/
def Size.flat : Size → Nat
  | .none => 1
  | .int n => n
  | .npInt n => n
  | .tuple l => l.prod

/-- Lines 79-82: the shape. An integer of numpy is not an `int` and cannot be listed. -/
def Size.shape (dim : Nat) : Size → Except Err (List Nat)
  | .int n => .ok [n, dim]
  | .tuple l => .ok (l ++ [dim])
  | _ => .error .typeError

/-- `__call__` (43-83): the object afterwards and shape and samples. -/
noncomputable def Sampler.call {P R : Type} (s : Sampler P) (draw : Nat → R → List (P × ℝ) × R) (fuel : Nat) (size : Size) (rng : R) :
    Option (Sampler P × Except Err (List Nat × List P)) :=
  let size := size.orOne
  (s.loop draw size.flat fuel rng [] s.nProposed s.nAccepted).map fun r =>
    ({ s with nProposed := r.2.2.1, nAccepted := r.2.2.2 }, (size.shape s.dim).map fun sh => (sh, r.1))

end Verif.Random
