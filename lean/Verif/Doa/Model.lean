import Mathlib.Analysis.SpecialFunctions.Trigonometric.Basic
import Mathlib.Analysis.SpecialFunctions.Complex.Circle
import Mathlib.Data.List.GetD
import Verif.Py

/-!
# Model of the steering vectors

`pyroomacoustics/doa/doa.py`, 21-134 (`ModeVector`). An array of numpy is given by its shape and its entries; indexing with integers, slices,
lists of integers and `None` follows numpy, including the place of the axis of the lists and the broadcasting of arrays. A slice is given
by the positions it selects on its axis. Numbers are exact.
-/

namespace Verif.Doa

open Verif.Py (Err)

/-- An array: shape and entries. -/
structure Arr (α : Type) where
  shape : List Nat
  at_ : List Nat → α

/-- One of the entries of an index. -/
inductive Sel where
  | int (i : Int)
  | slice (f : Nat → List Nat)
  | list (l : List Int)
  | newaxis

/-- Resolved entry: a fixed position, the positions of a slice, the positions of a list, a new axis. -/
inductive Dim where
  | fixed (i : Nat)
  | run (l : List Nat)
  | adv (l : List Nat)
  | new

/-- Position of an integer index, which may count from the end. -/
def position (n : Nat) (i : Int) : Except Err Nat :=
  if -(n : Int) ≤ i ∧ i < n then .ok (if i < 0 then i + n else i).toNat else .error .indexError

/-- Resolves the entries of an index along the axes. -/
def resolve : List Nat → List Sel → Except Err (List Dim)
  | ns, .newaxis :: t => (resolve ns t).map (.new :: ·)
  | n :: ns, .int i :: t =>
    match position n i with
    | .error e => .error e
    | .ok k => (resolve ns t).map (.fixed k :: ·)
  | n :: ns, .slice f :: t => (resolve ns t).map (.run (f n) :: ·)
  | n :: ns, .list l :: t =>
    match l.mapM (position n) with
    | .error e => .error e
    | .ok l => (resolve ns t).map (.adv l :: ·)
  | [], [] => .ok []
  | n :: ns, [] => (resolve ns []).map (.run (List.range n) :: ·)
  | [], _ => .error .indexError

/-- Lists, and integers next to lists, are indexed together. -/
def Dim.joint : Dim → Bool
  | .fixed _ => true
  | .adv _ => true
  | _ => false

/-- Is it a list? -/
def Dim.isList : Dim → Bool
  | .adv _ => true
  | _ => false

/-- Lengths of the axes that are not indexed together. -/
def runs : List Dim → List Nat
  | [] => []
  | .run l :: t => l.length :: runs t
  | .new :: t => 1 :: runs t
  | _ :: t => runs t

/-- Common length of the lists, `1` broadcasts. -/
def common : List Dim → Except Err Nat
  | [] => .ok 1
  | .adv l :: t =>
    match common t with
    | .error e => .error e
    | .ok n => if l.length = n ∨ n = 1 then .ok l.length else if l.length = 1 then .ok n else .error .indexError
  | _ :: t => common t

/-- Position in the source of an entry with index `s` on the free axes and `a` on the common axis of the lists. -/
def source : List Dim → List Nat → Nat → List Nat
  | [], _, _ => []
  | .fixed i :: t, s, a => i :: source t s a
  | .run l :: t, s, a => l.getD (s.headD 0) 0 :: source t s.tail a
  | .adv l :: t, s, a => l.getD (if l.length = 1 then 0 else a) 0 :: source t s a
  | .new :: t, s, a => source t s.tail a

/-- The entries of `x` at the resolved index. With lists among the entries their common axis is where they are, if they (and the integers)
are next to each other, otherwise it is the first. -/
def pick {α : Type} (x : Arr α) (ds : List Dim) : Except Err (Arr α) :=
  if ds.any Dim.isList then
    match common ds with
    | .error e => .error e
    | .ok n =>
      let lead := runs (ds.takeWhile fun d => !d.joint)
      let rest := (ds.dropWhile fun d => !d.joint).dropWhile Dim.joint
      let b := if rest.any Dim.joint then 0 else lead.length
      .ok ⟨(runs ds).take b ++ n :: (runs ds).drop b, fun i => x.at_ (source ds (i.take b ++ i.drop (b + 1)) (i.getD b 0))⟩
  else .ok ⟨runs ds, fun i => x.at_ (source ds i 0)⟩

/-- `x[sels]`. -/
def index {α : Type} (x : Arr α) (sels : List Sel) : Except Err (Arr α) :=
  match resolve x.shape sels with
  | .error e => .error e
  | .ok ds => pick x ds

/-- Shape of a binary operation, axes from the last to the first. -/
def broadcastRev : List Nat → List Nat → Except Err (List Nat)
  | [], t => .ok t
  | s, [] => .ok s
  | m :: s, n :: t =>
    match broadcastRev s t with
    | .error e => .error e
    | .ok r => if m = n ∨ n = 1 then .ok (m :: r) else if m = 1 then .ok (n :: r) else .error .valueError

/-- Index into an operand of shape `s` for the entry `i` of the result. -/
def operand (s i : List Nat) : List Nat := List.zipWith (fun n k => if n = 1 then 0 else k) s (i.drop (i.length - s.length))

/-- Elementwise binary operation. -/
def binop {α β γ : Type} (f : α → β → γ) (x : Arr α) (y : Arr β) : Except Err (Arr γ) :=
  match broadcastRev x.shape.reverse y.shape.reverse with
  | .error e => .error e
  | .ok s => .ok ⟨s.reverse, fun i => f (x.at_ (operand x.shape i)) (y.at_ (operand y.shape i))⟩

/-- `mode`; other strings leave `dist` undefined. -/
inductive Mode where
  | near
  | far
  | other

/-- Object of the class `ModeVector` (21-95). -/
structure ModeVector where
  omega : Arr ℝ
  tau : Arr ℝ
  table : Option (Arr ℂ)

/-- `np.exp(1j * w * tau)`. -/
noncomputable def phase (w tau : ℝ) : ℂ := Complex.exp (Complex.I * (w : ℂ) * (tau : ℂ))

/-- Lines 65-84: `dist[0, m, g]`; `rz` is absent for microphones in the plane. -/
noncomputable def dist (mode : Mode) (mics : List (ℝ × ℝ × Option ℝ)) (grid : List (ℝ × ℝ × ℝ)) (m g : Nat) : Except Err ℝ :=
  let r := mics.getD m (0, 0, none)
  let p := grid.getD g (0, 0, 0)
  let rz := r.2.2.getD 0
  match mode with
  | .near => .ok (Real.sqrt ((p.1 - r.1) ^ 2 + (p.2.1 - r.2.1) ^ 2 + (p.2.2 - rz) ^ 2))
  | .far => .ok (p.1 * r.1 + p.2.1 * r.2.1 + p.2.2 * rz)
  | .other => .error .nameError

/-- Line 87: `tau[0, m, g]`. -/
noncomputable def delay (mode : Mode) (mics : List (ℝ × ℝ × Option ℝ)) (grid : List (ℝ × ℝ × ℝ)) (c : ℝ) (m g : Nat) : ℝ :=
  match dist mode mics grid m g with
  | .ok d => d / c
  | .error _ => 0

/-- `ModeVector.__init__` (33-95). -/
noncomputable def init (mics : List (ℝ × ℝ × Option ℝ)) (fs : ℝ) (nfft : Nat) (c : ℝ) (grid : List (ℝ × ℝ × ℝ)) (mode : Mode) (precompute : Bool) :
    Except Err ModeVector :=
  if nfft % 2 = 1 then .error .valueError else
  match dist mode mics grid 0 0 with
  | .error e => .error e
  | .ok _ =>
    let tau : Arr ℝ := ⟨[1, mics.length, grid.length], fun i => delay mode mics grid c (i.getD 1 0) (i.getD 2 0)⟩
    let omega : Arr ℝ := ⟨[nfft / 2 + 1], fun i => 2 * Real.pi * fs * (i.getD 0 0 : Nat) / nfft⟩
    if precompute then
      match index omega [.slice List.range, .newaxis, .newaxis] with
      | .error e => .error e
      | .ok w =>
        match binop phase w tau with
        | .error e => .error e
        | .ok t => .ok ⟨omega, tau, some t⟩
    else .ok ⟨omega, tau, none⟩

/-- Is the entry an integer? -/
def Sel.isInt : Sel → Bool
  | .int _ => true
  | _ => false

/-- The index, a tuple. -/
abbrev Ref := List Sel

/-- Lines 115-120: `w`, which needs `ref[1]` and `ref[2]`. -/
noncomputable def lazyOmega (v : ModeVector) (ref : Ref) : Except Err (Arr ℝ) :=
  match ref with
  | r0 :: r1 :: r2 :: _ =>
    if r1.isInt && r2.isInt then index v.omega [r0]
    else if r1.isInt || r2.isInt then index v.omega [r0, .newaxis]
    else index v.omega [r0, .newaxis, .newaxis]
  | _ => .error .indexError

/-- Lines 127-134. -/
noncomputable def lazyTau (v : ModeVector) (ref : Ref) : Except Err (Arr ℝ) :=
  match ref with
  | [r0, r1, r2] => index v.tau [if r0.isInt then .int 0 else .slice List.range, r1, r2]
  | [r0, r1] => index v.tau [if r0.isInt then .int 0 else .slice List.range, r1, .slice List.range]
  | [r0] => index v.tau [if r0.isInt then .int 0 else .slice List.range, .slice List.range, .slice List.range]
  | _ => .error .valueError

/-- `ModeVector.__getitem__` with a tuple (97-134). -/
noncomputable def getitem (v : ModeVector) (ref : Ref) : Except Err (Arr ℂ) :=
  match v.table with
  | some t => index t ref
  | none =>
    match lazyOmega v ref with
    | .error e => .error e
    | .ok w =>
      match lazyTau v ref with
      | .error e => .error e
      | .ok t => binop phase w t

/-- `ModeVector.__getitem__` with one integer instead of a tuple: `ref[1]` raises. -/
noncomputable def getitemInt (v : ModeVector) (i : Int) : Except Err (Arr ℂ) :=
  match v.table with
  | some t => index t [.int i]
  | none => .error .typeError

end Verif.Doa
