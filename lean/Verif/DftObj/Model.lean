import Verif.Py
import Verif.DFT

/-!
# The class `DFT`

`/repo/pyroomacoustics/transform/dft.py` 39-279. Arrays live in a heap, since `analysis` multiplies the window into the array of the caller
(225-226) and both methods return the buffers of the object (237, 279). Numbers are exact; the choice between single and double precision is
modelled (`single`), the rounding is not. Windows are one-dimensional. The buffers `a`, `b` of `pyfftw` are written completely before they are
read and are not visible outside, so they are not stored; their shapes matter and are modelled. Arrays have a list of dimensions and a function from
indices to values; values outside of the dimensions mean nothing.
-/

namespace Verif.DftObj

open Verif.Py Verif.DFT

/-- An array: dimensions, values, and if the numbers are floating point numbers. -/
structure Arr (α : Type) where
  shape : List Nat
  at' : List Nat → α
  isFloat : Bool := true

/-- `numpy.squeeze` of a new array: dimensions equal to one disappear. -/
def squeeze (shape : List Nat) : List Nat := shape.filter (· ≠ 1)

/-- Dimensions of a source fit those of a target under the rules of broadcasting; both lists start with the last dimension. -/
def fits : List Nat → List Nat → Bool
  | [], _ => true
  | s :: ss, [] => s == 1 && fits ss []
  | s :: ss, t :: ts => (s == t || s == 1) && fits ss ts

/-- Index into the source for an index into the target; all lists start with the last dimension. -/
def index : List Nat → List Nat → List Nat
  | [], _ => []
  | _ :: ss, [] => 0 :: index ss []
  | s :: ss, i :: is => (if s = 1 then 0 else i) :: index ss is

/-- The values of `a` broadcast to the dimensions `shape`, `ValueError` if they do not fit. -/
def broadcast {α : Type} (shape : List Nat) (a : Arr α) : Except Err (Arr α) :=
  if fits a.shape.reverse shape.reverse then
    .ok { shape := shape, at' := fun i => a.at' (index a.shape.reverse i.reverse).reverse, isFloat := a.isFloat }
  else .error .valueError

/-- `dst[:,] = src`: the slice needs at least one dimension. -/
def assign {α : Type} (dst src : Arr α) : Except Err (Arr α) :=
  if dst.shape = [] then .error .indexError else
    (broadcast dst.shape src).map fun b => { b with isFloat := dst.isFloat }

/-- `rfft(x, N, axis=axis)`: cut or filled with zeros to `N` samples; errors for `N = 0` and if there is no such axis
(`AxisError`, a `ValueError`). -/
noncomputable def rfftAxis (N axis : Nat) (x : Arr ℝ) : Except Err (Arr ℂ) :=
  if axis < x.shape.length ∧ 0 < N then
    .ok { shape := x.shape.set axis (N / 2 + 1),
          at' := fun i => rfft N (fun t => if t < x.shape.getD axis 0 then x.at' (i.set axis t) else 0) (i.getD axis 0) }
  else .error .valueError

/-- `irfft(X, N, axis=axis)`. -/
noncomputable def irfftAxis (N axis : Nat) (X : Arr ℂ) : Except Err (Arr ℝ) :=
  if axis < X.shape.length ∧ 0 < N then
    .ok { shape := X.shape.set axis N,
          at' := fun i => irfft N (fun k => if k < X.shape.getD axis 0 then X.at' (i.set axis k) else 0) (i.getD axis 0) }
  else .error .valueError

/-- `FFTW` plans and the other packages; `numpy` and `mkl` have the same interface. -/
inductive Package
  | numpy | mkl | fftw
  deriving DecidableEq

/-- The attributes of the object; `x` and `X` are addresses of real and complex arrays. -/
structure Obj where
  nfft : Nat
  D : Nat
  axis : Nat
  analysisWindow : Option (Arr ℝ)
  synthesisWindow : Option (Arr ℝ)
  package : Package
  x : Nat
  X : Nat

/-- Real and complex arrays by address. -/
structure Heap where
  re : Nat → Arr ℝ
  cx : Nat → Arr ℂ

/-- Write a real array. -/
def Heap.setRe (h : Heap) (r : Nat) (a : Arr ℝ) : Heap := { h with re := Function.update h.re r a }

/-- Write a complex array. -/
def Heap.setCx (h : Heap) (r : Nat) (a : Arr ℂ) : Heap := { h with cx := Function.update h.cx r a }

/-- Names of precisions (116-125). -/
inductive Precision
  | single | double | other
  deriving DecidableEq

/-- Which precision is used (102-125): `True` for single. The deprecated argument `bits` is looked at only if `precision` is `None`. -/
def single (precision : Option Precision) (bits : Option Nat) : Bool :=
  let precision := match precision, bits with
    | some p, _ => some p
    | none, some 32 => some .single
    | none, some 64 => some .double
    | none, _ => none
  precision = some .single

/-- Dimensions of the buffers before `squeeze` (127-138), `ValueError` for other axes. -/
def dims (axis n D : Nat) : Except Err (List Nat) :=
  if axis = 0 then .ok [n, D] else if axis = 1 then .ok [D, n] else .error .valueError

/-- The window as it is stored (140-156): as a column for several channels along the second axis. -/
def window (axis D : Nat) (w : List ℝ) : Arr ℝ :=
  if axis = 0 ∧ 1 < D then { shape := [w.length, 1], at' := fun i => w.getD (i.getD 0 0) 0 }
  else { shape := [w.length], at' := fun i => w.getD (i.getD 0 0) 0 }

/-- Which package is used (158-200): `numpy` replaces packages that are not installed. -/
def choose (wanted : Package) (fftw mkl : Bool) : Package :=
  match wanted with
  | .fftw => if fftw then .fftw else .numpy
  | .mkl => if mkl then .mkl else .numpy
  | .numpy => .numpy

/-- `DFT(nfft, D, analysis_window, synthesis_window, transform, axis)` (87-200); the new buffers are put at the addresses `rx` and `rX`. -/
def new (nfft D : Nat) (aw sw : Option (List ℝ)) (wanted : Package) (fftw mkl : Bool) (axis rx rX : Nat) (h : Heap) : Except Err (Obj × Heap) :=
  (dims axis nfft D).bind fun dx => (dims axis (nfft / 2 + 1) D).map fun dX =>
    ({ nfft := nfft, D := D, axis := axis, analysisWindow := aw.map (window axis D), synthesisWindow := sw.map (window axis D),
       package := choose wanted fftw mkl, x := rx, X := rX },
     (h.setRe rx { shape := squeeze dx, at' := fun _ => 0 }).setCx rX { shape := squeeze dX, at' := fun _ => 0 })

/-- Dimensions of the arrays `a` and `b` of `pyfftw` (164-179): not squeezed. -/
def fftwDims (o : Obj) (n : Nat) : List Nat := if o.D = 1 then [n] else if o.axis = 0 then [n, o.D] else [o.D, n]

/-- Axis along which `pyfftw` transforms (167-168, 180-183): the last one for one channel. -/
def fftwAxis (o : Obj) : Nat := if o.D = 1 then 0 else o.axis

/-- The transform of `analysis` (228-235) before it is written to `self.X`. -/
noncomputable def forward (o : Obj) (x : Arr ℝ) : Except Err (Arr ℂ) :=
  match o.package with
  | .fftw => (broadcast (fftwDims o o.nfft) x).bind fun a => rfftAxis o.nfft (fftwAxis o) a
  | .mkl => rfftAxis o.nfft o.axis x
  | .numpy => rfftAxis o.nfft o.axis x

/-- The transform of `synthesis` (266-273) before it is written to `self.x`. -/
noncomputable def backward (o : Obj) (X : Arr ℂ) : Except Err (Arr ℝ) :=
  match o.package with
  | .fftw => (broadcast (fftwDims o (o.nfft / 2 + 1)) X).bind fun b => irfftAxis o.nfft (fftwAxis o) b
  | .mkl => irfftAxis o.nfft o.axis X
  | .numpy => irfftAxis o.nfft o.axis X

/-- The exception for wrong dimensions (218-222, 258-262): the message needs two dimensions of both arrays. -/
def shapeError (s t : List Nat) : Err := if 2 ≤ s.length ∧ 2 ≤ t.length then .valueError else .indexError

/-- `np.multiply(w, x, x)`: the result has the dimensions of `x`; it cannot be stored in an array of integers. -/
noncomputable def multiply (w : Option (Arr ℝ)) (x : Arr ℝ) : Except Err (Arr ℝ) :=
  match w with
  | none => .ok x
  | some w => if x.isFloat = false then .error .typeError else
      (broadcast x.shape w).map fun b => { x with at' := fun i => b.at' i * x.at' i }

/-- `analysis(x)` for the array at address `r` (202-237): the result is the address of the answer or an exception, and the new heap. -/
noncomputable def analysis (o : Obj) (r : Nat) (h : Heap) : Except Err Nat × Heap :=
  if (h.re r).shape ≠ (h.re o.x).shape then (.error (shapeError (h.re r).shape (h.re o.x).shape), h) else
  match multiply o.analysisWindow (h.re r) with
  | .error e => (.error e, h)
  | .ok y =>
    let h := h.setRe r y
    match (forward o y).bind fun Y => assign (h.cx o.X) Y with
    | .error e => (.error e, h)
    | .ok Y => (.ok o.X, h.setCx o.X Y)

/-- `self.X[:,] = X` in `synthesis` (257-264). -/
def store (o : Obj) (r : Option Nat) (h : Heap) : Except Err Heap :=
  match r with
  | none => .ok h
  | some r => if (h.cx r).shape ≠ (h.cx o.X).shape then .error (shapeError (h.cx r).shape (h.cx o.X).shape) else
      (assign (h.cx o.X) (h.cx r)).map (h.setCx o.X)

/-- `synthesis(X)` for the array at address `r`, or for the last answer of `analysis` (239-279). -/
noncomputable def synthesis (o : Obj) (r : Option Nat) (h : Heap) : Except Err Nat × Heap :=
  match store o r h with
  | .error e => (.error e, h)
  | .ok h =>
    match (backward o (h.cx o.X)).bind fun y => assign (h.re o.x) y with
    | .error e => (.error e, h)
    | .ok y =>
      let h := h.setRe o.x y
      match multiply o.synthesisWindow y with
      | .error e => (.error e, h)
      | .ok y => (.ok o.x, h.setRe o.x y)

end Verif.DftObj
