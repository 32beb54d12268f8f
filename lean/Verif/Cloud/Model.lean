import Verif.Py
import Mathlib.Analysis.SpecialFunctions.Complex.Arg
import Mathlib.Analysis.Real.Sqrt
import Mathlib.Algebra.BigOperators.Fin
import Mathlib.Logic.Equiv.Fin.Basic
import Mathlib.Data.Fin.VecNotation

/-!
# `experimental/point_cloud.py`: point clouds and Euclidean distance matrices

A cloud of `m` points in dimension `d` is an array of `d` rows and `m` columns. Exact numbers. `np.linalg.eig`, `scipy.linalg.svd` and `np.argsort` are parameters. The name `unicode` only exists in
Python 2: the flag `uni` says if it does. `plot` is not modelled, `normalize` and `align` are modelled in two and three dimensions.
-/

namespace Verif.Cloud

open Verif.Py Finset

/-- A reference to a point: a label, or something `int` accepts. -/
inductive Ref where
  | label (s : String)
  | num (i : Int)

/-- `key2ind` (87-97). -/
def key2ind (uni : Bool) (labels : List String) : Ref → Except Err Int
  | r => if uni = false then .error .nameError
    else match r with
      | .label s => if s ∈ labels then .ok (labels.idxOf s) else .error .valueError
      | .num i => .ok i

/-- The column of an index, which can count from the end. -/
def column (m : Nat) (i : Int) : Except Err (Fin m) :=
  match normIdx m i with
  | none => .error .indexError
  | some k => if h : k < m then .ok ⟨k, h⟩ else .error .indexError

/-- All indices of a list of references, first error first. -/
def key2inds (uni : Bool) (labels : List String) : List Ref → Except Err (List Int)
  | [] => .ok []
  | r :: l => (key2ind uni labels r).bind fun i => (key2inds uni labels l).map fun t => i :: t

/-- `EDM` (182-192). -/
def edm {d m : Nat} (X : Fin d → Fin m → ℝ) : Fin m → Fin m → ℝ :=
  let G : Fin m → Fin m → ℝ := fun i j => ∑ k, X k i * X k j
  fun i j => 1 * G j j - 2 * G i j + G i i * 1

/-- The centring matrix (136). -/
noncomputable def centring (n : Nat) : Fin n → Fin n → ℝ := fun i j => (if i = j then 1 else 0) - 1 / n

/-- The product of two square arrays. -/
def mul {n : Nat} (A B : Fin n → Fin n → ℝ) : Fin n → Fin n → ℝ := fun i j => ∑ k, A i k * B k j

/-- The matrix whose eigenvectors are used (134-137). -/
noncomputable def gramOf {n : Nat} (D : Fin n → Fin n → ℝ) : Fin n → Fin n → ℝ := fun i j => -0.5 * mul (centring n) (mul D (centring n)) i j

/-- `classical_mds` (123-148). There are `dim` rows, but no more than points. The square root of a negative eigenvalue is not a number. -/
noncomputable def classicalMds {n : Nat} (eig : (Fin n → Fin n → ℝ) → (Fin n → ℝ) × (Fin n → Fin n → ℝ)) (argsort : (Fin n → ℝ) → Equiv.Perm (Fin n)) (dim : Nat)
    (D : Fin n → Fin n → ℝ) : Option (Fin (min dim n) → Fin n → ℝ) :=
  let e := eig (gramOf D)
  let o := argsort e.1
  let s : Fin n → ℝ := fun k => e.1 (o k.rev)
  let U : Fin n → Fin n → ℝ := fun i k => e.2 i (o k.rev)
  let S : Fin (min dim n) → Fin n → ℝ := fun k l => if k.1 = l.1 then s l else 0
  open Classical in
  if ∃ k l, S k l < 0 then none else some fun k i => ∑ l, Real.sqrt (S k l) * U i l

/-- `fromEDM` (99-121) for an array of any shape. `tri`: the method is `'tri'`, see `trilateration`. -/
noncomputable def fromEdm {r c : Nat} (eig : (Fin r → Fin r → ℝ) → (Fin r → ℝ) × (Fin r → Fin r → ℝ)) (argsort : (Fin r → ℝ) → Equiv.Perm (Fin r)) (dim : Nat)
    (D : Fin r → Fin c → ℝ) : Except Err (Option (Fin (min dim r) → Fin r → ℝ)) :=
  if h : r ≠ c then .error .valueError else .ok (classicalMds eig argsort dim fun i j => D i (j.cast (by omega)))

/-- `trilateration` (161-180): the positions of the first two points are written, then the loop is up to `m`, a name that is not defined. -/
def trilateration (dim m : Nat) : Except Err Unit :=
  if m < 2 then .error .indexError
  else if dim ≠ 2 then .error .valueError
  else .error .nameError

/-- The labels after the construction (36-62): those given, if there is one per point, or the numbers. -/
def labelsOf (m : Nat) : Option (List String) → Except Err (List String)
  | some l => if l.length = m then .ok l else .error .valueError
  | none => .ok ((List.range m).map toString)

/-- `np.arctan2(y, x)`. -/
noncomputable def arctan2 (y x : ℝ) : ℝ := Complex.arg ⟨x, y⟩

/-- Rotation in the plane, by minus the angle (226-229, 286-287). -/
noncomputable def rot (θ : ℝ) (p : ℝ × ℝ) : ℝ × ℝ := (Real.cos θ * p.1 + Real.sin θ * p.2, -Real.sin θ * p.1 + Real.cos θ * p.2)

/-- The geometry of `normalize` in two dimensions (219-238). `r`: the three columns. -/
noncomputable def normalize2 {m : Nat} (X : Fin 2 → Fin m → ℝ) (r0 r1 r2 : Fin m) : Fin 2 → Fin m → ℝ :=
  let Y : Fin 2 → Fin m → ℝ := fun k i => X k i - X k r0
  let θ := arctan2 (Y 1 r1) (Y 0 r1)
  let Y : Fin 2 → Fin m → ℝ := fun k i => ![(rot θ (Y 0 i, Y 1 i)).1, (rot θ (Y 0 i, Y 1 i)).2] k
  if Y 1 r2 < 0 then fun k i => ![Y 0 i, -Y 1 i] k else Y

/-- The geometry of `normalize` in three dimensions (219-254). -/
noncomputable def normalize3 {m : Nat} (X : Fin 3 → Fin m → ℝ) (r0 r1 r2 r3 : Fin m) : Fin 3 → Fin m → ℝ :=
  let Y : Fin 3 → Fin m → ℝ := fun k i => X k i - X k r0
  let θ := arctan2 (Y 1 r1) (Y 0 r1)
  let Y : Fin 3 → Fin m → ℝ := fun k i => ![(rot θ (Y 0 i, Y 1 i)).1, (rot θ (Y 0 i, Y 1 i)).2, Y 2 i] k
  let θ := arctan2 (Y 2 r2) (Y 1 r2)
  let Y : Fin 3 → Fin m → ℝ := fun k i => ![Y 0 i, (rot θ (Y 1 i, Y 2 i)).1, (rot θ (Y 1 i, Y 2 i)).2] k
  if Y 2 r3 < 0 then fun k i => ![Y 0 i, Y 1 i, -Y 2 i] k else Y

/-- `refs[k]`. -/
def refAt (m : Nat) (refs : List Int) (k : Nat) : Except Err (Fin m) := match refs[k]? with
  | none => .error .indexError
  | some i => column m i

/-- `normalize` in two dimensions (194-256). -/
noncomputable def normalizeAt2 {m : Nat} (uni : Bool) (labels : List String) (X : Fin 2 → Fin m → ℝ) (refs : Option (List Ref)) : Except Err (Fin 2 → Fin m → ℝ) :=
  (key2inds uni labels (refs.getD [.num 0, .num 1, .num 2, .num 3])).bind fun (rs : List Int) =>
    if rs.length < 3 then .error .valueError
    else (refAt m rs 0).bind fun r0 => (refAt m rs 1).bind fun r1 => (refAt m rs 2).map fun r2 => normalize2 X r0 r1 r2

/-- `normalize` in three dimensions (194-256). -/
noncomputable def normalizeAt3 {m : Nat} (uni : Bool) (labels : List String) (X : Fin 3 → Fin m → ℝ) (refs : Option (List Ref)) : Except Err (Fin 3 → Fin m → ℝ) :=
  (key2inds uni labels (refs.getD [.num 0, .num 1, .num 2, .num 3])).bind fun (rs : List Int) =>
    if rs.length < 4 then .error .valueError
    else (refAt m rs 0).bind fun r0 => (refAt m rs 1).bind fun r1 => (refAt m rs 2).bind fun r2 => (refAt m rs 3).map fun r3 => normalize3 X r0 r1 r2 r3

/-- `center` (258-262). -/
def center {d m : Nat} (uni : Bool) (labels : List String) (X : Fin d → Fin m → ℝ) (marker : Ref) : Except Err (Fin d → Fin m → ℝ) :=
  (key2ind uni labels marker).bind fun i => (column m i).map fun c => fun k j => X k j - X k c

/-- The argument `axis`: a name or a number. -/
inductive Axis where
  | name (s : String)
  | num (i : Int)

/-- `Y[axis], Y[2] = Y[2], Y[axis]` (283, 291): the right side are views, so that the second assignment reads the row written by the first. -/
def swapRows {m : Nat} (Y : Fin 3 → Fin m → ℝ) (a : Fin 3) : Fin 3 → Fin m → ℝ :=
  let Y1 := Function.update Y a (Y 2)
  Function.update Y1 2 (Y1 a)

/-- The geometry of `align` in three dimensions (280-291). -/
noncomputable def align3 {m : Nat} (X : Fin 3 → Fin m → ℝ) (a : Fin 3) (c : Fin m) : Fin 3 → Fin m → ℝ :=
  let Y := swapRows X a
  let θ := arctan2 (Y 1 c) (Y 0 c)
  let Y : Fin 3 → Fin m → ℝ := fun k i => ![(rot θ (Y 0 i, Y 1 i)).1, (rot θ (Y 0 i, Y 1 i)).2, Y 2 i] k
  swapRows Y a

/-- The geometry of `align` in two dimensions. -/
noncomputable def align2 {m : Nat} (X : Fin 2 → Fin m → ℝ) (c : Fin m) : Fin 2 → Fin m → ℝ :=
  let θ := arctan2 (X 1 c) (X 0 c)
  fun k i => ![(rot θ (X 0 i, X 1 i)).1, (rot θ (X 0 i, X 1 i)).2] k

/-- The number of the axis (275-277): the name is looked up if the *marker* is a label. -/
def axisOf : Ref → Axis → Except Err Int
  | .label _, .name s => if s ∈ ["x", "y", "z"] then .ok (["x", "y", "z"].idxOf s) else .error .valueError
  | .label _, .num _ => .error .valueError
  | .num _, .num i => .ok i
  | .num _, .name _ => .error .indexError

/-- `align` in three dimensions (264-291). -/
noncomputable def alignAt3 {m : Nat} (uni : Bool) (labels : List String) (X : Fin 3 → Fin m → ℝ) (marker : Ref) (axis : Axis) : Except Err (Fin 3 → Fin m → ℝ) :=
  (key2ind uni labels marker).bind fun i => (axisOf marker axis).bind fun a => (column 3 a).bind fun a => (column m i).map fun c => align3 X a c

/-- `flatten` (293-315). `L`: the columns. `svd`: the left matrix, of `min d k` columns. The product has as many rows; the centroid is added to it with broadcasting. -/
noncomputable def flatten {d m k : Nat} (svd : (Fin d → Fin k → ℝ) → Fin d → Fin (min d k) → ℝ) (X : Fin d → Fin m → ℝ) (L : Fin k → Fin m) : Except Err (Fin d → Fin m → ℝ) :=
  if k = 0 then .error .valueError
  else
    let centroid : Fin d → ℝ := fun a => (∑ t, X a (L t)) / k
    let Xc : Fin d → Fin m → ℝ := fun a i => X a i - centroid a
    let U := svd fun a t => Xc a (L t)
    let R : Fin (min d k) → Fin m → ℝ := fun b i => ∑ a, U a b * Xc a i
    if h : d ≤ k then .ok fun a i => R (a.cast (by omega)) i + centroid a
    else if h1 : k = 1 then .ok fun a i => R ⟨0, by omega⟩ i + centroid a
    else .error .valueError

/-- `doa` (324-336). -/
noncomputable def doa {m : Nat} (uni : Bool) (labels : List String) (X : Fin 3 → Fin m → ℝ) (receiver source : Ref) : Except Err (ℝ × ℝ) :=
  (key2ind uni labels source).bind fun s => (key2ind uni labels receiver).bind fun r => (column m s).bind fun s => (column m r).map fun r =>
    let v : Fin 3 → ℝ := fun k => X k s - X k r
    (arctan2 (v 1) (v 0), arctan2 (v 2) (Real.sqrt (v 0 ^ 2 + v 1 ^ 2)))

end Verif.Cloud
