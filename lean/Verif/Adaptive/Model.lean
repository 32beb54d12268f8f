import Verif.DataStructures.Model
import Mathlib.Data.Real.Basic
import Mathlib.Data.Matrix.Mul
import Mathlib.Data.Matrix.Diagonal
import Mathlib.LinearAlgebra.Matrix.NonsingularInverse

/-!
# Model of the adaptive filters

`pyroomacoustics/adaptive/adaptive_filter.py`, `lms.py`, `rls.py`. Samples are real numbers
(no rounding). Vectors and matrices of the length of the filter are functions on `Fin`.
Weights are `Option`: `none` means that they are NaN (every entry, see the comments).
-/

namespace Verif.Adaptive

open Verif.Py Verif.DataStructures Matrix

/-- A Python list or array as a vector. -/
def toVec (L : Nat) (l : List ℝ) : Fin L → ℝ := fun i => l.getD i 0

/-! ## Base class and NLMS -/

/-- Attributes of `AdaptiveFilter`/`NLMS` (adaptive_filter.py:29-44, lms.py:29-31). -/
structure Nlms (L : Nat) where
  n : Nat
  w : Option (Fin L → ℝ)
  x : List ℝ
  d : ℝ

/-- `AdaptiveFilter.reset` (adaptive_filter.py:20-36). -/
def Nlms.reset (L : Nat) : Nlms L := ⟨0, some (fun _ => 0), List.replicate L 0, 0⟩

/-- `AdaptiveFilter.update` (adaptive_filter.py:38-58): `x[1:] = x[0:-1]; x[0] = x_n`. -/
def Nlms.base {L : Nat} (s : Nlms L) (xn dn : ℝ) : Except Err (Nlms L) :=
  match setSlice s.x (some 1) none (slice s.x (some 0) (some (-1))) with
  | .error e => .error e
  | .ok x1 =>
    match Py.set x1 0 xn with
    | .error e => .error e
    | .ok x2 => .ok { s with n := s.n + 1, x := x2, d := dn }

/-- `w += mu * e * x / np.inner(x, x)` (lms.py:48-49). If the energy is zero all entries of
`x` are zero and every entry of the increment is 0/0. -/
noncomputable def nlmsStep {L : Nat} (mu : ℝ) (w : Option (Fin L → ℝ)) (x : Fin L → ℝ) (d : ℝ) :
    Option (Fin L → ℝ) :=
  match w with
  | none => none
  | some w =>
    let e := d - x ⬝ᵥ w
    if x ⬝ᵥ x = 0 then none else some (fun i => w i + mu * e * x i / (x ⬝ᵥ x))

/-- `NLMS.update` (lms.py:33-49). -/
noncomputable def Nlms.update {L : Nat} (mu : ℝ) (s : Nlms L) (xn dn : ℝ) : Except Err (Nlms L) :=
  match s.base xn dn with
  | .error e => .error e
  | .ok s1 => .ok { s1 with w := nlmsStep mu s1.w (toVec L s1.x) s1.d }

/-! ## Block LMS -/

/-- Attributes of `BlockLMS` (lms.py:68-83). -/
structure BlockLms (L : Nat) where
  n : Nat
  w : Option (Fin L → ℝ)
  x : List ℝ
  d : List ℝ

/-- `BlockLMS.reset` (lms.py:77-83); `B` is the block size. -/
def BlockLms.reset (L B : Nat) : BlockLms L :=
  ⟨0, some (fun _ => 0), List.replicate (B + L - 1) 0, List.replicate B 0⟩

/-- `la.hankel(x[:B], r=x[B-1:])`: entry (i,j) is `x[i+j]`. -/
def hankel (B L : Nat) (x : List ℝ) : Matrix (Fin B) (Fin L) ℝ := fun i j => x.getD (i + j) 0

/-- The weight update of a block (lms.py:102-115). A row of zeros is 0/0 with `nlms`, and then
every entry of `X^T e` is NaN. -/
noncomputable def blockStep {B L : Nat} (mu : ℝ) (nlms : Bool) (w : Option (Fin L → ℝ))
    (X : Matrix (Fin B) (Fin L) ℝ) (d : Fin B → ℝ) : Option (Fin L → ℝ) :=
  match w with
  | none => none
  | some w =>
    let e : Fin B → ℝ := d - X *ᵥ w
    if nlms then
      if ∃ i, X i ⬝ᵥ X i = 0 then none
      else some (w + mu • ((fun i j => X i j / (X i ⬝ᵥ X i) : Matrix (Fin B) (Fin L) ℝ)ᵀ *ᵥ e))
    else some (w + mu • (Xᵀ *ᵥ e))

/-- `BlockLMS.update` (lms.py:85-121). `n % 0` raises. -/
noncomputable def BlockLms.update {L : Nat} (B : Nat) (mu : ℝ) (nlms : Bool) (s : BlockLms L) (xn dn : ℝ) :
    Except Err (BlockLms L) :=
  if B = 0 then .error .zeroDivision
  else
    let n := s.n + 1
    let slot : Int := (B : Int) - ((n - 1) % B : Nat) - 1
    match Py.set s.x slot xn, Py.set s.d slot dn with
    | .ok x1, .ok d1 =>
      if n % B = 0 then
        let w1 := blockStep mu nlms s.w (hankel B L x1) (toVec B d1)
        match setSlice x1 (some (-(L : Int) + 1)) none (slice x1 (some 0) (some ((L : Int) - 1))) with
        | .error e => .error e
        | .ok x2 => .ok ⟨n, w1, x2, d1⟩
      else .ok ⟨n, s.w, x1, d1⟩
    | .error e, _ => .error e
    | _, .error e => .error e

/-! ## RLS -/

/-- Attributes of `RLS` (rls.py:37-72). -/
structure Rls (L : Nat) where
  n : Nat
  w : Fin L → ℝ
  P : Matrix (Fin L) (Fin L) ℝ
  x : Buffer ℝ

/-- `k` calls `push(0)` (rls.py:65-66, 151-152). -/
def pushZeros (b : Buffer ℝ) : Nat → Except Err (Buffer ℝ)
  | 0 => .ok b
  | k + 1 =>
    match b.push 0 with
    | .error e => .error e
    | .ok b1 => pushZeros b1 k

/-- `RLS.__init__` and `reset` (rls.py:37-72): `1 / lmbd` raises for 0, a non-positive delta
is refused. -/
noncomputable def Rls.create (L : Nat) (lmbd delta : ℝ) : Except Err (Rls L) :=
  if lmbd = 0 then .error .zeroDivision
  else if delta ≤ 0 then .error .valueError
  else
    match pushZeros (Buffer.new (10 * L)) (L - 1) with
    | .error e => .error e
    | .ok x => .ok ⟨0, 0, delta⁻¹ • 1, x⟩

/-- The update of the weights and of the inverse matrix (rls.py:92-110). -/
noncomputable def rlsStep {L : Nat} (lmbd : ℝ) (w : Fin L → ℝ) (P : Matrix (Fin L) (Fin L) ℝ) (x : Fin L → ℝ) (d : ℝ) :
    (Fin L → ℝ) × Matrix (Fin L) (Fin L) ℝ :=
  let alpha := d - x ⬝ᵥ w
  let g0 := P *ᵥ (lmbd⁻¹ • x)
  let denom := 1 + x ⬝ᵥ g0
  let g := denom⁻¹ • g0
  -- `np.inner(x_vec, P)` sums over the last axis of P
  (w + alpha • g, lmbd⁻¹ • (P - vecMulVec g (P *ᵥ x)))

/-- `RLS.update` (rls.py:74-115). `top` returns fewer values if the buffer holds fewer; the
inner product would then raise. -/
noncomputable def Rls.update {L : Nat} (lmbd : ℝ) (s : Rls L) (xn dn : ℝ) : Except Err (Rls L) :=
  match s.x.push xn with
  | .error e => .error e
  | .ok x1 =>
    let xv := x1.top L
    if xv.length ≠ L then .error .valueError
    else
      let r := rlsStep lmbd s.w s.P (toVec L xv) dn
      if (s.n + 1) % (10 * L) = 0 then
        match x1.flush (x1.size - L + 1) with
        | .error e => .error e
        | .ok x2 => .ok ⟨s.n + 1, r.1, r.2, x2⟩
      else .ok ⟨s.n + 1, r.1, r.2, x1⟩

/-! ## Block RLS -/

/-- Attributes of `BlockRLS` (rls.py:134-160). -/
structure BlockRls (L : Nat) where
  n : Nat
  w : Fin L → ℝ
  P : Matrix (Fin L) (Fin L) ℝ
  x : Buffer ℝ
  d : Buffer ℝ
  pwr : Powers ℝ
  ipwr : Powers ℝ

/-- `BlockRLS.__init__` and `reset` (rls.py:134-160). -/
noncomputable def BlockRls.create (L B : Nat) (lmbd delta : ℝ) : Except Err (BlockRls L) :=
  if lmbd = 0 then .error .zeroDivision
  else if delta ≤ 0 then .error .valueError
  else
    match pushZeros (Buffer.new (L + B - 1)) (L - 1) with
    | .error e => .error e
    | .ok x => .ok ⟨0, 0, delta⁻¹ • 1, x, Buffer.new B, Powers.new lmbd (2 * B), Powers.new lmbd⁻¹ (2 * B)⟩

/-- The update of a block (rls.py:184-205) with the diagonal `dg` and the factor `f`;
`np.linalg.solve` raises for a singular matrix. -/
noncomputable def blockRlsStep {B L : Nat} (dg : Fin B → ℝ) (f : ℝ) (w : Fin L → ℝ) (P : Matrix (Fin L) (Fin L) ℝ)
    (X : Matrix (Fin B) (Fin L) ℝ) (d : Fin B → ℝ) : Except Err ((Fin L → ℝ) × Matrix (Fin L) (Fin L) ℝ) :=
  let alpha := d - X *ᵥ w
  let pi := P * Xᵀ
  let M := (diagonal dg + X * pi)ᵀ
  open Classical in
  if M.det = 0 then .error .runtimeError
  else
    let g := (M⁻¹ * piᵀ)ᵀ
    .ok (w + g *ᵥ alpha, f • (P - g * piᵀ))

/-- `BlockRLS.update` (rls.py:162-205). The slice `pwr[block:0:-1]` does not extend the
cache (its stop is 0); the index `block` may. -/
noncomputable def BlockRls.update {L : Nat} (B : Nat) (s : BlockRls L) (xn dn : ℝ) : Except Err (BlockRls L) :=
  match s.x.push xn, s.d.push dn with
  | .ok x1, .ok d1 =>
    if B = 0 then .error .zeroDivision
    else if (s.n + 1) % B = 0 then
      let xv := x1.top (B + L - 1)
      let dv := d1.top B
      -- `hankel_stride_trick` (util.py:147-166) checks the length
      if xv.length ≠ B + L - 1 then .error .valueError
      else if dv.length ≠ B then .error .valueError
      else
        let dg : Fin B → ℝ := fun i => s.pwr.pwr.getD (B - i) 0
        match s.ipwr.getItem (.int B) with
        | (_, .error e) => .error e
        | (ip, .ok fs) =>
          match blockRlsStep dg (fs.getD 0 0) s.w s.P (hankel B L xv) (toVec B dv) with
          | .error e => .error e
          | .ok r =>
            match x1.flush B with
            | .error e => .error e
            | .ok x2 => .ok ⟨s.n + 1, r.1, r.2, x2, d1, s.pwr, ip⟩
    else .ok ⟨s.n + 1, s.w, s.P, x1, d1, s.pwr, s.ipwr⟩
  | .error e, _ => .error e
  | _, .error e => .error e

end Verif.Adaptive
