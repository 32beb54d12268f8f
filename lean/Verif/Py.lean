/-!
# Python / numpy indexing

Semantics of one-dimensional Python and numpy indexing used by several models:
negative indices count from the end, slice bounds are clamped, and slice
assignment needs a right-hand side of the same length (or of length one, which
numpy broadcasts).
-/

namespace Verif.Py

/-- Python exceptions that the modelled code can raise. -/
inductive Err
  | indexError | valueError | typeError | nameError | attributeError
  | runtimeError | notImplemented | keyError | zeroDivision | assertionError
  deriving DecidableEq, Repr

/-- Position addressed by the Python index `i` in a sequence of length `n`. -/
def normIdx (n : Nat) (i : Int) : Option Nat :=
  if 0 ≤ i then (if i < n then some i.toNat else none)
  else if -(n : Int) ≤ i then some (i + n).toNat else none

/-- Position to which the Python slice bound `i` is clamped. -/
def clampIdx (n : Nat) (i : Int) : Nat :=
  if i < 0 then (i + n).toNat else min i.toNat n

/-- Start position of a slice (`None` means 0). -/
def sliceStart (n : Nat) : Option Int → Nat
  | none => 0
  | some i => clampIdx n i

/-- Stop position of a slice (`None` means the length). -/
def sliceStop (n : Nat) : Option Int → Nat
  | none => n
  | some i => clampIdx n i

/-- `l[a:b]`. -/
def slice {α} (l : List α) (a b : Option Int) : List α :=
  (l.drop (sliceStart l.length a)).take (sliceStop l.length b - sliceStart l.length a)

/-- `l[i]`. -/
def get {α} (l : List α) (i : Int) : Except Err α :=
  match normIdx l.length i with
  | some k => match l[k]? with
    | some v => .ok v
    | none => .error .indexError
  | none => .error .indexError

/-- `l[i] = v`. -/
def set {α} (l : List α) (i : Int) (v : α) : Except Err (List α) :=
  match normIdx l.length i with
  | some k => .ok (l.set k v)
  | none => .error .indexError

/-- numpy `l[a:b] = v` (`v` broadcast if it has length one, `ValueError` if the
shapes do not match). -/
def setSlice {α} (l : List α) (a b : Option Int) (v : List α) : Except Err (List α) :=
  let s := sliceStart l.length a
  let e := max s (sliceStop l.length b)
  match v with
  | [x] => .ok (l.take s ++ List.replicate (e - s) x ++ l.drop e)
  | _ => if v.length = e - s then .ok (l.take s ++ v ++ l.drop e) else .error .valueError

/-! ### Basic facts -/

theorem clampIdx_nat (n k : Nat) : clampIdx n (k : Int) = min k n := by
  unfold clampIdx; rw [if_neg (by omega)]; simp

theorem clampIdx_neg (n : Nat) {k : Nat} (h : 0 < k) : clampIdx n (-(k : Int)) = n - k := by
  unfold clampIdx; rw [if_pos (by omega)]; omega

theorem normIdx_nat {n k : Nat} (h : k < n) : normIdx n (k : Int) = some k := by
  unfold normIdx; rw [if_pos (by omega), if_pos (by omega)]; simp

theorem get_nat {α} (l : List α) {k : Nat} (h : k < l.length) :
    Py.get l (k : Int) = .ok l[k] := by
  unfold Py.get; rw [normIdx_nat h]; simp [h]

end Verif.Py
