import Mathlib.Algebra.Order.Floor.Defs
import Mathlib.Algebra.Order.Floor.Ring
import Mathlib.Algebra.Order.Field.Basic

/-!
# Model of the ray-tracing energy histograms

`pyroomacoustics/libroom_src/common.hpp` (Histogram2D) and
`pyroomacoustics/libroom_src/microphone.hpp` (Microphone).

Energies are elements of an exact additive structure (no rounding); `int`/`size_t`
are unbounded. Memory that Eigen leaves uninitialised when it enlarges a matrix is
an arbitrary function `junk`.
-/

namespace Verif.Histogram

/-- The `while` loop of `get_new_size` (common.hpp:69-75) for a positive size. -/
def doubleUntil (val cur : Nat) (h : 0 < cur) : Nat :=
  if val ≥ cur then doubleUntil val (cur * 2) (by omega) else cur
termination_by val + 1 - cur

/-- `get_new_size` (common.hpp:69-75). `none`: the loop does not terminate
(`0 * 2 = 0`). -/
def getNewSize (val cur : Nat) : Option Nat :=
  if h : 0 < cur then some (doubleUntil val cur h) else none

/-- Content of memory not yet written (see the header). -/
structure Junk (α : Type*) where
  vals : Nat → Nat → α
  cnts : Nat → Nat → Int

/-- `Histogram2D` (common.hpp:77-88). Entries at positions outside `rows × cols`
have no meaning. -/
structure Hist (α : Type*) where
  rows : Nat
  cols : Nat
  array : Nat → Nat → α
  counts : Nat → Nat → Int

variable {α : Type*}

/-- `init` (common.hpp:90-96). -/
def Hist.init [Zero α] (rows cols : Nat) : Hist α :=
  { rows := rows, cols := cols, array := fun _ _ => 0, counts := fun _ _ => 0 }

/-- Eigen `conservativeResize`: the common part is kept, the rest is uninitialised. -/
def conservative {β} (junk : Nat → Nat → β) (rows cols newRows newCols : Nat)
    (m : Nat → Nat → β) : Nat → Nat → β :=
  fun r c => if r < min rows newRows ∧ c < min cols newCols then m r c else junk r c

/-- Eigen `m.bottomRows(new - old).setZero()` for a matrix with `new` rows. -/
def zeroBottom {β} [Zero β] (old new : Nat) (m : Nat → Nat → β) : Nat → Nat → β :=
  fun r c => if new - (new - old) ≤ r ∧ r < new then 0 else m r c

/-- Eigen `m.rightCols(new - old).setZero()` for a matrix with `new` columns. -/
def zeroRight {β} [Zero β] (old new : Nat) (m : Nat → Nat → β) : Nat → Nat → β :=
  fun r c => if new - (new - old) ≤ c ∧ c < new then 0 else m r c

/-- `resize_rows` (common.hpp:104-116). -/
def Hist.resizeRows [Zero α] (junk : Junk α) (h : Hist α) (new : Nat) : Hist α :=
  let a := conservative junk.vals h.rows h.cols new h.cols h.array
  let n := conservative junk.cnts h.rows h.cols new h.cols h.counts
  if new > h.rows then
    { h with rows := new, array := zeroBottom h.rows new a, counts := zeroBottom h.rows new n }
  else { h with rows := new, array := a, counts := n }

/-- `resize_cols` (common.hpp:118-130). -/
def Hist.resizeCols [Zero α] (junk : Junk α) (h : Hist α) (new : Nat) : Hist α :=
  let a := conservative junk.vals h.rows h.cols h.rows new h.array
  let n := conservative junk.cnts h.rows h.cols h.rows new h.counts
  if new > h.cols then
    { h with cols := new, array := zeroRight h.cols new a, counts := zeroRight h.cols new n }
  else { h with cols := new, array := a, counts := n }

/-- The growth test at the head of `log`/`log_row` (common.hpp:134-135, 155-156). -/
def Hist.growRows [Zero α] (junk : Junk α) (h : Hist α) (row : Nat) : Option (Hist α) :=
  if row ≥ h.rows then (getNewSize row h.rows).map (h.resizeRows junk) else some h

/-- The growth test at the head of `log`/`log_col` (common.hpp:137-138, 146-147). -/
def Hist.growCols [Zero α] (junk : Junk α) (h : Hist α) (col : Nat) : Option (Hist α) :=
  if col ≥ h.cols then (getNewSize col h.cols).map (h.resizeCols junk) else some h

/-- `log` (common.hpp:132-142). -/
def Hist.log [AddZeroClass α] (junk : Junk α) (h : Hist α) (row col : Nat) (v : α) :
    Option (Hist α) := do
  let h ← h.growRows junk row
  let h ← h.growCols junk col
  some { h with
    array := fun r c => if r = row ∧ c = col then h.array r c + v else h.array r c
    counts := fun r c => if r = row ∧ c = col then h.counts r c + 1 else h.counts r c }

/-- `log_col` (common.hpp:144-151). `none` when the vector does not have one entry
per row (Eigen assertion). -/
def Hist.logCol [AddZeroClass α] (junk : Junk α) (h : Hist α) (col : Nat) (v : List α) :
    Option (Hist α) := do
  let h ← h.growCols junk col
  if v.length ≠ h.rows then none else
  some { h with
    array := fun r c => if c = col then h.array r c + v.getD r 0 else h.array r c
    counts := fun r c => if c = col then h.counts r c + 1 else h.counts r c }

/-- `log_row` (common.hpp:153-160), which nothing in the library calls. `none` when
the vector does not have one entry per column. -/
def Hist.logRow [AddZeroClass α] (junk : Junk α) (h : Hist α) (row : Nat) (v : List α) :
    Option (Hist α) := do
  let h ← h.growRows junk row
  if v.length ≠ h.cols then none else
  some { h with
    array := fun r c => if r = row then h.array r c + v.getD c 0 else h.array r c
    counts := fun r c => if r = row then h.counts r c + 1 else h.counts r c }

/-- `bin` (common.hpp:162-168), for a position inside the histogram. -/
def Hist.bin [DivisionRing α] (h : Hist α) (row col : Nat) : α :=
  if h.counts row col ≠ 0 then h.array row col / (h.counts row col : α) else 0

/-- Calls that add energy to a histogram. -/
inductive HOp (α : Type*)
  | log (row col : Nat) (v : α)
  | logCol (col : Nat) (v : List α)
  | logRow (row : Nat) (v : List α)

/-- One call. -/
def Hist.step [AddZeroClass α] (junk : Junk α) (h : Hist α) : HOp α → Option (Hist α)
  | .log r c v => h.log junk r c v
  | .logCol c v => h.logCol junk c v
  | .logRow r v => h.logRow junk r v

/-- A history of calls; `none` if one of them does not return normally. -/
def Hist.run [AddZeroClass α] (junk : Junk α) (h : Hist α) : List (HOp α) → Option (Hist α)
  | [] => some h
  | op :: ops => (h.step junk op).bind (fun h' => h'.run junk ops)

/-! ## Microphone -/

/-- The part of `Microphone` used for logging (microphone.hpp:39-66). `P` is the type
of points. `nearest` stands for the kd-tree query over `directions`
(microphone.hpp:120-135): index of a stored direction nearest to the direction of
the given origin. It is only consulted when `nDirs ≠ 1`. -/
structure Mic (P α : Type*) where
  nDirs : Nat
  nBands : Nat
  res : α
  nBinsInit : Nat
  nearest : P → Nat
  hists : List (Hist α)

variable {P : Type*}

/-- `reset` (microphone.hpp:110-116). -/
def Mic.reset [Zero α] (m : Mic P α) : Mic P α :=
  { m with hists := List.replicate m.nDirs (Hist.init m.nBands m.nBinsInit) }

/-- The constructors (microphone.hpp:68-80, 84-92): `size_t(max_dist / res) + 1`
distance bins, one histogram per direction (`nDirs = 1` for omni microphones). -/
def Mic.new [Field α] [LinearOrder α] [FloorRing α] (nDirs nBands : Nat) (res maxDist : α)
    (nearest : P → Nat) : Mic P α :=
  ({ nDirs := nDirs, nBands := nBands, res := res, nBinsInit := ⌊maxDist / res⌋.toNat + 1,
     nearest := nearest, hists := [] } : Mic P α).reset

/-- `get_dir_bin` (microphone.hpp:120-135). -/
def Mic.dirBin (m : Mic P α) (origin : P) : Nat :=
  if m.nDirs = 1 then 0 else m.nearest origin

/-- `log_histogram` (microphone.hpp:137-143). `size_t(x)` truncates a non-negative
float. `none`: out-of-range histogram or a vector of the wrong length. -/
def Mic.logHist [Field α] [LinearOrder α] [FloorRing α] (junk : Junk α) (m : Mic P α)
    (distance : α) (energy : List α) (origin : P) : Option (Mic P α) :=
  let k := ⌊distance / m.res⌋.toNat
  let d := m.dirBin origin
  match m.hists[d]? with
  | none => none
  | some h => match h.logCol junk k energy with
    | none => none
    | some h' => some { m with hists := m.hists.set d h' }

/-- A ray contribution arriving at the microphone. -/
structure RayHit (P α : Type*) where
  distance : α
  energy : List α
  origin : P

/-- A history of ray contributions. -/
def Mic.run [Field α] [LinearOrder α] [FloorRing α] (junk : Junk α) (m : Mic P α) :
    List (RayHit P α) → Option (Mic P α)
  | [] => some m
  | x :: xs => (m.logHist junk x.distance x.energy x.origin).bind (fun m' => m'.run junk xs)

end Verif.Histogram
