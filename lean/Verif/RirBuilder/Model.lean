import Mathlib.Analysis.SpecialFunctions.Trigonometric.Basic
import Mathlib.Data.Real.Archimedean

/-!
# Model of the impulse response builders

`pyroomacoustics/libroom_src/rir_builder.cpp` (threaded builder, delay and sum,
fractional delay filters) and `pyroomacoustics/build_rir.pyx` (sequential builder).

Samples are real numbers (no rounding), machine integers are unbounded,
`size_t(ceil(double(n) / double(T)))` is the exact integer quotient rounded up.

Concurrency: a task is a list of accumulations `mem[i] += v`. Each accumulation is two
atomic steps (load, store). A schedule is an arbitrary list of task numbers; at each
entry the named task makes its next step. This includes every execution of the tasks by
a pool of workers.
-/

namespace Verif.RirBuilder

/-! ## Concurrent accumulation -/

/-- An accumulation `mem[index] += value`. -/
abbrev Inc := Int × ℝ

/-- A running task: remaining accumulations and, between load and store of the first
one, the loaded value. -/
structure TaskSt where
  todo : List Inc
  reg : Option ℝ

/-- `mem[i]`; `none` is an access outside the array. -/
def at? (mem : List ℝ) (i : Int) : Option ℝ := if 0 ≤ i then mem[i.toNat]? else none

/-- One atomic step of a task; `none` is an access outside the array. -/
def TaskSt.step (t : TaskSt) (mem : List ℝ) : Option (TaskSt × List ℝ) :=
  match t.todo, t.reg with
  | [], _ => some (t, mem)
  | (i, _) :: _, none => (at? mem i).map (fun r => ({ t with reg := some r }, mem))
  | (i, v) :: rest, some r =>
    if 0 ≤ i ∧ i.toNat < mem.length then some (⟨rest, none⟩, mem.set i.toNat (r + v)) else none

/-- State of the tasks and of the memory after a schedule. -/
def runSched (ts : List TaskSt) (mem : List ℝ) : List Nat → Option (List TaskSt × List ℝ)
  | [] => some (ts, mem)
  | j :: js =>
    match ts[j]? with
    | none => runSched ts mem js
    | some t =>
      match t.step mem with
      | none => none
      | some (t', mem') => runSched (ts.set j t') mem' js

/-- The tasks before their first step. -/
def start (tasks : List (List Inc)) : List TaskSt := tasks.map (fun l => ⟨l, none⟩)

/-- All tasks have finished. -/
def AllDone (ts : List TaskSt) : Prop := ∀ t ∈ ts, t.todo = []

/-! ## Work partition -/

/-- `size_t(std::ceil(double(n) / double(num_threads)))` (rir_builder.cpp:104,144). -/
def blockSize (n threads : Nat) : Nat := (n + threads - 1) / threads

/-- `t_start = t_idx * block_size`, `t_end = min(t_start + block_size, n)`
(rir_builder.cpp:113-114, 148-149): the indices processed by task `t`. -/
def chunk (n threads t : Nat) : List Nat :=
  let s := t * blockSize n threads
  let e := min (s + blockSize n threads) n
  List.range' s (e - s)

/-- Second stage (rir_builder.cpp:144-160, 234-250): task `t` adds, for its samples, the
entries of all partial buffers to the result. `none`: a read outside `buf`. -/
def sumTask (buf : List ℝ) (len threads t : Nat) : Option (List Inc) :=
  ((chunk len threads t).flatMap (fun idx => (List.range threads).map (fun u => (idx, u)))).mapM
    (fun p => (buf[p.2 * len + p.1]?).map (fun v => ((p.1 : Int), v)))

/-! ## Interpolation tables -/

/-- Value stored in the sinc table (rir_builder.cpp:91-94). -/
noncomputable def sincVal (n : ℝ) : ℝ :=
  if n = 0 then 1 else Real.sin (Real.pi * n) / (Real.pi * n)

/-- The loop filling the table (rir_builder.cpp:89-95): `count` entries from `n` on. -/
noncomputable def lutLoop (delta : ℝ) : Nat → ℝ → List ℝ
  | 0, _ => []
  | c + 1, n => sincVal n :: lutLoop delta c (n + delta)

/-- `fdl2 = (fdl - 1) / 2` (rir_builder.cpp:59), for `fdl ≥ 1`. -/
def half (fdl : Nat) : Nat := (fdl - 1) / 2

/-- `sinc_lut` of the C++ code (rir_builder.cpp:83-95). -/
noncomputable def sincLut (fdl gran : Nat) : List ℝ :=
  lutLoop (1 / (gran : ℝ)) ((fdl + 2) * gran) (-(half fdl : ℝ) - 1)

/-- `hann` (rir_builder.cpp:98-100). For `fdl = 1` the only entry is `0 / 0`, NaN in C++; the model has no entry then, so that reading it
gives `none`. -/
noncomputable def hann (fdl : Nat) : List ℝ :=
  if fdl = 1 then [] else (List.range fdl).map (fun idx : Nat =>
    1 / 2 - 1 / 2 * Real.cos ((Real.pi * (2 * (idx : ℝ))) / ((fdl : ℝ) - 1)))

/-- The loop over the taps of one contribution (rir_builder.cpp:132-136): `n` taps to go,
starting at tap `k`, table position `lutPos` and sample `f`. `none`: read outside a
table (or of a NaN, see `hann`). -/
noncomputable def tapLoop (lut hn : List ℝ) (gran : Nat) (alpha xOff : ℝ) :
    Nat → Nat → Int → Int → Option (List Inc)
  | 0, _, _, _ => some []
  | n + 1, k, lutPos, f =>
    match at? lut lutPos, at? lut (lutPos + 1), hn[k]?,
      tapLoop lut hn gran alpha xOff n (k + 1) (lutPos + gran) (f + 1) with
    | some a, some b, some h, some rest => some ((f, alpha * h * (a + xOff * (b - a))) :: rest)
    | _, _, _, _ => none

/-- All accumulations for one image source (rir_builder.cpp:119-137). -/
noncomputable def imageIncs (lut hn : List ℝ) (fs : Int) (fdl gran : Nat) (offset : Int)
    (time alpha : ℝ) : Option (List Inc) :=
  let sampleFrac := (fs : ℝ) * time
  let timeIp := ⌊sampleFrac⌋
  let timeFp := sampleFrac - (timeIp : ℝ)
  let xOffFrac := (1 - timeFp) * (gran : ℝ)
  let lutGranOff := ⌊xOffFrac⌋
  let xOff := xOffFrac - (lutGranOff : ℝ)
  tapLoop lut hn gran alpha xOff fdl 0 lutGranOff (offset + (timeIp - (half fdl : Int)))

/-- First stage (rir_builder.cpp:112-140): accumulations of task `t`, into its own slice of
the partial buffers. -/
noncomputable def rirTask (fs : Int) (fdl gran : Nat) (time alpha : List ℝ) (rirLen threads t : Nat) :
    Option (List Inc) :=
  ((chunk time.length threads t).mapM (fun idx =>
    match time[idx]?, alpha[idx]? with
    | some ti, some al =>
      imageIncs (sincLut fdl gran) (hann fdl) fs fdl gran ((t * rirLen : Nat) : Int) ti al
    | _, _ => none)).map List.flatten

/-- Result of the argument checks. `ub`: undefined behaviour (dereferencing
`max_element` of an empty range). -/
inductive Check | raised | ub | pass
  deriving DecidableEq

/-- `*std::max_element` of a non-empty range. -/
noncomputable def maxOf : List ℝ → ℝ
  | [] => 0
  | x :: xs => xs.foldl max x

/-- `*std::min_element` of a non-empty range. -/
noncomputable def minOf : List ℝ → ℝ
  | [] => 0
  | x :: xs => xs.foldl min x

/-- The checks (rir_builder.cpp:62-80). -/
noncomputable def check (fs : Int) (fdl : Nat) (time alpha : List ℝ) (rirLen : Nat) : Check :=
  if time.length ≠ alpha.length then .raised
  else if fdl % 2 ≠ 1 then .raised
  else if time = [] then .ub
  else if ⌊(fs : ℝ) * minOf time⌋ - (half fdl : Int) < 0 then .raised
  else if ⌈(fs : ℝ) * maxOf time⌉ + (half fdl : Int) ≥ rirLen then .raised
  else .pass

/-- A two-stage parallel accumulation (rir_builder.cpp:103-160, 206-251) as a relation: `stage1` are the
accumulations of the tasks into `threads * len` zeros, then (after waiting for all of
them) the partial buffers are summed into `out`. `Builds … out'` holds when some pair of
schedules that let all tasks finish leads to `out'`. -/
def Builds (stage1 : List (List Inc)) (threads len : Nat) (out out' : List ℝ) : Prop :=
  ∃ s1 s2 ts1 ts2 buf stage2,
    runSched (start stage1) (List.replicate (threads * len) 0) s1 = some (ts1, buf) ∧
    AllDone ts1 ∧
    (List.range threads).mapM (sumTask buf len threads) = some stage2 ∧
    runSched (start stage2) out s2 = some (ts2, out') ∧
    AllDone ts2

/-- No schedule of a two-stage accumulation accesses memory outside its arrays: not in the
first stage, not when reading the partial buffers, not in the second stage. -/
def Safe (stage1 : List (List Inc)) (threads len : Nat) (out : List ℝ) : Prop :=
  ∀ s1, ∃ ts1 buf, runSched (start stage1) (List.replicate (threads * len) 0) s1 = some (ts1, buf) ∧
    (AllDone ts1 → ∃ stage2, (List.range threads).mapM (sumTask buf len threads) = some stage2 ∧
      ∀ s2, runSched (start stage2) out s2 ≠ none)

/-- First-stage tasks of `threaded_rir_builder_impl` (rir_builder.cpp:44-161). `none`: some
table read is out of range. -/
noncomputable def rirTasks (fs : Int) (fdl gran : Nat) (time alpha : List ℝ) (rirLen threads : Nat) :
    Option (List (List Inc)) :=
  (List.range threads).mapM (rirTask fs fdl gran time alpha rirLen threads)

/-! ## Delay and sum -/

/-- The checks of `threaded_delay_sum_impl` (rir_builder.cpp:193-204). -/
def delaySumCheck (irsRows : Nat) (nTaps : Nat) (delays : List Int) (outLen : Nat) : Check :=
  if irsRows ≠ delays.length then .raised
  else match delays with
    | [] => .ub
    | d :: ds =>
      if ds.foldl min d < 0 then .raised
      else if ds.foldl max d + nTaps > outLen then .raised
      else .pass

/-- First stage of `threaded_delay_sum_impl` (rir_builder.cpp:214-230), for task `t`. `irs` are the rows,
all of length `nTaps`. -/
def delaySumTask (irs : List (List ℝ)) (nTaps : Nat) (delays : List Int) (outLen threads t : Nat) :
    Option (List Inc) :=
  ((chunk irs.length threads t).mapM (fun idx : Nat =>
    match (irs[idx]? : Option (List ℝ)), (delays[idx]? : Option Int) with
    | some row, some d =>
      (List.range nTaps).mapM (fun k : Nat =>
        (row[k]?).map (fun v => (((t * outLen : Nat) : Int) + d + (k : Int), v)))
    | _, _ => none)).map List.flatten

/-- All first-stage tasks of delay and sum. -/
def delaySumTasks (irs : List (List ℝ)) (nTaps : Nat) (delays : List Int) (outLen threads : Nat) :
    Option (List (List Inc)) :=
  (List.range threads).mapM (delaySumTask irs nTaps delays outLen threads)

/-! ## Fractional delay filters -/

/-- Number of taps used (rir_builder.cpp:286-289): made odd. -/
def oddLen (width : Nat) : Nat := if width % 2 = 0 then width - 1 else width

/-- One row of `threaded_fractional_delay_impl` (rir_builder.cpp:324-336): the values assigned to
the first `oddLen width` entries of the row. Only the thread owning the row writes it. -/
noncomputable def fracRow (width gran : Nat) (time : ℝ) : Option (List ℝ) :=
  let fdl := oddLen width
  let xOffFrac := (1 - time) * (gran : ℝ)
  let lutGranOff := ⌊xOffFrac⌋
  let xOff := xOffFrac - (lutGranOff : ℝ)
  (tapLoop (sincLut fdl gran) (hann fdl) gran 1 xOff fdl 0 lutGranOff 0).map (List.map Prod.snd)

/-! ## Cython builder -/

/-- `np.sinc` (build_rir.pyx:65). -/
noncomputable def npSinc (x : ℝ) : ℝ := if x = 0 then 1 else Real.sin (Real.pi * x) / (Real.pi * x)

/-- `np.sinc(np.linspace(-fdl2-1, fdl2+1, lut_size))` (build_rir.pyx:57-65). -/
noncomputable def pyLut (fdl gran : Nat) : List ℝ :=
  let n := (fdl + 1) * gran + 1
  (List.range n).map (fun idx : Nat =>
    npSinc (-(half fdl : ℝ) - 1 + (idx : ℝ) * ((2 * (half fdl : ℝ) + 2) / ((n : ℝ) - 1))))

/-- `np.hanning(fdl)` (build_rir.pyx:68): for one point it is 1. -/
noncomputable def pyHann (fdl : Nat) : List ℝ := if fdl = 1 then [1] else hann fdl

/-- `fast_rir_builder` (build_rir.pyx:11-98): assertions, then the loop over the visible
images, accumulating in order. `none` inside: access outside an array (bounds checks are
switched off in the code). -/
noncomputable def pyBuilder (fs : Int) (fdl gran : Nat) (time alpha : List ℝ) (vis : List Bool)
    (rir : List ℝ) : Check × Option (List ℝ) :=
  if time.length ≠ vis.length ∨ time.length ≠ alpha.length ∨ fdl % 2 ≠ 1 then (.raised, some rir)
  else if time = [] then (.raised, some rir)
  else if ⌊(fs : ℝ) * minOf time⌋ - (half fdl : Int) < 0 then (.raised, some rir)
  else if ⌈(fs : ℝ) * maxOf time⌉ + (half fdl : Int) ≥ rir.length then (.raised, some rir)
  else (.pass,
    ((List.range time.length).mapM (fun i =>
      match time[i]?, alpha[i]?, vis[i]? with
      | some ti, some al, some true => imageIncs (pyLut fdl gran) (pyHann fdl) fs fdl gran 0 ti al
      | some _, some _, some false => some []
      | _, _, _ => none)).bind (fun incs =>
        incs.flatten.foldlM (fun (mem : List ℝ) (inc : Inc) =>
          (at? mem inc.1).map (fun r => mem.set inc.1.toNat (r + inc.2))) rir))

end Verif.RirBuilder
