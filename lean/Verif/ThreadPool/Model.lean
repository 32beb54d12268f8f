import Mathlib.Data.List.Perm.Basic

/-!
# Model of the worker pool

`pyroomacoustics/libroom_src/threadpool.hpp`. The sections protected by the mutex are
atomic steps, as are `notify_one`, `notify_all`, the end of a task, and the successful
`join` of all workers. The interleaving of the steps of producers, workers and destructor
is arbitrary. Condition variables may wake up spuriously. Tasks are numbered; a task that
throws ends like any other (`std::packaged_task` stores the exception).
-/

namespace Verif.ThreadPool

/-- Program point of a worker (threadpool.hpp:61-79). -/
inductive W
  /-- about to take the lock and evaluate the predicate (68-70) -/
  | ready
  /-- blocked in `condition.wait` (69) -/
  | sleeping
  /-- executing `task()` (77) -/
  | running (task : Nat)
  /-- returned (72) -/
  | exited
  deriving DecidableEq

/-- Program point of the destructor (threadpool.hpp:109-118). -/
inductive D
  | notStarted
  /-- `stop` is set, `notify_all` not yet called (112-115) -/
  | stopped
  /-- joining the workers (116-117) -/
  | joining
  | done
  deriving DecidableEq

/-- The pool. `pending`: producers between their push and their `notify_one`. The last three
fields record what happened, in order: accepted tasks, started tasks, finished tasks. -/
structure State where
  queue : List Nat
  stop : Bool
  workers : List W
  pending : Nat
  dtor : D
  accepted : List Nat
  started : List Nat
  finished : List Nat

/-- The constructor (threadpool.hpp:56-81). -/
def init (threads : Nat) : State :=
  ⟨[], false, List.replicate threads .ready, 0, .notStarted, [], [], []⟩

inductive Event
  /-- a producer submits a task (threadpool.hpp:96-103) -/
  | enqueue (task : Nat)
  /-- a producer calls `notify_one` (104); the woken worker, if any sleeps, is `w` -/
  | notifyOne (w : Nat)
  /-- worker `w` takes the lock and evaluates the predicate (68-75) -/
  | check (w : Nat)
  /-- worker `w` finishes its task (77) -/
  | finish (w : Nat)
  /-- worker `w` wakes up without notification -/
  | spurious (w : Nat)
  /-- the destructor sets `stop` (112-113) -/
  | dtorStop
  /-- the destructor calls `notify_all` (115) -/
  | dtorNotifyAll
  /-- all workers joined (116-117) -/
  | dtorJoined

/-- Effect of the critical section of a worker (threadpool.hpp:68-75). -/
def checkStep (s : State) (w : Nat) : State :=
  match s.queue with
  | [] =>
    if s.stop then { s with workers := s.workers.set w .exited }
    else { s with workers := s.workers.set w .sleeping }
  | x :: rest => { s with queue := rest, workers := s.workers.set w (.running x), started := s.started ++ [x] }

/-- One step; `none`: the event is not possible in this state. A refused submission
(`throw std::runtime_error`, threadpool.hpp:99-100) leaves the pool unchanged. -/
def step (s : State) : Event → Option State
  | .enqueue x =>
    if s.stop then some s
    else some { s with queue := s.queue ++ [x], pending := s.pending + 1, accepted := s.accepted ++ [x] }
  | .notifyOne w =>
    if s.pending = 0 then none
    else if s.workers[w]? = some .sleeping then
      some { s with pending := s.pending - 1, workers := s.workers.set w .ready }
    else if W.sleeping ∈ s.workers then none
    else some { s with pending := s.pending - 1 }
  | .check w => if s.workers[w]? = some .ready then some (checkStep s w) else none
  | .finish w =>
    match (s.workers[w]? : Option W) with
    | some (.running x) => some { s with workers := s.workers.set w .ready, finished := s.finished ++ [x] }
    | _ => none
  | .spurious w =>
    if s.workers[w]? = some .sleeping then some { s with workers := s.workers.set w .ready } else none
  | .dtorStop => if s.dtor = .notStarted then some { s with stop := true, dtor := .stopped } else none
  | .dtorNotifyAll =>
    if s.dtor = .stopped then
      some { s with dtor := .joining, workers := s.workers.map (fun w => if w = .sleeping then .ready else w) }
    else none
  | .dtorJoined =>
    if s.dtor = .joining ∧ ∀ w ∈ s.workers, w = .exited then some { s with dtor := .done } else none

/-- A sequence of steps. -/
def run (s : State) : List Event → Option State
  | [] => some s
  | e :: es => (step s e).bind (fun s' => run s' es)

/-- States reachable from a fresh pool of `threads` workers. -/
def Reachable (threads : Nat) (s : State) : Prop := ∃ es, run (init threads) es = some s

end Verif.ThreadPool
