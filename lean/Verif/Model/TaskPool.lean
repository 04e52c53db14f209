import Verif.Model.Outcome
import Mathlib.Data.List.Basic

/-!
# The tasks of a thread pool

The queue of `third_party/com_github_progschj_threadpool/ThreadPool/ThreadPool.h` (below: `ThreadPool.h`).
Steps under the lock are atomic; waking up is a step of its own, since the code notifies after it has
given the lock back.  Simplified: exceptions of a task stay in its future (`packaged_task`), so a task
always ends.  The numbers of the threads are in `Model/ThreadPool.lean`.
-/

namespace Verif.Model

/-- A worker is about to look at the queue, waits for the condition, runs a task, or has returned
(`ThreadPool.h:53-66`). -/
inductive TqWorker where
  | awake
  | asleep
  | busy (k : Nat)
  | ended
deriving DecidableEq

/-- The pool: workers, queue and `stop` (`ThreadPool.h:32-40`); the notifications that are due
(`notify_one`, line 88; `notify_all`, line 98); the tasks taken from the queue and those finished, in
the order of events (for the statements only). -/
structure TaskPool where
  workers : List TqWorker
  tasks : List Nat := []
  stop : Bool := false
  ones : Nat := 0
  all : Bool := false
  taken : List Nat := []
  finished : List Nat := []

/-- What can happen. -/
inductive TqEv where
  /-- `enqueue`, up to the end of the lock (`ThreadPool.h:72-87`) -/
  | enqueue (k : Nat)
  /-- `notify_one` (line 88): the system chooses who is woken up -/
  | notifyOne (j : Nat)
  /-- the destructor, up to the end of the lock (lines 94-97) -/
  | stop
  /-- `notify_all` (line 98) -/
  | notifyAll
  /-- a step of a worker (lines 53-66); one that waits may wake up without reason -/
  | worker (i : Nat)

/-- Wake up a worker that waits. -/
def TqWorker.wake : TqWorker → TqWorker
  | .asleep => .awake
  | w => w

/-- A step of the worker `i` (`ThreadPool.h:53-66`). -/
def TaskPool.work (s : TaskPool) (i : Nat) : TaskPool :=
  match s.workers[i]? with
  | none => s
  | some .awake =>
    match s.tasks with
    | [] => { s with workers := s.workers.set i (if s.stop then .ended else .asleep) }
    | k :: rest =>
      { s with workers := s.workers.set i (.busy k), tasks := rest, taken := s.taken ++ [k] }
  | some .asleep => { s with workers := s.workers.set i .awake }
  | some (.busy k) =>
    { s with workers := s.workers.set i .awake, finished := s.finished ++ [k] }
  | some .ended => s

/-- An event.  A notification that is not due, or a choice of a worker that does not wait while
another does, changes nothing. -/
def TaskPool.step (s : TaskPool) : TqEv → Outcome TaskPool
  | .enqueue k =>
    if s.stop then .throw else .ok { s with tasks := s.tasks ++ [k], ones := s.ones + 1 }
  | .notifyOne j =>
    if s.ones = 0 then .ok s
    else if .asleep ∈ s.workers then
      if s.workers[j]? = some .asleep then
        .ok { s with workers := s.workers.set j .awake, ones := s.ones - 1 }
      else .ok s
    else .ok { s with ones := s.ones - 1 }
  | .stop => .ok { s with stop := true, all := true }
  | .notifyAll =>
    if s.all then .ok { s with workers := s.workers.map .wake, all := false } else .ok s
  | .worker i => .ok (s.work i)

/-- An execution. -/
def TaskPool.run : List TqEv → TaskPool → Outcome TaskPool
  | [], s => .ok s
  | e :: es, s =>
    match s.step e with
    | .ok s' => TaskPool.run es s'
    | .throw => .throw
    | .ub => .ub

/-- The constructor (`ThreadPool.h:47-68`). -/
def tqStart (n : Nat) : TaskPool := { workers := List.replicate n .awake }

end Verif.Model
