/-!
# Thread identities

Models the part of `third_party/com_github_progschj_threadpool/ThreadPool/ThreadPool.h` that gives
threads their numbers.  An execution is a sequence of atomic events (the counter is atomic, and the
numbers are thread-local).  Tasks and their queue are not modelled: a worker may ask for its number
at any time between creation and destruction of its pool.
-/

namespace Verif.Model

/-- Threads: those of the program, and the workers of the pools in order of creation. -/
inductive Thread where
  | program (i : Nat)
  | worker (pool i : Nat)
deriving DecidableEq, Repr

/-- `global_thread_id_index_`, the thread-local numbers (`third_party/com_github_progschj_threadpool/ThreadPool/ThreadPool.h:25-28,44`), the number of
pools created so far, and the pools alive with their numbers of workers. -/
structure Threads where
  next : Nat := 0
  tid : Thread → Option Nat := fun _ => none
  made : Nat := 0
  alive : List (Nat × Nat) := []

/-- `get_thread_id` (`third_party/com_github_progschj_threadpool/ThreadPool/ThreadPool.h:25-28`). -/
def Threads.getId (s : Threads) (t : Thread) : Threads :=
  match s.tid t with
  | some _ => s
  | none => { s with next := s.next + 1, tid := fun u => if u = t then some s.next else s.tid u }

/-- Events. -/
inductive PoolEvent where
  | create (by_ : Thread) (workers : Nat)
  | use (t : Thread)
  | destroy (pool : Nat)

/-- A thread exists. -/
def Threads.exists (s : Threads) : Thread → Bool
  | .program _ => true
  | .worker p i => s.alive.any fun a => a.1 = p && i < a.2

/-- One event; none if it cannot happen.  Constructor (`third_party/com_github_progschj_threadpool/ThreadPool/ThreadPool.h:47-49`), `get_thread_id`, and
destructor, which waits for the workers to end (`third_party/com_github_progschj_threadpool/ThreadPool/ThreadPool.h:93-104`). -/
def Threads.step (s : Threads) : PoolEvent → Option Threads
  | .create t n =>
    if s.exists t then
      let s := s.getId t
      some { s with made := s.made + 1, alive := (s.made, n) :: s.alive }
    else none
  | .use t => if s.exists t then some (s.getId t) else none
  | .destroy p =>
    if s.alive.any fun a => a.1 = p then
      some { s with alive := s.alive.filter fun a => a.1 ≠ p, next := 1 }
    else none

/-- A sequence of events. -/
def Threads.run : List PoolEvent → Threads → Option Threads
  | [], s => some s
  | e :: es, s => match s.step e with
    | some s => Threads.run es s
    | none => none

end Verif.Model
