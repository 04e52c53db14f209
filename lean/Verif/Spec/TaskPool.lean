import Verif.Model.TaskPool

/-! # Tasks of a pool: what is asked for -/

namespace Verif.Spec
open Verif.Model

/-- The tasks given to the pool, in order. -/
def tasksGiven : List TqEv → List Nat
  | [] => []
  | .enqueue k :: es => k :: tasksGiven es
  | .notifyOne _ :: es => tasksGiven es
  | .stop :: es => tasksGiven es
  | .notifyAll :: es => tasksGiven es
  | .worker _ :: es => tasksGiven es

/-- The tasks that are being run. -/
def tasksRunning : List TqWorker → List Nat
  | [] => []
  | .busy k :: ws => k :: tasksRunning ws
  | .awake :: ws => tasksRunning ws
  | .asleep :: ws => tasksRunning ws
  | .ended :: ws => tasksRunning ws

/-- Nothing is going on: every worker waits or has returned, and no notification is due. -/
def AtRest (s : TaskPool) : Prop :=
  (∀ w ∈ s.workers, w = .asleep ∨ w = .ended) ∧ s.ones = 0 ∧ s.all = false

/-- The event is a step of a worker that looks at the queue or runs a task, or a notification that is
due and wakes up a worker if one waits: not a new request, and not waking up without reason. -/
def Useful (s : TaskPool) : TqEv → Prop
  | .worker i => s.workers[i]? = some .awake ∨ ∃ k, s.workers[i]? = some (.busy k)
  | .notifyOne j => 0 < s.ones ∧ (.asleep ∈ s.workers → s.workers[j]? = some .asleep)
  | .notifyAll => s.all = true
  | .enqueue _ => False
  | .stop => False

/-- All events are useful when they happen. -/
def AllUseful : List TqEv → TaskPool → Prop
  | [], _ => True
  | e :: es, s => Useful s e ∧ ∀ s', s.step e = .ok s' → AllUseful es s'

end Verif.Spec
