/-!
# Timers

Models `dreal/util/timer.cc`, with which the statistics measure the time spent in a phase.  Time is
counted in units of the clock, which never goes back; overflow and the conversion to seconds are
left out.
-/

namespace Verif.Model

/-- `Timer` (`dreal/util/timer.h:51-60`). -/
structure Timer where
  running : Bool := false
  lastStart : Nat := 0
  elapsed : Nat := 0
deriving DecidableEq, Repr

/-- `Timer::start` (`dreal/util/timer.cc:24-28`). -/
def Timer.start (_ : Timer) (now : Nat) : Timer := ⟨true, now, 0⟩

/-- `Timer::pause` (`dreal/util/timer.cc:30-35`). -/
def Timer.pause (t : Timer) (now : Nat) : Timer :=
  if t.running then { t with running := false, elapsed := t.elapsed + (now - t.lastStart) } else t

/-- `Timer::resume` (`dreal/util/timer.cc:37-42`). -/
def Timer.resume (t : Timer) (now : Nat) : Timer :=
  if t.running then t else { t with lastStart := now, running := true }

/-- `Timer::elapsed` (`dreal/util/timer.cc:46-52`). -/
def Timer.read (t : Timer) (now : Nat) : Nat :=
  if t.running then t.elapsed + (now - t.lastStart) else t.elapsed

/-- What happens to a timer: `d` units of time pass, or a function is called. -/
inductive TimerEv where
  | pass (d : Nat)
  | start
  | pause
  | resume
deriving DecidableEq, Repr

/-- The clock and the timer after one more event. -/
def timerStep (s : Nat × Timer) : TimerEv → Nat × Timer
  | .pass d => (s.1 + d, s.2)
  | .start => (s.1, s.2.start s.1)
  | .pause => (s.1, s.2.pause s.1)
  | .resume => (s.1, s.2.resume s.1)

/-- The clock and the timer after a history, from a timer made at the time `t0`
(`dreal/util/timer.cc:22`). -/
def timerRun (t0 : Nat) (es : List TimerEv) : Nat × Timer :=
  es.foldl timerStep (t0, ⟨false, t0, 0⟩)

mutual
/-- A program that measures one phase with a `TimerGuard`: it spends time, or runs a block in which
a guard of the timer is alive (`dreal/util/timer.cc:64-78`). -/
inductive Guarded where
  | spend (d : Nat)
  | guard (body : GuardedList)
inductive GuardedList where
  | nil
  | cons (p : Guarded) (ps : GuardedList)
end

mutual
/-- The events of a program: an enabled guard resumes the timer when it is made and pauses it when
it is destroyed (`dreal/util/timer.cc:64-78`); one that is not enabled does nothing. -/
def Guarded.events (enabled : Bool) : Guarded → List TimerEv
  | .spend d => [.pass d]
  | .guard b =>
    if enabled then .resume :: (b.events enabled ++ [.pause]) else b.events enabled
def GuardedList.events (enabled : Bool) : GuardedList → List TimerEv
  | .nil => []
  | .cons p ps => p.events enabled ++ ps.events enabled
end

/-- The three timers of a search (`dreal/solver/icp_stat.h:43-45`). -/
inductive IcpTimer where
  | prune
  | eval
  | branch
deriving DecidableEq

/-- One iteration of a search that takes `p` units for pruning, `e` for evaluation and `b` for
branching: the box is empty, is found infeasible by evaluation, is a solution, is bisected, or
cannot be bisected (`dreal/solver/icp_seq.cc:87,97,106,119,127`,
`dreal/solver/icp_parallel.cc:117,128,137,148,158`). -/
inductive IcpIter where
  | empty (p : Nat)
  | infeasible (p e : Nat)
  | found (p e : Nat)
  | bisect (p e b : Nat)
  | stuck (p e b : Nat)

/-- What happens to a timer in one iteration of the sequential
(`dreal/solver/icp_seq.cc:80-134`) or the parallel search (`dreal/solver/icp_parallel.cc:110-158`,
which does not pause the timer of the evaluation before the `continue` of line 135).  The clock is
read only where the timer is; guards are paused at `return` by their destructors, see
`searchEvents`. -/
def IcpIter.events (parallel : Bool) : IcpTimer → IcpIter → List TimerEv
  | .prune, .empty p => [.resume, .pass p, .pause]
  | .prune, .infeasible p e => [.resume, .pass p, .pause, .pass e]
  | .prune, .found p e => [.resume, .pass p, .pause, .pass e]
  | .prune, .bisect p e b => [.resume, .pass p, .pause, .pass e, .pass b]
  | .prune, .stuck p e b => [.resume, .pass p, .pause, .pass e, .pass b]
  | .eval, .empty p => [.pass p]
  | .eval, .infeasible p e =>
    if parallel then [.pass p, .resume, .pass e] else [.pass p, .resume, .pass e, .pause]
  | .eval, .found p e => [.pass p, .resume, .pass e]
  | .eval, .bisect p e b => [.pass p, .resume, .pass e, .pause, .pass b]
  | .eval, .stuck p e b => [.pass p, .resume, .pass e, .pause, .pass b]
  | .branch, .empty p => [.pass p]
  | .branch, .infeasible p e => [.pass p, .pass e]
  | .branch, .found p e => [.pass p, .pass e]
  | .branch, .bisect p e b => [.pass p, .pass e, .resume, .pass b, .pause]
  | .branch, .stuck p e b => [.pass p, .pass e, .resume, .pass b]

/-- What happens to a timer in a search: before each iteration some time passes (taking a box from
the stack); at the end the guard is destroyed (`dreal/solver/icp_seq.cc:55-60`,
`dreal/solver/icp_parallel.cc:71-76`). -/
def searchEvents (parallel : Bool) (w : IcpTimer) : List (Nat × IcpIter) → List TimerEv
  | [] => [.pause]
  | (d, i) :: is => .pass d :: (i.events parallel w ++ searchEvents parallel w is)

end Verif.Model
