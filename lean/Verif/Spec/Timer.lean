import Verif.Model.Timer

/-! # What timers are to measure -/

namespace Verif.Spec
open Verif.Model

/-- After a history (the last event first) the timer is to run. -/
def isOn : List TimerEv → Prop
  | [] => False
  | .pass _ :: h => isOn h
  | .start :: _ => True
  | .resume :: _ => True
  | .pause :: _ => False

instance decideOn : (h : List TimerEv) → Decidable (isOn h)
  | [] => isFalse id
  | .pass _ :: h => decideOn h
  | .start :: _ => isTrue trivial
  | .resume :: _ => isTrue trivial
  | .pause :: _ => isFalse id

/-- The time that has passed while it was on, since it was last started afresh. -/
def onTime : List TimerEv → Nat
  | [] => 0
  | .pass d :: h => onTime h + if isOn h then d else 0
  | .start :: _ => 0
  | .resume :: h => onTime h
  | .pause :: h => onTime h

mutual
/-- All the time a program takes. -/
def allTime : Guarded → Nat
  | .spend d => d
  | .guard b => allTimes b
def allTimes : GuardedList → Nat
  | .nil => 0
  | .cons p ps => allTime p + allTimes ps
end

mutual
/-- The time a program takes in the phase: in blocks with a guard. -/
def phaseTime : Guarded → Nat
  | .spend _ => 0
  | .guard b => allTimes b
def phaseTimes : GuardedList → Nat
  | .nil => 0
  | .cons p ps => phaseTime p + phaseTimes ps
end

mutual
/-- No guard in a block with a guard of the same timer. -/
def SingleGuard : Guarded → Prop
  | .spend _ => True
  | .guard b => NoGuard b
def SingleGuards : GuardedList → Prop
  | .nil => True
  | .cons p ps => SingleGuard p ∧ SingleGuards ps
def NoGuard : GuardedList → Prop
  | .nil => True
  | .cons (.spend _) ps => NoGuard ps
  | .cons (.guard _) _ => False
end

/-- The time an iteration takes in a phase. -/
def iterTime : IcpTimer → IcpIter → Nat
  | .prune, .empty p => p
  | .prune, .infeasible p _ => p
  | .prune, .found p _ => p
  | .prune, .bisect p _ _ => p
  | .prune, .stuck p _ _ => p
  | .eval, .empty _ => 0
  | .eval, .infeasible _ e => e
  | .eval, .found _ e => e
  | .eval, .bisect _ e _ => e
  | .eval, .stuck _ e _ => e
  | .branch, .bisect _ _ b => b
  | .branch, .stuck _ _ b => b
  | .branch, _ => 0

/-- The time a search takes in a phase. -/
def searchTime (w : IcpTimer) (is : List (Nat × IcpIter)) : Nat := (is.map fun i => iterTime w i.2).sum

/-- The search ends with this iteration. -/
def EndsSearch : IcpIter → Prop
  | .found _ _ => True
  | .stuck _ _ _ => True
  | _ => False

/-- Iterations of one search: none comes behind one that ends it. -/
def OneSearch : List (Nat × IcpIter) → Prop
  | [] => True
  | [_] => True
  | (_, i) :: j :: is => ¬ EndsSearch i ∧ OneSearch (j :: is)

end Verif.Spec
