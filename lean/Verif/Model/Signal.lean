import Mathlib.Data.List.Basic

/-!
# Interrupts of calls from Python

`dreal/util/signal_handler_guard.cc`, `dreal/util/interrupt.cc` and the calls in
`dreal/dreal_py.cc:759-763,797-841`.  Simplified: `sigaction` does not fail; one thread (the calls
keep the lock of the interpreter; the parallel search is in `Model/IcpThrow.lean`), hence calls are
not nested; a signal is handled at once.
-/

namespace Verif.Model

/-- The action installed for SIGINT: the handler of dReal (`sigint_handler`, `dreal/dreal_py.cc:71`)
or another one. -/
inductive SigAction (H : Type) where
  | own
  | other (h : H)

/-- The action for SIGINT, `g_interrupted` (`dreal/util/interrupt.cc:19`), and the other handlers
that have got a signal. -/
structure SigState (H : Type) where
  action : SigAction H
  flag : Bool := false
  got : List H := []

/-- A signal is handled (`dreal/dreal_py.cc:71` for the handler of dReal). -/
def SigState.deliver {H : Type} (s : SigState H) : SigState H :=
  match s.action with
  | .own => { s with flag := true }
  | .other h => { s with got := s.got ++ [h] }

/-- What matters of a solver call: a signal arrives; the code looks at the flag
(`dreal/solver/context_impl.cc:149-154`, `dreal/solver/icp_seq.cc:67-72`,
`dreal/contractor/contractor_fixpoint.cc:54-59`, `dreal/contractor/contractor_forall.h:194-199`). -/
inductive SigEv where
  | signal
  | check
deriving DecidableEq

/-- The solver runs; true if it throws. -/
def sigBody {H : Type} : List SigEv → SigState H → SigState H × Bool
  | [], s => (s, false)
  | .signal :: es, s => sigBody es s.deliver
  | .check :: es, s => if s.flag then (s, true) else sigBody es s

/-- A call with a guard: the constructor (`dreal/util/signal_handler_guard.cc:25-37`), the solver, and
the destructor (lines 39-45), also on an exception.  `late`: a signal arrives between the two
statements of the destructor. -/
def sigCall {H : Type} (body : List SigEv) (late : Bool) (s : SigState H) : SigState H × Bool :=
  let old := s.action
  let r := sigBody body { s with action := .own }
  let s1 := { r.1 with action := old }
  let s2 := if late then s1.deliver else s1
  (if s2.flag then { s2 with flag := false } else s2, r.2)

/-- What a Python program does: calls of the solver, signals between them, and other handlers
installed. -/
inductive SigAct (H : Type) where
  | call (body : List SigEv) (late : Bool)
  | signal
  | install (h : H)

/-- A Python program (it goes on after exceptions); the calls that have thrown. -/
def sigSession {H : Type} : List (SigAct H) → SigState H → SigState H × List Bool
  | [], s => (s, [])
  | .call body late :: as, s =>
    let r := sigCall body late s
    let r' := sigSession as r.1
    (r'.1, r.2 :: r'.2)
  | .signal :: as, s => sigSession as s.deliver
  | .install h :: as, s => sigSession as { s with action := .other h }

end Verif.Model
