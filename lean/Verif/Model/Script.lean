import Verif.Model.Smt2

/-!
# Running an SMT-LIB script

The front end of `Smt2.lean` together with the context of `Context.lean`: the driver owns a context
(`dreal/smt2/driver.cc:76`, `dreal/smt2/run.cc:23-36`) and passes its calls on to it.  Both take the
ids of variables from one counter.
-/

namespace Verif.Model.Smt2
open Verif Verif.Model

/-- The counter of variable ids, `Variable::get_next_id` (`symbolic/symbolic_variable.cc:23-29`), after calls
on a context.  Simplified: it starts at 0 instead of 1. -/
def nextAfter (cfg : CCfg) (l : List Cmd) : Nat :=
  match runCmds cfg (Ctx.init 0) l with
  | .ok r => r.2.sat.abs.next
  | _ => 0

/-- The number of ids the last of the calls has taken. -/
def idsTaken (cfg : CCfg) (l : List Cmd) : Nat := nextAfter cfg l - nextAfter cfg l.dropLast

/-- What a script prints: the answers of its `check-sat` commands, `unsat` being `none`
(`dreal/smt2/driver.cc:113-130`).  Simplified: an exception anywhere in the script leaves nothing,
while the code has printed the answers before it. -/
def solve (cfg : CCfg) (s : List SCmd) : Run (List (Option Box)) := do
  let d ← Run.lift (run (idsTaken cfg) s {})
  let r ← runCmds cfg (Ctx.init 0) d.log
  .ok r.1

end Verif.Model.Smt2
