import Verif.Model.Minimize
import Verif.Model.Script

/-!
# `minimize` and `maximize` in scripts

Models `dreal/smt2/parser.yy:209-217`.  Simplified: a script has one such command.
-/

namespace Verif.Model.Smt2
open Verif Verif.Model

/-- The call of the context (`dreal/solver/context.cc:57-63`). -/
def optimise (cfg : CCfg) (max : Bool) (c : Ctx) (e : Expr) : Run Ctx :=
  if max then maximize cfg c e else minimize cfg c [e]

/-- As `nextAfter` and `idsTaken` of `Script.lean`, for calls on a given context. -/
def nextFrom (cfg : CCfg) (c : Ctx) (l : List Cmd) : Nat :=
  match runCmds cfg c l with
  | .ok r => r.2.sat.abs.next
  | _ => 0
def idsTakenFrom (cfg : CCfg) (c : Ctx) (l : List Cmd) : Nat :=
  nextFrom cfg c l - nextFrom cfg c l.dropLast

/-- A script `s` followed by `(minimize t)` or `(maximize t)` (`dreal/smt2/parser.yy:209-217`) and the
commands `s2`: the answers to the checks in `s2`.  The term is read first, which may make calls on
the context; a formula makes `Term::expression` throw (`dreal/smt2/term.cc:37-42`). -/
def solveOpt (cfg : CCfg) (s : List SCmd) (max : Bool) (t : STerm) (s2 : List SCmd) :
    Run (List (Option Box)) := do
  let d ← Run.lift (run (idsTaken cfg) s {})
  let x ← Run.lift (tr (idsTaken cfg) t d)
  match x.1 with
  | .fml _ => .throw
  | .expr e =>
    let r ← runCmds cfg (Ctx.init 0) x.2.log
    let c ← optimise cfg max r.2 e
    let d2 ← Run.lift (run (idsTakenFrom cfg c) s2 { x.2 with next := c.sat.abs.next, log := [] })
    let a ← runCmds cfg c d2.log
    .ok a.1

end Verif.Model.Smt2
