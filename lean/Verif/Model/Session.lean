import Verif.Model.Context

/-!
# Histories of calls on a context

The public calls of `dreal/solver/context.{h,cc}`, each of which is forwarded to
`dreal/solver/context_impl.cc`.  `Minimize` and the options have files of their own.
-/

namespace Verif.Model
open Verif

/-- A call of the user: construct a variable, declare one, set its interval, assert, check, open
and close a scope.  `DeclareVariable` with bounds (`dreal/solver/context.cc:48-53`) is a
declaration followed by `SetDomain`, which is `SetInterval` with evaluated bounds
(`dreal/solver/context_impl.cc:242-249`); `Push(n)` and `Pop(n)` (`dreal/solver/context.cc:65-85`)
are `n` of these. -/
inductive Cmd where
  | newVar (t : VType)
  | declare (v : Variable) (isModel : Bool)
  | setInterval (v : Variable) (lb ub : EQ)
  | assert (f : Fml)
  | check
  | push
  | pop

/-- One call; the list holds the answer of a check. -/
def stepCmd (cfg : CCfg) (c : Ctx) : Cmd → Run (List (Option Box) × Ctx)
  | .newVar _ => .ok ([], { c with sat := { c.sat with abs :=
      { c.sat.abs with next := c.sat.abs.next + 1 } } })
  | .declare v m => .ok ([], declare c v m)
  | .setInterval v lb ub => do
    let c ← Run.lift (setInterval c v lb ub)
    .ok ([], c)
  | .assert f => do
    let c ← Run.lift (assertF cfg c f)
    .ok ([], c)
  | .check => do
    let r ← checkSat cfg c
    .ok ([r.1], r.2)
  | .push => .ok ([], ctxPush c)
  | .pop => do
    let c ← Run.lift (ctxPop c)
    .ok ([], c)

/-- A history of calls none of which throws: the answers and the context afterwards. -/
def runCmds (cfg : CCfg) : Ctx → List Cmd → Run (List (Option Box) × Ctx)
  | c, [] => .ok ([], c)
  | c, cmd :: cmds => do
    let r ← stepCmd cfg c cmd
    let q ← runCmds cfg r.2 cmds
    .ok (r.1 ++ q.1, q.2)

end Verif.Model
