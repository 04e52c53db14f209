import Verif.Model.Forall
import Verif.Model.Minimize

/-!
# The functions of the library interface

Models `CheckSatisfiability` and `Minimize` of `dreal/api/api.cc`.
-/

namespace Verif.Model
open Verif

/-- Insertion into a set of variables, which is ordered by ids (`symbolic/symbolic_variables.h`,
`std::set<Variable>` with `Variable::less`). -/
def insertVar (v : Variable) : List Variable → List Variable
  | [] => [v]
  | w :: ws => if v = w then w :: ws else if v.id < w.id then v :: w :: ws else w :: insertVar v ws

/-- `GetFreeVariables` as the set it is (`symbolic/symbolic_formula.cc`), in the order in which it is
visited. -/
def varSet (vs : List Variable) : List Variable := vs.foldr insertVar []

/-- `CheckSatisfiability(f, config)` (`dreal/api/api.cc:32-39`); `next` is the counter of variable
ids.  The other overloads (lines 26-30,41-57) set the precision or copy the result. -/
def apiCheck (cfg : CCfg) (next : Nat) (f : Fml) : Run (Option Box) := do
  let c ← Run.lift (assertF cfg (declareAll (varSet f.fv) (Ctx.init next)) f)
  let r ← checkSat cfg c
  .ok r.1

/-- `Minimize(objective, constraint, config)` (`dreal/api/api.cc:65-77`).  The other overloads (lines
58-63,79-97) set the precision or copy the result. -/
def apiMinimize (cfg : CCfg) (next : Nat) (e : Expr) (f : Fml) : Run (Option Box) := do
  let c := declareAll (varSet e.vars) (declareAll (varSet f.fv) (Ctx.init next))
  let c ← Run.lift (assertF cfg c f)
  let c ← minimize cfg c [e]
  let r ← checkSat cfg c
  .ok r.1

end Verif.Model
