import Verif.Model.Nnf

/-!
# Constraints for the local optimiser

Models `dreal/optimization/nlopt_optimizer.cc:110-174`: the constraints NLopt is given.
-/

namespace Verif.Model
open Verif

/-- A constraint of NLopt: the function is at most zero, or zero
(`add_inequality_constraint`, `add_equality_constraint`), both up to a tolerance given along. -/
inductive NlCon where
  | le (e : Expr)
  | eq (e : Expr)

/-- `NloptOptimizer::AddRelationalConstraint`
(`dreal/optimization/nlopt_optimizer.cc:131-168`).  A formula that is no relation violates the
assertion of line 132. -/
def addRelational : Fml → Outcome NlCon
  | .rel .gt a b => .ok (.le (b.sub a))
  | .rel .geq a b => .ok (.le (b.sub a))
  | .rel .lt a b => .ok (.le (a.sub b))
  | .rel .leq a b => .ok (.le (a.sub b))
  | .rel .eq a b => .ok (.eq (a.sub b))
  | .rel .neq _ _ => .throw
  | _ => .ub

mutual
/-- `NloptOptimizer::AddConstraint` (`dreal/optimization/nlopt_optimizer.cc:110-129`): the
constraints added.  The negation of a relation is given to `Nnfizer::Convert` without the
negation (lines 121-125).  Simplified: constraints added before an error are not kept. -/
def addConstraint : Fml → Outcome (List NlCon)
  | .conj fs => addConstraintList fs
  | .rel op a b => do
    let c ← addRelational (.rel op a b)
    .ok [c]
  | .neg (.rel op a b) => do
    let c ← addRelational (nnf false (.rel op a b))
    .ok [c]
  | _ => .throw
/-- The loop over the operands of a conjunction
(`dreal/optimization/nlopt_optimizer.cc:113-115`); also `AddConstraints` (lines 170-174). -/
def addConstraintList : List Fml → Outcome (List NlCon)
  | [] => .ok []
  | f :: fs => do
    let cs ← addConstraint f
    let ds ← addConstraintList fs
    .ok (cs ++ ds)
end

end Verif.Model
