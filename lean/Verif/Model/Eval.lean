import Verif.Model.Box

/-!
# Interval evaluation of expressions and relations

Models `dreal/solver/expression_evaluator.cc`, `relational_formula_evaluator.cc` and the two
tests of `formula_evaluator_cell.cc`.
-/

namespace Verif.Model
open Verif

/-- The interval operations of IBEX used by the evaluator (parameters of the model). -/
structure IOps where
  add : Itv → Itv → Itv
  mul : Itv → Itv → Itv
  fn1 : Fn1 → Itv → Itv
  fn2 : Fn2 → Itv → Itv → Itv
  sqr : Itv → Itv
  powInt : Itv → ℤ → Itv
  powQ : Itv → ℚ → Itv

/-- `VisitPow` on the two evaluated arguments (`dreal/solver/expression_evaluator.cc:117-138`). -/
def IOps.pow (ops : IOps) (first second : Itv) : Itv :=
  match second with
  | ⟨.fin p, .fin q⟩ =>
    if p = q then
      if (EQ.fin p).isInt then
        if p = 2 then ops.sqr first else ops.powInt first ⌊p⌋
      else ops.powQ first p
    else ops.fn2 .pow first second
  | _ => ops.fn2 .pow first second

/-- `ExpressionEvaluator::Visit` (`dreal/solver/expression_evaluator.cc:34-216`).  Simplified:
sums and products are binary, a coefficient is a constant factor. -/
def evalI (ops : IOps) (b : Box) : Expr → Outcome Itv
  | .const q => .ok (Itv.point q)
  | .rconst r => .ok ⟨.fin r.lb, .fin r.ub⟩
  | .var v => .ok (b.getV v)
  | .add e1 e2 => do
    let i ← evalI ops b e1
    let j ← evalI ops b e2
    .ok (ops.add i j)
  | .mul e1 e2 => do
    let i ← evalI ops b e1
    let j ← evalI ops b e2
    .ok (ops.mul i j)
  | .app1 f e => do
    let i ← evalI ops b e
    .ok (ops.fn1 f i)
  | .app2 f e1 e2 => do
    let i ← evalI ops b e1
    let j ← evalI ops b e2
    .ok (if f = .pow then ops.pow i j else ops.fn2 f i j)
  | .ite _ _ _ => .throw

/-- `FormulaEvaluationResult::Type` (`dreal/solver/formula_evaluator.h:31-35`). -/
inductive Verdict where
  | valid | unsat | unknown
deriving DecidableEq, Repr

/-- The switch of `RelationalFormulaEvaluator::operator()`
(`dreal/solver/relational_formula_evaluator.cc:89-196`).  The bounds of an empty IBEX interval
are `NaN`, so every comparison with them is false and `contains(0)` is false. -/
def relVerdict (op : RelOp) (e : Itv) : Verdict :=
  let ne := !e.isEmpty
  match op with
  | .eq =>
    if ne && decide (e.lb = .fin 0) && decide (e.ub = .fin 0) then .valid
    else if !(ne && e.hasQ 0) then .unsat
    else .unknown
  | .neq =>
    if ne && (decide (e.ub < .fin 0) || decide (.fin 0 < e.lb)) then .valid
    else if ne && decide (e.ub = .fin 0) && decide (e.lb = .fin 0) then .unsat
    else .unknown
  | .gt =>
    if ne && decide (.fin 0 < e.lb) then .valid
    else if ne && decide (e.ub ≤ .fin 0) then .unsat
    else .unknown
  | .geq =>
    if ne && decide (.fin 0 ≤ e.lb) then .valid
    else if ne && decide (e.ub < .fin 0) then .unsat
    else .unknown
  | .lt =>
    if ne && decide (e.ub < .fin 0) then .valid
    else if ne && decide (.fin 0 ≤ e.lb) then .unsat
    else .unknown
  | .leq =>
    if ne && decide (e.ub ≤ .fin 0) then .valid
    else if ne && decide (.fin 0 < e.lb) then .unsat
    else .unknown

/-- `GetRelationalOperator` (`dreal/solver/relational_formula_evaluator.cc:29-67`). -/
def getRelOp : Fml → Outcome RelOp
  | .rel op _ _ => .ok op
  | .neg f => do
    let op ← getRelOp f
    .ok op.neg
  | _ => .throw

/-- `ExtractExpression` (`dreal/solver/relational_formula_evaluator.cc:69-77`). -/
def extractExpr : Fml → Outcome Expr
  | .rel _ a b => .ok (a.sub b)
  | .neg f => extractExpr f
  | _ => .ub

/-- `RelationalFormulaEvaluator`: construction and `operator()`
(`dreal/solver/relational_formula_evaluator.cc:80-196`). -/
def evalRel (ops : IOps) (b : Box) (f : Fml) : Outcome (Verdict × Itv) := do
  let op ← getRelOp f
  let e ← extractExpr f
  let iv ← evalI ops b e
  .ok (relVerdict op iv, iv)

/-- `is_constant(e) || is_real_constant(e)`. -/
def Expr.isNum : Expr → Bool
  | .const _ => true
  | .rconst _ => true
  | _ => false

/-- `is_variable(e)`. -/
def Expr.isVar : Expr → Bool
  | .var _ => true
  | _ => false

/-- `is_simple_relational` (`dreal/solver/formula_evaluator_cell.cc:23-34`). -/
def isSimpleRel : Fml → Bool
  | .neg f => isSimpleRel f
  | .rel _ a b => (a.isNum && b.isVar) || (a.isVar && b.isNum)
  | _ => false

/-- `is_neq` (`dreal/solver/formula_evaluator_cell.cc:36-44`). -/
def isNeq : Fml → Bool → Bool
  | .neg f, p => isNeq f (!p)
  | .rel op _ _, p => (p && decide (op = .neq)) || (!p && decide (op = .eq))
  | _, _ => false

end Verif.Model
