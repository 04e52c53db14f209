import Verif.Model.Filter
import Verif.Spec.Eval

/-!
# What absorbing a bound has to achieve
-/

namespace Verif.Spec
open Verif Verif.Model

/-- What is assumed of the neighbours of a double, and of the two limits. -/
structure DblOk (d : Dbl) : Prop where
  succ : ∀ q, q < d.succ q
  pred : ∀ q, d.pred q < q
  minv : 0 < d.minv
  maxv : d.minv < d.maxv

/-- A numeric literal: the two stored doubles and the value it stands for. -/
def asNum : Expr → Option (ℚ × ℚ × ℚ)
  | .const q => some (q, q, q)
  | .rconst r => some (r.lb, r.ub, r.exact)
  | _ => none

/-- The relation seen from the right. -/
def flipRel : RelOp → RelOp
  | .eq => .eq
  | .neq => .neq
  | .gt => .lt
  | .geq => .leq
  | .lt => .gt
  | .leq => .geq

/-- A possibly negated relation between a variable and a literal, with the variable on the left
and the negations pushed in: variable, relation, literal. -/
def asBound (f : Fml) : Option (Variable × RelOp × (ℚ × ℚ × ℚ)) :=
  match asRel f with
  | some (op, .var v, e) => (asNum e).map fun n => (v, op, n)
  | some (op, e, .var v) => (asNum e).map fun n => (v, flipRel op, n)
  | _ => none

/-- The value of the continuous variable of a strict bound `f` is not strictly between the
literal of `f` and the next double in the direction of the bound. -/
def NoGap (d : Dbl) (ρ : Valuation) (f : Fml) : Prop :=
  ∀ v op lo hi ex, asBound f = some (v, op, lo, hi, ex) → v.type = .continuous →
    (op = .gt → ¬ ((lo : ℝ) < ρ v ∧ ρ v < d.succ lo)) ∧
    (op = .lt → ¬ ((d.pred hi : ℝ) < ρ v ∧ ρ v < hi))

end Verif.Spec
