import Verif.Model.Nlopt
import Verif.Spec.Sem

/-! # The feasible set of the local optimiser -/

namespace Verif.Spec
open Verif Verif.Model

/-- NLopt takes a point as feasible for a constraint with tolerance `tol`. -/
def NlFeasible (I : Interp) (tol : ℝ) (ρ : Valuation) : NlCon → Prop
  | .le e => eval I ρ e ≤ tol
  | .eq e => |eval I ρ e| ≤ tol

/-- The relation holds up to the tolerance; strict relations count like the others. -/
def nearRel (tol : ℝ) : RelOp → ℝ → ℝ → Prop
  | .eq, x, y => |x - y| ≤ tol
  | .neq, _, _ => True
  | .gt, x, y => y ≤ x + tol
  | .geq, x, y => y ≤ x + tol
  | .lt, x, y => x ≤ y + tol
  | .leq, x, y => x ≤ y + tol

mutual
/-- A conjunction of relations, possibly negated, holds up to the tolerance. -/
def NearHolds (I : Interp) (tol : ℝ) (ρ : Valuation) : Fml → Prop
  | .rel op a b => nearRel tol op (eval I ρ a) (eval I ρ b)
  | .neg (.rel op a b) => nearRel tol op.neg (eval I ρ a) (eval I ρ b)
  | .conj fs => NearHoldsAll I tol ρ fs
  | _ => False
def NearHoldsAll (I : Interp) (tol : ℝ) (ρ : Valuation) : List Fml → Prop
  | [] => True
  | f :: fs => NearHolds I tol ρ f ∧ NearHoldsAll I tol ρ fs
end

mutual
/-- A conjunction of equations and inequalities without negations. -/
def Positive : Fml → Prop
  | .rel op _ _ => op ≠ .neq
  | .conj fs => PositiveAll fs
  | _ => False
def PositiveAll : List Fml → Prop
  | [] => True
  | f :: fs => Positive f ∧ PositiveAll fs
end

mutual
/-- A conjunction of equations and non-strict inequalities without negations. -/
def Closed : Fml → Prop
  | .rel op _ _ => op = .eq ∨ op = .leq ∨ op = .geq
  | .conj fs => ClosedAll fs
  | _ => False
def ClosedAll : List Fml → Prop
  | [] => True
  | f :: fs => Closed f ∧ ClosedAll fs
end

end Verif.Spec
