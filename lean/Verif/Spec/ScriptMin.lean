import Verif.Spec.Script
import Verif.Spec.GetValue

/-!
# Optima of the problem a script states
-/

namespace Verif.Spec.Smt2
open Verif Verif.Model Verif.Model.Smt2 Verif.Spec

/-- The values of the declared names solve the problem that the script states, the term has a number
as value there, and at no solution is it better. -/
def OptimumOf (I : Interp) (s : List SCmd) (max : Bool) (t : STerm) (xs : List ℝ) : Prop :=
  stated I s xs ∧ ∃ x, valueAfter I s xs t = .num x ∧
    ∀ ys, stated I s ys → ∃ y, valueAfter I s ys t = .num y ∧ if max then y ≤ x else x ≤ y

/-- What the theorem needs of the expression the term is read as. -/
structure ExactObj (e : Expr) : Prop where
  wf : WfE (fun _ => True) e
  ite : IteFreeE e
  num : ExactNum e

/-- All terms asserted and the objective have values wherever the variables have values of their
types. -/
def EverywhereLog (D : Dom) (I : Interp) (log : List Cmd) (e : Expr) : Prop :=
  ∀ σ : Valuation, (∀ v m, .declare v m ∈ log → typeOk v.type (σ v)) →
    (∀ f, .assert f ∈ log → DefF D I σ f) ∧ DefE D I σ e

end Verif.Spec.Smt2
