import Verif.Spec.Filter
import Verif.Spec.Nlopt
import Verif.Model.Refine

/-!
# What refining counterexamples has to achieve
-/

namespace Verif.Spec
open Verif Verif.Model

/-- A point is feasible for the local optimiser, up to a tolerance. -/
def NlOk (I : Interp) (tol : ℝ) (ρ : Valuation) (p : NlProblem) : Prop :=
  InBox ρ p.box ∧ ∀ c ∈ p.cons, NlFeasible I tol ρ c

/-- By how much an inequality is satisfied. -/
noncomputable def slack (I : Interp) (ρ : Valuation) : Fml → ℝ
  | .rel .gt a b | .rel .geq a b => eval I ρ a - eval I ρ b
  | .rel .lt a b | .rel .leq a b => eval I ρ b - eval I ρ a
  | _ => 0

/-- The conjuncts of a query. -/
def conjuncts : Fml → List Fml
  | .conj fs => fs
  | f => [f]

/-- The bounds of a query are bounds of the variables `qs`. -/
def BoundsOn (qs : List Variable) (query : Fml) : Prop :=
  ∀ f ∈ conjuncts query, ∀ v n, asBound f = some (v, n) → v ∈ qs

/-- The numbers in bounds are doubles. -/
def ExactBounds (query : Fml) : Prop :=
  ∀ f ∈ conjuncts query, ∀ v op lo hi ex, asBound f = some (v, op, lo, hi, ex) → lo = hi ∧ hi = ex

/-- The optimiser finds finite numbers. -/
def FiniteOpt (opt : NlProblem → List (Variable × ℚ) → List ℚ → Option (List EQ)) : Prop :=
  ∀ p e i x, opt p e i = some x → ∀ y ∈ x, ∃ q, y = .fin q

end Verif.Spec
