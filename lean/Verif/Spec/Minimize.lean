import Verif.Model.Minimize
import Verif.Spec.Box
import Verif.Spec.Ite
import Verif.Spec.Subst

/-! # Minimisers -/

namespace Verif.Spec
open Verif Verif.Model

/-- The point lies in the box, gives its variables values of their types, and satisfies the
constraints. -/
structure Feasible (I : Interp) (b : Box) (stack : List Fml) (ρ : Valuation) : Prop where
  inBox : InBox ρ b
  typed : TypedOn ρ b.vars
  holds : ∀ f ∈ stack, holds I ρ f

/-- No feasible point is better in all the objectives. -/
def Minimal (I : Interp) (b : Box) (stack : List Fml) (objs : List Expr) (ρ : Valuation) : Prop :=
  ∀ σ, Feasible I b stack σ → ∃ f ∈ objs, eval I ρ f ≤ eval I σ f

end Verif.Spec
