import Verif.Spec.Regular
import Verif.Spec.Weak

/-! # Solutions of a formula -/

namespace Verif.Spec
open Verif Verif.Model

/-- The point gives the free variables values of their types, integers of 32 bits, and satisfies
the formula. -/
structure SolutionOf (I : Interp) (f : Fml) (ρ : Valuation) : Prop where
  typed : ∀ v ∈ f.fv, typeOk v.type (ρ v)
  small : ∀ v ∈ f.fv, v.type = .integer → |ρ v| ≤ 2147483647
  holds : holds I ρ f

/-- The point gives the free variables of the constraint and the objective values of their types,
integers of 32 bits, and satisfies the constraint. -/
structure FeasibleFor (I : Interp) (e : Expr) (f : Fml) (ρ : Valuation) : Prop where
  typed : ∀ v ∈ f.fv ++ e.vars, typeOk v.type (ρ v)
  small : ∀ v ∈ f.fv ++ e.vars, v.type = .integer → |ρ v| ≤ 2147483647
  holds : holds I ρ f

/-- The objective takes its least value under the constraint at the point. -/
structure MinimumOf (I : Interp) (e : Expr) (f : Fml) (ρ : Valuation) : Prop where
  feasible : FeasibleFor I e f ρ
  least : ∀ σ, FeasibleFor I e f σ → eval I ρ e ≤ eval I σ e

/-- The free variables with the same id are the same. -/
def OneId (vs : List Variable) : Prop := ∀ v ∈ vs, ∀ w ∈ vs, v.id = w.id → v = w

end Verif.Spec
