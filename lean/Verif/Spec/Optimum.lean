import Verif.Spec.Problem
import Verif.Spec.Filter

/-!
# Optima of the problem a history of calls has posed
-/

namespace Verif.Spec
open Verif Verif.Model

/-- The literal of a bound is a double, and no strict bound sits at or beyond the limits towards
which the code takes the next double (the largest double, and `std::numeric_limits<double>::min()`,
see C20). -/
def ExactBound (d : Dbl) (f : Fml) : Prop :=
  ∀ v op lo hi ex, asBound f = some (v, op, lo, hi, ex) → lo = ex ∧ hi = ex ∧
    (v.type = .continuous → (op = .gt → ex < d.maxv) ∧ (op = .lt → d.minv < ex))

/-- Calls that the theorems on optima cover besides `Books.Uses`: no scopes, the first variable is
declared before anything is asserted, intervals are set before the first assertion, asserted
formulas are without quantifiers and conditionals, with exact bounds. -/
def Books.ExactUse (d : Dbl) (k : Books) : Cmd → Prop
  | .declare _ _ => k.top.asserted = [] ∨ k.top.dom ≠ []
  | .setInterval _ _ _ => k.top.asserted = []
  | .assert f => QFree f ∧ IteFree f ∧ ExactBound d f
  | .push => False
  | .pop => False
  | _ => True

/-- The contexts that such histories lead to, with the books. -/
inductive PosesExact (cfg : CCfg) : Books → Ctx → Prop
  | init (next : Nat) (made : List Variable) : (∀ v ∈ made, v.id < next) →
      PosesExact cfg { made := made } (Ctx.init next)
  | step {k c cmd a c'} : PosesExact cfg k c → k.Uses c.sat.abs.next cmd →
      k.ExactUse cfg.th.dbl cmd → stepCmd cfg c cmd = .ok (a, c') →
      PosesExact cfg (k.step c.sat.abs.next cmd) c'

/-- If the expression is a literal, it is a double. -/
def ExactNum (e : Expr) : Prop := ∀ lo hi ex, asNum e = some (lo, hi, ex) → lo = ex ∧ hi = ex

/-- The point solves the problem, and no other solution is better in all the objectives. -/
structure Optimal (I : Interp) (P : Problem) (objs : List Expr) (ρ : Valuation) : Prop where
  solves : SolvedBy I P ρ
  best : ∀ σ, SolvedBy I P σ → ∃ f ∈ objs, eval I ρ f ≤ eval I σ f

/-- All terms of the problem and the objectives have values at every point that gives the declared
variables values of their types. -/
def Everywhere (D : Dom) (I : Interp) (P : Problem) (objs : List Expr) : Prop :=
  ∀ σ : Valuation, (∀ p ∈ P.dom, typeOk p.1.type (σ p.1)) →
    (∀ f ∈ P.asserted, DefF D I σ f) ∧ ∀ f ∈ objs, DefE D I σ f

end Verif.Spec
