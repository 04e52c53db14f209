import Verif.Model.Syntax
import Mathlib.Data.Real.Basic

/-!
# Meaning of expressions and formulas

Real-valued denotational semantics.  It is independent of every algorithm of the model.
-/

namespace Verif.Spec
open Verif.Model

/-- A valuation assigns a real to every variable (Boolean variables take 0 and 1). -/
abbrev Valuation := Variable → ℝ

/-- Interpretation of the elementary functions; all theorems hold for every interpretation. -/
structure Interp where
  f1 : Fn1 → ℝ → ℝ
  f2 : Fn2 → ℝ → ℝ → ℝ

/-- The values a variable of a given type may take. -/
def typeOk : VType → ℝ → Prop
  | .continuous, _ => True
  | .integer, x => ∃ n : ℤ, x = n
  | .binary, x => x = 0 ∨ x = 1
  | .boolean, x => x = 0 ∨ x = 1

/-- A valuation that respects the variable types. -/
def WellTyped (ρ : Valuation) : Prop := ∀ v : Variable, typeOk v.type (ρ v)

/-- The relations on reals. -/
def relSem : RelOp → ℝ → ℝ → Prop
  | .eq, x, y => x = y
  | .neq, x, y => x ≠ y
  | .gt, x, y => x > y
  | .geq, x, y => x ≥ y
  | .lt, x, y => x < y
  | .leq, x, y => x ≤ y

open Classical in
mutual
/-- Value of an expression. -/
noncomputable def eval (I : Interp) (ρ : Valuation) : Expr → ℝ
  | .const q => q
  | .rconst r => r.exact
  | .var v => ρ v
  | .add a b => eval I ρ a + eval I ρ b
  | .mul a b => eval I ρ a * eval I ρ b
  | .app1 f a => I.f1 f (eval I ρ a)
  | .app2 f a b => I.f2 f (eval I ρ a) (eval I ρ b)
  | .ite c a b => if holds I ρ c then eval I ρ a else eval I ρ b
/-- Truth of a formula.  A quantified variable ranges over the values of its type. -/
noncomputable def holds (I : Interp) (ρ : Valuation) : Fml → Prop
  | .ff => False
  | .tt => True
  | .bvar v => ρ v = 1
  | .rel op a b => relSem op (eval I ρ a) (eval I ρ b)
  | .conj fs => holdsAll I ρ fs
  | .disj fs => holdsAny I ρ fs
  | .neg f => ¬ holds I ρ f
  | .all vs f => ∀ ρ' : Valuation, (∀ v, v ∉ vs → ρ' v = ρ v) →
      (∀ v ∈ vs, typeOk v.type (ρ' v)) → holds I ρ' f
/-- All formulas of a list are true. -/
noncomputable def holdsAll (I : Interp) (ρ : Valuation) : List Fml → Prop
  | [] => True
  | f :: fs => holds I ρ f ∧ holdsAll I ρ fs
/-- Some formula of a list is true. -/
noncomputable def holdsAny (I : Interp) (ρ : Valuation) : List Fml → Prop
  | [] => False
  | f :: fs => holds I ρ f ∨ holdsAny I ρ fs
end

end Verif.Spec
