import Verif.Spec.Sem

/-! # Construction scripts: what a caller writes with the formula API, and what it means -/

namespace Verif.Spec
open Verif.Model

/-- A term over the formula-building API. -/
inductive Build where
  | tt | ff
  | bvar (v : Variable)
  | rel (op : RelOp) (a b : Expr)
  | and (a b : Build)
  | or (a b : Build)
  | not (a : Build)
  | imply (a b : Build)
  | iff (a b : Build)
  | eq (a b : Build)
  | conj (as : List Build)
  | disj (as : List Build)
  | all (vs : List Variable) (a : Build)

mutual
/-- The intended meaning of a script, without any reference to formulas. -/
def Build.meaning (I : Interp) (ρ : Valuation) : Build → Prop
  | .tt => True
  | .ff => False
  | .bvar v => ρ v = 1
  | .rel op a b => relSem op (eval I ρ a) (eval I ρ b)
  | .and a b => a.meaning I ρ ∧ b.meaning I ρ
  | .or a b => a.meaning I ρ ∨ b.meaning I ρ
  | .not a => ¬ a.meaning I ρ
  | .imply a b => a.meaning I ρ → b.meaning I ρ
  | .iff a b => a.meaning I ρ ↔ b.meaning I ρ
  | .eq a b => a.meaning I ρ ↔ b.meaning I ρ
  | .conj as => Build.meaningAll I ρ as
  | .disj as => Build.meaningAny I ρ as
  | .all vs a => ∀ ρ' : Valuation, (∀ v, v ∉ vs → ρ' v = ρ v) →
      (∀ v ∈ vs, typeOk v.type (ρ' v)) → a.meaning I ρ'
def Build.meaningAll (I : Interp) (ρ : Valuation) : List Build → Prop
  | [] => True
  | a :: as => a.meaning I ρ ∧ Build.meaningAll I ρ as
def Build.meaningAny (I : Interp) (ρ : Valuation) : List Build → Prop
  | [] => False
  | a :: as => a.meaning I ρ ∨ Build.meaningAny I ρ as
end

mutual
/-- Running a script through the (modelled) API. -/
def Build.run : Build → Fml
  | .tt => .tt
  | .ff => .ff
  | .bvar v => .bvar v
  | .rel op a b => mkRel op a b
  | .and a b => andF a.run b.run
  | .or a b => orF a.run b.run
  | .not a => notF a.run
  | .imply a b => implyF a.run b.run
  | .iff a b => iffF a.run b.run
  | .eq a b => eqF a.run b.run
  | .conj as => mkConj (Build.runList as)
  | .disj as => mkDisj (Build.runList as)
  | .all vs a => forallF vs a.run
def Build.runList : List Build → List Fml
  | [] => []
  | a :: as => a.run :: Build.runList as
end

end Verif.Spec
