import Verif.Model.Syntax

/-! # Shapes of formulas: negation normal form, literals, clauses, CNF -/

namespace Verif.Spec
open Verif.Model

/-- Atoms: truth constants, Boolean variables, relations, quantified formulas. -/
def IsAtom : Fml → Prop
  | .ff | .tt | .bvar _ | .rel .. | .all .. => True
  | _ => False

/-- Atoms a negation is left in front of when relations are flipped. -/
def IsBoolAtom : Fml → Prop
  | .bvar _ | .all .. => True
  | _ => False

/-- Negation normal form: outside quantified formulas a negation stands only in front of a
formula satisfying `P`. -/
inductive IsNnf (P : Fml → Prop) : Fml → Prop
  | atom {f} : IsAtom f → IsNnf P f
  | neg {f} : P f → IsNnf P (.neg f)
  | conj {fs} : (∀ f ∈ fs, IsNnf P f) → IsNnf P (.conj fs)
  | disj {fs} : (∀ f ∈ fs, IsNnf P f) → IsNnf P (.disj fs)

/-- Literals: atoms and negated atoms. -/
def IsLit (f : Fml) : Prop := IsAtom f ∨ ∃ g, f = .neg g ∧ IsAtom g

/-- Clauses: literals and disjunctions of literals. -/
def IsClause (f : Fml) : Prop := IsLit f ∨ ∃ fs, f = .disj fs ∧ ∀ g ∈ fs, IsLit g

/-- Conjunctive normal form: a clause or a conjunction of clauses. -/
def IsCnf (f : Fml) : Prop := IsClause f ∨ ∃ fs, f = .conj fs ∧ ∀ g ∈ fs, IsClause g

/-- Formulas as the construction API delivers them: no double negation, no truth constant
below a connective, no conjunction directly below a conjunction, operands distinct and at
least two. -/
inductive Canon : Fml → Prop
  | ff : Canon .ff
  | tt : Canon .tt
  | bvar {v} : Canon (.bvar v)
  | rel {op a b} : Canon (.rel op a b)
  | neg {f} : Canon f → f ≠ .tt → f ≠ .ff → (∀ g, f ≠ .neg g) → Canon (.neg f)
  | conj {fs} : fs.Nodup → 2 ≤ fs.length → (∀ f ∈ fs, Canon f) → .tt ∉ fs → .ff ∉ fs →
      (∀ gs, .conj gs ∉ fs) → Canon (.conj fs)
  | disj {fs} : fs.Nodup → 2 ≤ fs.length → (∀ f ∈ fs, Canon f) → .tt ∉ fs → .ff ∉ fs →
      (∀ gs, .disj gs ∉ fs) → Canon (.disj fs)
  | all {vs f} : Canon f → Canon (.all vs f)

/-- Propositional formulas: no relation, no quantifier. -/
inductive IsProp : Fml → Prop
  | ff : IsProp .ff
  | tt : IsProp .tt
  | bvar {v} : IsProp (.bvar v)
  | neg {f} : IsProp f → IsProp (.neg f)
  | conj {fs} : (∀ f ∈ fs, IsProp f) → IsProp (.conj fs)
  | disj {fs} : (∀ f ∈ fs, IsProp f) → IsProp (.disj fs)

end Verif.Spec
