import Verif.Spec.Sem
import Verif.Model.Subst

/-! # The meaning of a substitution -/

namespace Verif.Spec
open Verif.Model

open Classical in
/-- The valuation in which the variables have the values of their substitutes. -/
noncomputable def rebind (I : Interp) (ρ : Valuation) (s : Subst) : Valuation := fun v =>
  if v.type = .boolean then
    match lookupV v s.fm with
    | some f => if holds I ρ f then 1 else 0
    | none => ρ v
  else
    match lookupV v s.ex with
    | some e => eval I ρ e
    | none => ρ v

mutual
/-- Boolean variables are used as formulas and the others as expressions (the constructors of the
code enforce this). -/
def SortedE : Expr → Prop
  | .const _ => True
  | .rconst _ => True
  | .var v => v.type ≠ .boolean
  | .add a b => SortedE a ∧ SortedE b
  | .mul a b => SortedE a ∧ SortedE b
  | .app1 _ a => SortedE a
  | .app2 _ a b => SortedE a ∧ SortedE b
  | .ite c a b => SortedF c ∧ SortedE a ∧ SortedE b
def SortedF : Fml → Prop
  | .ff => True
  | .tt => True
  | .bvar v => v.type = .boolean
  | .rel _ a b => SortedE a ∧ SortedE b
  | .conj fs => SortedFs fs
  | .disj fs => SortedFs fs
  | .neg f => SortedF f
  | .all _ f => SortedF f
def SortedFs : List Fml → Prop
  | [] => True
  | f :: fs => SortedF f ∧ SortedFs fs
end

/-- The free variables of the substitute of a variable. -/
def substVars (s : Subst) (v : Variable) : List Variable :=
  if v.type = .boolean then
    match lookupV v s.fm with
    | some f => f.fv
    | none => []
  else
    match lookupV v s.ex with
    | some e => e.vars
    | none => []

mutual
/-- No quantifier captures a variable of a substitute: below `∀ vs`, the substitutes of the free
variables do not mention `vs`. -/
def NoCaptureE (s : Subst) : Expr → Prop
  | .const _ => True
  | .rconst _ => True
  | .var _ => True
  | .add a b => NoCaptureE s a ∧ NoCaptureE s b
  | .mul a b => NoCaptureE s a ∧ NoCaptureE s b
  | .app1 _ a => NoCaptureE s a
  | .app2 _ a b => NoCaptureE s a ∧ NoCaptureE s b
  | .ite c a b => NoCaptureF s c ∧ NoCaptureE s a ∧ NoCaptureE s b
def NoCaptureF (s : Subst) : Fml → Prop
  | .ff => True
  | .tt => True
  | .bvar _ => True
  | .rel _ a b => NoCaptureE s a ∧ NoCaptureE s b
  | .conj fs => NoCaptureFs s fs
  | .disj fs => NoCaptureFs s fs
  | .neg f => NoCaptureF s f
  | .all vs f => (∀ v ∈ f.fv, v ∉ vs → ∀ w ∈ substVars s v, w ∉ vs) ∧
      NoCaptureF (s.erase vs) f
def NoCaptureFs (s : Subst) : List Fml → Prop
  | [] => True
  | f :: fs => NoCaptureF s f ∧ NoCaptureFs s fs
end

end Verif.Spec
