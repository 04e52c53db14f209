import Verif.Model.Abstractor
import Verif.Spec.Sem
import Verif.Spec.Shape

/-! # Histories of abstraction requests -/

namespace Verif.Spec
open Verif.Model

/-- What happens between and at requests: somebody creates variables, or a formula is
converted. -/
inductive AbsOp where
  | newVar
  | convert (f : Fml)

/-- Run a history; collects the pairs (input, output) of all requests. -/
def absRun : AbsState → List AbsOp → List (Fml × Fml) × AbsState
  | s, [] => ([], s)
  | s, .newVar :: ops => absRun { s with next := s.next + 1 } ops
  | s, .convert f :: ops =>
    ((f, (absConvert f s).1) :: (absRun (absConvert f s).2 ops).1, (absRun (absConvert f s).2 ops).2)

/-- Formulas are built from variables that exist at the time of the request. -/
def AbsOk : AbsState → List AbsOp → Prop
  | _, [] => True
  | s, .newVar :: ops => AbsOk { s with next := s.next + 1 } ops
  | s, .convert f :: ops => (∀ v ∈ f.fv, v.id < s.next) ∧ AbsOk (absConvert f s).2 ops

/-- A valuation gives every recorded Boolean variable the truth value of its atom. -/
def Consistent (I : Interp) (T : List (Variable × Fml)) (ρ : Valuation) : Prop :=
  ∀ p ∈ T, (ρ p.1 = 1 ↔ holds I ρ p.2)

/-- Atoms the abstraction names by a variable directly. -/
def IsNamed : Fml → Prop
  | .rel .eq _ _ | .rel .lt _ _ | .rel .leq _ _ | .all _ _ => True
  | _ => False

end Verif.Spec
