import Verif.Model.Options

/-! # Options in force -/

namespace Verif.Spec
open Verif Verif.Model

/-- The names of the Boolean options. -/
def optionNames : List (String × BoolOpt) :=
  [(":polytope", .polytope), (":forall-polytope", .forallPolytope),
   ("forall_polytope", .forallPolytope), (":local-optimization", .localOptimization),
   ("local_optimization", .localOptimization), (":worklist-fixpoint", .worklistFixpoint),
   (":worklist_fixpoint", .worklistFixpoint), (":produce-models", .produceModels),
   (":produce_models", .produceModels), (":smtlib2-compliant", .smtlib2Compliant),
   (":smtlib2_compliant", .smtlib2Compliant)]

/-- The Boolean option a key names. -/
def named (key : String) : Option BoolOpt := optionNames.lookup key

/-- The value, printed, that the solver uses for what a key names; none if it names nothing. -/
def inForce (fmt : ℚ → String) (o : Opts) (key : String) : Option String :=
  if key = ":precision" then some (fmt o.precision.value)
  else (named key).map fun b => if (o.flag b).value then "true" else "false"

/-- What is reported for a key that names an option is what is in force (or nothing is reported). -/
def Reports (fmt : ℚ → String) (o : Opts) (key : String) : Prop :=
  ∀ v w, o.get fmt key = some v → inForce fmt o key = some w → v = w

/-- A command that leaves alone what `key` names, or sets it by this name with an admissible value
of the right kind. -/
def Clean (key : String) : OptCmd → Prop
  | .setNum k v => k ≠ key ∨ (key = ":precision" ∧ 0 < v)
  | .setStr k v => (k ≠ key ∧ (named k = none ∨ named k ≠ named key)) ∨
      (k = key ∧ (v = "true" ∨ v = "false") ∧ key ≠ ":precision")
  | .cmdPrecision _ | .codePrecision _ => key ≠ ":precision"
  | .cmdFlag b _ | .codeFlag b _ => named key ≠ some b

end Verif.Spec
