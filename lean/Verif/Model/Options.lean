import Mathlib.Algebra.Order.Ring.Rat
import Verif.Model.OptionValue
import Verif.Model.Outcome

/-!
# Options of a context

Models `SetOption` and `GetOption` of `dreal/solver/context_impl.cc`.
-/

namespace Verif.Model

/-- The Boolean options that can be set by name (`dreal/solver/context_impl.cc:392-419`). -/
inductive BoolOpt where
  | polytope | forallPolytope | localOptimization | worklistFixpoint | produceModels
  | smtlib2Compliant
deriving DecidableEq, Repr

/-- The options set by name (`dreal/solver/context_impl.h`, `option_`) and the part of the
configuration they act on (`dreal/solver/config.h:163-178`). -/
structure Opts where
  option : String → Option String
  precision : OptionValue ℚ
  flag : BoolOpt → OptionValue Bool

/-- The defaults (`dreal/solver/config.h:151, 163-178`). -/
def Opts.init : Opts := ⟨fun _ => none, .mk' (1 / 1000), fun _ => .mk' false⟩

/-- The option of a key in `SetOption(string, string)` (`dreal/solver/context_impl.cc:392-419`). -/
def boolOpt (key : String) : Option BoolOpt :=
  if key = ":polytope" then some .polytope
  else if key = ":forall-polytope" ∨ key = "forall_polytope" then some .forallPolytope
  else if key = ":local-optimization" ∨ key = "local_optimization" then some .localOptimization
  else if key = ":worklist-fixpoint" ∨ key = ":worklist_fixpoint" then some .worklistFixpoint
  else if key = ":produce-models" ∨ key = ":produce_models" then some .produceModels
  else if key = ":smtlib2-compliant" ∨ key = ":smtlib2_compliant" then some .smtlib2Compliant
  else none

/-- `ParseBooleanOption` (`dreal/solver/context_impl.cc:77-86`); none if it throws. -/
def parseBool (val : String) : Option Bool :=
  if val = "true" then some true else if val = "false" then some false else none

/-- `option_[key] = val` (`dreal/solver/context_impl.cc:368,394`). -/
def Opts.store (o : Opts) (key val : String) : Opts :=
  { o with option := fun k => if k = key then some val else o.option k }

/-- `SetOption(string, double)` (`dreal/solver/context_impl.cc:366-377`): the state afterwards, and
whether it threw.  `fmt` prints a double. -/
def Opts.setNum (fmt : ℚ → String) (o : Opts) (key : String) (val : ℚ) : Opts × Bool :=
  let o := o.store key (fmt val)
  if key = ":precision" then
    if val ≤ 0 then (o, true) else ({ o with precision := o.precision.setFromFile val }, false)
  else (o, false)

/-- `SetOption(string, string)` (`dreal/solver/context_impl.cc:392-419`). -/
def Opts.setStr (o : Opts) (key val : String) : Opts × Bool :=
  let o := o.store key val
  match boolOpt key with
  | none => (o, false)
  | some b => match parseBool val with
    | none => (o, true)
    | some v => ({ o with flag := fun c => if c = b then (o.flag c).setFromFile v else o.flag c }, false)

/-- `GetOption` (`dreal/solver/context_impl.cc:379-390`). -/
def Opts.get (fmt : ℚ → String) (o : Opts) (key : String) : Option String :=
  match o.option key with
  | some v => some v
  | none => if key = ":precision" then some (fmt o.precision.get) else none

/-- What can happen to the options: settings by name, from the command line
(`dreal/dreal_main.cc`) and in code (`Context::mutable_config`). -/
inductive OptCmd where
  | setNum (key : String) (val : ℚ)
  | setStr (key val : String)
  | cmdPrecision (val : ℚ)
  | cmdFlag (b : BoolOpt) (val : Bool)
  | codePrecision (val : ℚ)
  | codeFlag (b : BoolOpt) (val : Bool)

/-- One of them.  An exception is caught by the caller, who carries on. -/
def Opts.step (fmt : ℚ → String) (o : Opts) : OptCmd → Opts
  | .setNum k v => (o.setNum fmt k v).1
  | .setStr k v => (o.setStr k v).1
  | .cmdPrecision v => { o with precision := o.precision.setFromCommandLine v }
  | .cmdFlag b v =>
    { o with flag := fun c => if c = b then (o.flag c).setFromCommandLine v else o.flag c }
  | .codePrecision v => { o with precision := o.precision.assign v }
  | .codeFlag b v => { o with flag := fun c => if c = b then (o.flag c).assign v else o.flag c }

/-- A sequence of them. -/
def Opts.run (fmt : ℚ → String) (cs : List OptCmd) : Opts := cs.foldl (Opts.step fmt) .init

end Verif.Model
