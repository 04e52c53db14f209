import Verif.Model.Main
import Verif.Spec.Options

/-! # What the program is asked to do -/

namespace Verif.Spec.Main
open Verif Verif.Model Verif.Model.Main

/-- The command line asks to solve what the file says, in the given format: the options are in
order, there is no question for the version or for help and no `--in`, the only argument is the name
of a file, and the format is given or is that of the ending of the name. -/
structure Asks (w : World) (cl : CmdLine) (fm : Format) (name text : String) : Prop where
  ok : cl.parsed = true
  plain : cl.version = false ∧ cl.help = false ∧ cl.fromIn = false
  arg : cl.first ++ cl.unknown ++ cl.last = [name]
  named : name ≠ ""
  file : w.files name = some text
  format : cl.format = fm ∨ (cl.format = .auto ∧ ∃ stem : String,
    (fm = .smt2 ∧ name = stem ++ ".smt2") ∨ (fm = .dr ∧ name = stem ++ ".dr"))

/-- The last precision that commands set, before `exit`. -/
def lastPrecision : List FCmd → Option ℚ
  | [] => none
  | .exit :: _ => none
  | .setNum k v :: cs =>
    match lastPrecision cs with
    | some u => some u
    | none => if k = ":precision" then some v else none
  | _ :: cs => lastPrecision cs

/-- The last value that commands set for a Boolean option, before `exit`. -/
def lastFlag (b : BoolOpt) : List FCmd → Option Bool
  | [] => none
  | .exit :: _ => none
  | .setStr k v :: cs =>
    match lastFlag b cs with
    | some u => some u
    | none => if Spec.named k = some b then some (v == "true") else none
  | _ :: cs => lastFlag b cs

/-- The precision asked for: that of the command line, or else the last that the file sets, or
0.001. -/
def askedPrecision (cl : CmdLine) (cs : List FCmd) : ℚ :=
  (cl.precision <|> lastPrecision cs).getD (1 / 1000)

/-- Whether a Boolean option is asked for: on the command line, or else by the last command of the
file about it. -/
def askedFlag (cl : CmdLine) (cs : List FCmd) (b : BoolOpt) : Bool :=
  cl.flag b || (lastFlag b cs).getD false

/-- A command that sets an option. -/
def IsSetting : FCmd → Prop
  | .setNum _ _ | .setStr _ _ => True
  | _ => False

end Verif.Spec.Main
