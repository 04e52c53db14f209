import Verif.Model.Signal

/-! # What becomes of interrupts -/

namespace Verif.Spec
open Verif.Model

/-- The user interrupts the call, and the solver looks at the flag after that. -/
def Interrupted (body : List SigEv) : Prop :=
  ∃ a b, body = a ++ .signal :: b ∧ SigEv.check ∈ b

/-- The signals outside the solver, each with the handler that was then installed last. -/
def sentOutside {H : Type} : H → List (SigAct H) → List H
  | _, [] => []
  | h, .call _ late :: as => (if late then [h] else []) ++ sentOutside h as
  | h, .signal :: as => h :: sentOutside h as
  | _, .install h :: as => sentOutside h as

/-- The handler installed last. -/
def lastInstalled {H : Type} : H → List (SigAct H) → H
  | h, [] => h
  | h, .call _ _ :: as => lastInstalled h as
  | h, .signal :: as => lastInstalled h as
  | _, .install h :: as => lastInstalled h as

/-- The calls of a program. -/
def callsOf {H : Type} : List (SigAct H) → List (List SigEv)
  | [] => []
  | .call body _ :: as => body :: callsOf as
  | .signal :: as => callsOf as
  | .install _ :: as => callsOf as

end Verif.Spec
