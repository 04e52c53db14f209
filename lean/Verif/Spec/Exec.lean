import Verif.Spec.Main
import Verif.Spec.CondLog

/-!
# Files with options anywhere
-/

namespace Verif.Spec.Exec
open Verif Verif.Model Verif.Model.Smt2 Verif.Model.Main

/-- The commands of a file other than `set-option` (and `exit`). -/
def commands : List FCmd → List SCmd
  | [] => []
  | .core c :: fs => c :: commands fs
  | _ :: fs => commands fs

/-- The times of the checks of a file, and that of the check after it. -/
def Checked (log : List Cmd) (i : Nat) : Prop := log[i]? = some .check ∨ i = log.length

open Verif.Spec.Smt2 in
/-- As `CondLog`, for files that set options on the way: the asserted formulas, or those that take
their place, are plain for the precisions at the times `J`. -/
structure CondFile (mk : Opts → CCfg) (sched : Nat → Opts) (db : Dbl) (S : Expr → Expr → Prop)
    (J : Nat → Prop) (log : List Cmd) : Prop where
  rels : ∀ a b, S a b → ∀ i, J i → PlainRel db (mk (sched i)).env.delta a b
  asserts : ∀ l f r, log = l ++ .assert f :: r → ∀ i, J i → PlainF db (mk (sched i)).env.delta S f ∨
    (QFree f ∧ ¬ IteFree f ∧ ∀ ls c, runAt mk sched 0 (Ctx.init 0) l = .ok (ls, c) →
      PlainF db (mk (sched i)).env.delta S (iteProcess c.sat.abs.next f).1)
  bounds : ∀ l v x y r, log = l ++ .setInterval v x y :: r →
    v.type ≠ .boolean ∧ ∀ f, .assert f ∉ callsInForce l
  first : ∀ l v m r, log = l ++ .declare v m :: r →
    (∀ f, .assert f ∉ callsInForce l) ∨ ∃ w m', .declare w m' ∈ callsInForce l

end Verif.Spec.Exec
