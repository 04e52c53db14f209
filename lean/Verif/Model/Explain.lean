import Verif.Model.Contractor

/-!
# Explanations of conflicts

Models `GenerateExplanation` of `dreal/contractor/contractor_status.cc`.
-/

namespace Verif.Model
open Verif

/-- `HaveIntersection` (`dreal/symbolic/symbolic.cc:145-161`): whether two sets of variables have a
common element. -/
def haveIntersection (vs ws : List Variable) : Bool := vs.any fun v => decide (v ∈ ws)

/-- The initial explanation (`dreal/contractor/contractor_status.cc:124-139`). -/
def explInit (witness : List Variable) (used : List Fml) : List Fml :=
  used.filter fun f => f.fv.isEmpty || haveIntersection witness f.fv

/-- The inner loop for one `f_i` (`dreal/contractor/contractor_status.cc:148-158`): the new
explanation and whether something was inserted. -/
def explInner (fi : Fml) : List Fml → List Fml × Bool → List Fml × Bool
  | [], acc => acc
  | fj :: js, acc =>
    if fj ∈ acc.1 then explInner fi js acc
    else if haveIntersection fi.fv fj.fv then explInner fi js (fj :: acc.1, true)
    else explInner fi js acc

/-- One round of the `while` (`dreal/contractor/contractor_status.cc:147-159`).  Simplified: the
constraints inserted during a round are looked at in the next one; in the code an inserted
constraint that comes later in the order of the set is looked at in the same round. -/
def explRound (used : List Fml) : List Fml → List Fml × Bool → List Fml × Bool
  | [], acc => acc
  | fi :: is, acc => explRound used is (explInner fi used acc)

/-- The `while` loop (`dreal/contractor/contractor_status.cc:145-160`). -/
def explLoop (used : List Fml) : Nat → List Fml → Run (List Fml)
  | 0, _ => .oof
  | n + 1, ex =>
    let r := explRound used ex (ex, false)
    if r.2 then explLoop used n r.1 else .ok r.1

/-- `GenerateExplanation` (`dreal/contractor/contractor_status.cc:112-162`). -/
def explanation (n : Nat) (witness : List Variable) (used : List Fml) : Run (List Fml) :=
  if witness.isEmpty then .ok (explInit witness used) else explLoop used n (explInit witness used)

end Verif.Model
