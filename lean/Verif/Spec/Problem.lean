import Verif.Model.Session
import Verif.Spec.Box
import Verif.Spec.Regular

/-!
# The problem a history of calls has posed

Kept apart from the data structures of the solver: the declared variables with the intervals the
user gave them, and the asserted formulas, per scope.
-/

namespace Verif.Spec
open Verif Verif.Model

/-- Declared variables with their intervals, and asserted formulas. -/
structure Problem where
  dom : List (Variable × Itv) := []
  asserted : List Fml := []

/-- The variable is declared. -/
def Problem.Declared (P : Problem) (v : Variable) : Prop := ∃ iv, (v, iv) ∈ P.dom

/-- The point gives every declared variable a value of its type in its interval, and satisfies
every asserted formula. -/
structure SolvedBy (I : Interp) (P : Problem) (ρ : Valuation) : Prop where
  typed : ∀ p ∈ P.dom, typeOk p.1.type (ρ p.1)
  dom : ∀ p ∈ P.dom, InItv (ρ p.1) p.2
  holds : ∀ f ∈ P.asserted, holds I ρ f

/-- All terms of the asserted formulas have values at the point, and it keeps off the gaps next to
the literals of strict bounds. -/
def RegularAt (D : Dom) (I : Interp) (d : Dbl) (P : Problem) (ρ : Valuation) : Prop :=
  ∀ f ∈ P.asserted, RegF D I d ρ f

/-- The books of the user: the variables they constructed, those they ever declared, the
problems of the open scopes, innermost first, whether they ever asserted a formula with a
quantifier, and whether they checked after that. -/
structure Books where
  made : List Variable
  used : List Variable := []
  levels : List Problem := [{}]
  quant : Prop := False
  built : Prop := False

/-- The current problem. -/
def Books.top (k : Books) : Problem := k.levels.headD {}

/-- The current problem with another one in its place. -/
def Books.setTop (k : Books) (P : Problem) : Books := { k with levels := P :: k.levels.tail }

/-- Keeping the books over one call; `next` is the id a variable constructed now gets. -/
def Books.step (k : Books) (next : Nat) : Cmd → Books
  | .newVar t => { k with made := ⟨next, t⟩ :: k.made }
  | .declare v _ =>
    let dom := if v ∈ k.top.dom.map Prod.fst then k.top.dom
      else (v, newItv v.type) :: k.top.dom
    { k.setTop { k.top with dom := dom } with used := v :: k.used }
  | .setInterval v lb ub =>
    k.setTop { k.top with dom := k.top.dom.map fun p => if p.1 = v then (v, ⟨lb, ub⟩) else p }
  | .assert f => { k.setTop { k.top with asserted := f :: k.top.asserted } with
      quant := k.quant ∨ ¬ QFree f }
  | .check => { k with built := k.built ∨ k.quant }
  | .push => { k with levels := k.top :: k.levels }
  | .pop => { k with levels := k.levels.tail }

/-- The calls considered; `next` is the number of variables constructed so far.  Variables are
constructed before they are declared or quantified; a variable whose declaration was popped is not
declared again; intervals are set for declared variables, and once something has been asserted only
made smaller; asserted formulas are over declared variables.  After a check with a quantified
formula the variables of the solver stay: no variable is declared, no conditional asserted, and
nothing popped (the contractor of a quantified formula is kept with the variables it was built
for). -/
def Books.Uses (k : Books) (next : Nat) : Cmd → Prop
  | .declare v _ => v ∈ k.made ∧ (k.top.Declared v ∨ (v ∉ k.used ∧ ¬ k.built))
  | .setInterval v lb ub => k.top.Declared v ∧ (k.top.asserted = [] ∨
    ∀ iv, (v, iv) ∈ k.top.dom → ∀ x : ℝ, InItv x ⟨lb, ub⟩ → InItv x iv)
  | .assert f => WfF k.top.Declared f ∧ Old next f ∧ (k.built → IteFree f)
  | .pop => ¬ k.built
  | _ => True

/-- The contexts that such histories lead to, with the books. -/
inductive Poses (cfg : CCfg) : Books → Ctx → Prop
  | init (next : Nat) (made : List Variable) : (∀ v ∈ made, v.id < next) →
      Poses cfg { made := made } (Ctx.init next)
  | step {k c cmd a c'} : Poses cfg k c → k.Uses c.sat.abs.next cmd →
      stepCmd cfg c cmd = .ok (a, c') → Poses cfg (k.step c.sat.abs.next cmd) c'

end Verif.Spec
