import Verif.Model.Session
import Verif.Spec.Ite

/-!
# Histories: which are balanced, and what a scope has to restore
-/

namespace Verif.Spec
open Verif Verif.Model

/-- Neither opens nor closes a scope. -/
def Flat : Cmd → Prop
  | .push | .pop => False
  | _ => True

/-- Every scope opened is closed. -/
inductive Balanced : List Cmd → Prop
  | nil : Balanced []
  | flat {c cs} : Flat c → Balanced cs → Balanced (c :: cs)
  | scope {as bs} : Balanced as → Balanced bs → Balanced (.push :: (as ++ .pop :: bs))

/-- What a context holds about the problem: the boxes (declared variables and their intervals),
the asserted formulas, the clauses given to the SAT solver and the names of the variables in
them. -/
structure ProblemPart where
  boxes : ScopedVector Box
  stack : ScopedVector Fml
  toSat : ScopedMap Nat Nat
  toSym : ScopedMap Nat Variable
  tseitinVars : ScopedSet Nat
  clauses : ScopedVector (List Int)

/-- The part of a context that describes the problem. -/
def problemPart (c : Ctx) : ProblemPart :=
  ⟨c.boxes, c.stack, c.sat.toSat, c.sat.toSym, c.sat.tseitinVars, c.sat.clauses⟩

/-- What the user has done with variables: those they constructed, those they declared as model
variables in the scopes still open (innermost first), and those so declared in a scope since
closed. -/
structure User where
  made : List Variable
  scopes : List (List Variable) := [[]]
  gone : List Variable := []

/-- Keeping the books over one call; `next` is the id a variable constructed now gets. -/
def User.step (u : User) (next : Nat) : Cmd → User
  | .newVar t => { u with made := ⟨next, t⟩ :: u.made }
  | .declare v true => match u.scopes with
    | s :: rest => { u with scopes := (v :: s) :: rest }
    | [] => u
  | .push => { u with scopes := [] :: u.scopes }
  | .pop => match u.scopes with
    | s :: rest => { u with scopes := rest, gone := s ++ u.gone }
    | [] => u
  | _ => u

/-- The user declares and asserts only with variables that exist: declared ones are theirs, the
ones of a formula have been constructed. -/
def User.Uses (u : User) (next : Nat) : Cmd → Prop
  | .declare v _ => v ∈ u.made
  | .assert f => Old next f
  | _ => True

/-- The contexts that histories of calls lead to, with the books of the user. -/
inductive Reach (cfg : CCfg) : User → Ctx → Prop
  | init (next : Nat) (made : List Variable) : (∀ v ∈ made, v.id < next) →
      (made.map fun v => v.id).Nodup → Reach cfg { made := made } (Ctx.init next)
  | step {u c cmd a c'} : Reach cfg u c → u.Uses c.sat.abs.next cmd →
      stepCmd cfg c cmd = .ok (a, c') → Reach cfg (u.step c.sat.abs.next cmd) c'

/-- What can be seen of a history: the answers of its checks and the box at the end. -/
def seen : Run (List (Option Box) × Ctx) → Option (List (Option Box) × Box)
  | .ok r => some (r.1, r.2.box)
  | _ => none

end Verif.Spec
