import Verif.Model.Outcome

/-!
# Specification: a stack of snapshots

The simplest possible backtrackable container: the current contents and the list of
copies saved at the open pushes.
-/

namespace Verif.Spec

structure Snap (C : Type u) where
  cur : C
  saved : List C

/-- Calls a user can make: add something, open a scope, close a scope. -/
inductive ScopedOp (A : Type u) where
  | add (a : A)
  | push
  | pop

namespace Snap
variable {C : Type u} {A : Type v}

/-- One call on the specification: new state, and whether the call was rejected. -/
def step (add : C → A → C) (s : Snap C) : ScopedOp A → Snap C × Bool
  | .add a => ({ s with cur := add s.cur a }, false)
  | .push => ({ s with saved := s.cur :: s.saved }, false)
  | .pop => match s.saved with
    | [] => (s, true)
    | c :: rest => (⟨c, rest⟩, false)

/-- A history of calls: final state and the list of rejections, in order. -/
def run (add : C → A → C) (s : Snap C) : List (ScopedOp A) → Snap C × List Bool
  | [] => (s, [])
  | op :: ops =>
    let r := s.step add op
    let r' := run add r.1 ops
    (r'.1, r.2 :: r'.2)

end Snap

/-- A history of calls on an implementation whose calls may throw or be undefined:
`none` if some call has undefined behaviour; a throwing call leaves the state as it was. -/
def runImpl {S : Type u} {A : Type v} (step : S → ScopedOp A → Outcome S) (s : S) :
    List (ScopedOp A) → Option (S × List Bool)
  | [] => some (s, [])
  | op :: ops =>
    match step s op with
    | .ok s' => (runImpl step s' ops).map fun r => (r.1, false :: r.2)
    | .throw => (runImpl step s ops).map fun r => (r.1, true :: r.2)
    | .ub => none

end Verif.Spec
