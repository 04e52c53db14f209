import Verif.Model.Forall
import Verif.Spec.Theory

/-!
# What the contractor of a quantified constraint is given
-/

namespace Verif.Spec
open Verif Verif.Model

/-- What is asked of a counterexample found in a box with the variables `vs`: it is a box over
these and the quantified variables, it is not empty, and the midpoints of the intervals of the
quantified variables are values of their types.  Nothing is asked about the formula.  `Inv` is an
invariant of the state of the search. -/
structure FindOk {σ : Type} (fp : Fp) (vs qs : List Variable) (Inv : σ → Prop)
    (find : σ → Box → Run (Option Box × σ)) : Prop where
  inv : ∀ st b r, Inv st → BoxWf b → b.vars = vs → find st b = .ok r → Inv r.2
  shape : ∀ st b ce st', Inv st → BoxWf b → b.vars = vs → find st b = .ok (some ce, st') →
    ce.vars = vs ++ qs ∧ BoxWf ce
  nonempty : ∀ st b ce st', Inv st → BoxWf b → b.vars = vs → find st b = .ok (some ce, st') →
    ce.bot = false
  typed : ∀ st b ce st', Inv st → BoxWf b → b.vars = vs → find st b = .ok (some ce, st') →
    ∀ q ∈ qs, typeOk q.type ((fp.mid (ce.getV q) : ℚ) : ℝ)

end Verif.Spec
