import Verif.Model.Explain
import Verif.Spec.Sem

/-!
# Which constraints explain a conflict
-/

namespace Verif.Spec
open Verif Verif.Model

/-- The used constraint `g` is connected to the variables of the conflict through used
constraints: it mentions one of them, or shares a variable with a connected constraint. -/
inductive Connected (witness : List Variable) (used : List Fml) : Fml → Prop
  | here {g : Fml} {v : Variable} : g ∈ used → v ∈ witness → v ∈ g.fv → Connected witness used g
  | next {f g : Fml} {v : Variable} : Connected witness used f → g ∈ used → v ∈ f.fv → v ∈ g.fv →
      Connected witness used g

end Verif.Spec
