import Verif.Proof.Explain

/-!
# C49: the conflict closure is the least one
-/

namespace Verif.Props
open Verif Verif.Model Verif.Spec

/-- C49: the loop ends after at most one round per used constraint (and one more), and the
explanation has exactly the used constraints that are connected to the conflict or have no
variables. -/
theorem C49_closure (witness : List Variable) (used : List Fml) :
    ∃ r, explanation (used.length + 1) witness used = .ok r ∧
      ∀ g, g ∈ r ↔ g ∈ used ∧ (g.fv = [] ∨ Connected witness used g) := by
  obtain ⟨r, h⟩ := Proof.explanation_total witness used
  exact ⟨r, h, Proof.explanation_iff h⟩

/-- More fuel does not change the explanation. -/
theorem C49_any_fuel (n : Nat) (witness : List Variable) (used r : List Fml)
    (h : explanation n witness used = .ok r) (g : Fml) :
    g ∈ r ↔ g ∈ used ∧ (g.fv = [] ∨ Connected witness used g) :=
  Proof.explanation_iff h g

/-- A chain `x - y - z`, one constraint that is not connected and one without variables. -/
example :
    let x : Expr := .var ⟨0, .continuous⟩
    let y : Expr := .var ⟨1, .continuous⟩
    let z : Expr := .var ⟨2, .continuous⟩
    let w : Expr := .var ⟨3, .continuous⟩
    let c : Fml := .rel .lt (.const 0) (.const 1)
    explanation 6 [⟨0, .continuous⟩]
      [.rel .leq y z, .rel .leq x (.const 1), .rel .leq w (.const 5), .rel .leq x y, c] =
      .ok [.rel .leq y z, .rel .leq x (.const 1), .rel .leq x y, c] := by
  decide +kernel

end Verif.Props
