import Verif.Model.Box
import Verif.Spec.Sem

/-!
# Points of intervals and boxes
-/

namespace Verif.Spec
open Verif.Model

/-- The interval of a new variable: the reals, the integers from -(2^31 - 1) to 2^31 - 1, or
`[0, 1]` for a binary or Boolean variable. -/
def newItv : VType → Itv
  | .continuous => ⟨.ninf, .pinf⟩
  | .integer => ⟨.fin (-2147483647), .fin 2147483647⟩
  | .binary | .boolean => ⟨.fin 0, .fin 1⟩

/-- The bound `a` is at or below the real `x`. -/
def below : EQ → ℝ → Prop
  | .ninf, _ => True
  | .fin q, x => (q : ℝ) ≤ x
  | .pinf, _ => False

/-- The bound `a` is at or above the real `x`. -/
def above : EQ → ℝ → Prop
  | .ninf, _ => False
  | .fin q, x => x ≤ (q : ℝ)
  | .pinf, _ => True

/-- The real `x` lies in the interval. -/
def InItv (x : ℝ) (i : Itv) : Prop := below i.lb x ∧ above i.ub x

/-- The valuation is a point of the box: the box is not empty and the value of each of its
variables lies in the variable's interval. -/
def InBox (ρ : Valuation) (b : Box) : Prop :=
  b.bot = false ∧ ∀ i v, b.vars[i]? = some v → InItv (ρ v) (b.get i)

/-- Well-formed box: one interval per variable, no variable twice. -/
def BoxWf (b : Box) : Prop := b.vals.length = b.vars.length ∧ b.vars.Nodup

/-- The valuation gives every variable of the box a value of its type. -/
def TypedOn (ρ : Valuation) (vs : List Variable) : Prop := ∀ v ∈ vs, typeOk v.type (ρ v)

/-- The split point chosen by `Interval::bisect` is strictly inside a bisectable interval
(the assumption on IBEX). -/
def CutInside (fp : Fp) : Prop :=
  ∀ i, fp.bisectable i = true → i.lb < .fin (fp.cut i) ∧ .fin (fp.cut i) < i.ub

/-- An instance of the floating-point choices, in exact arithmetic; used for concrete cases. -/
def exactFp : Fp where
  mid := fun i => match i with
    | ⟨.fin a, .fin b⟩ => (a + b) / 2
    | ⟨.fin a, .pinf⟩ => a + 1
    | ⟨.ninf, .fin b⟩ => b - 1
    | _ => 0
  cut := fun i => match i with
    | ⟨.fin a, .fin b⟩ => (a + b) / 2
    | ⟨.fin a, .pinf⟩ => a + 1
    | ⟨.ninf, .fin b⟩ => b - 1
    | _ => 0
  diam := fun i => match i with
    | ⟨.fin a, .fin b⟩ => .fin (b - a)
    | i => if i.isEmpty then .fin 0 else .pinf

theorem exactFp_cutInside : CutInside exactFp := by
  intro i h
  have h' : i.isEmpty = false ∧ i.lb < .fin (exactFp.mid i) ∧ .fin (exactFp.mid i) < i.ub := by
    simpa [Fp.bisectable, and_assoc] using h
  exact h'.2

end Verif.Spec
