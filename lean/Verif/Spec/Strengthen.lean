import Verif.Spec.Sem

/-! # The formulas and the rounding the theorems on strengthening are about -/

namespace Verif.Spec
open Verif.Model

mutual
/-- Without if-then-else, and all constants are in `P`. -/
def BasicE (P : ℚ → Prop) : Expr → Prop
  | .const q => P q
  | .rconst _ => True
  | .var _ => True
  | .add a b => BasicE P a ∧ BasicE P b
  | .mul a b => BasicE P a ∧ BasicE P b
  | .app1 _ a => BasicE P a
  | .app2 _ a b => BasicE P a ∧ BasicE P b
  | .ite .. => False
/-- Without quantifiers and if-then-else, all constants in `P`, and no relation with sides that
differ by a constant (the code folds such relations to true or false when they are built). -/
def BasicF (P : ℚ → Prop) : Fml → Prop
  | .ff => True
  | .tt => True
  | .bvar _ => True
  | .rel _ a b => BasicE P a ∧ BasicE P b ∧ constDiff a b = none
  | .conj fs => BasicFs P fs
  | .disj fs => BasicFs P fs
  | .neg f => BasicF P f
  | .all _ _ => False
def BasicFs (P : ℚ → Prop) : List Fml → Prop
  | [] => True
  | f :: fs => BasicF P f ∧ BasicFs P fs
end

/-- Rounding to the numbers in `P` (the doubles): monotone, and exact on `P`. -/
structure RoundsTo (P : ℚ → Prop) (rnd : ℚ → ℚ) : Prop where
  mono : ∀ a b, a ≤ b → rnd a ≤ rnd b
  fix : ∀ a, P a → rnd a = a

end Verif.Spec
