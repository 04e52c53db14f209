import Verif.Model.Cells

/-!
# What an order on terms must be
-/

namespace Verif.Spec
open Verif.Model

/-- A strict weak order: irreflexive, transitive, and being unordered is transitive.  This is
what the ordered containers of C++ require of a comparison. -/
structure StrictWeak {α : Type} (lt : α → α → Prop) : Prop where
  irrefl : ∀ a, ¬ lt a a
  trans : ∀ a b c, lt a b → lt b c → lt a c
  unordered : ∀ a b c, ¬ lt a b → ¬ lt b a → ¬ lt b c → ¬ lt c b → ¬ lt a c ∧ ¬ lt c a

/-- A real constant: the two doubles around it and the flag telling which one stands for it. -/
abbrev RC := ℚ × ℚ × Bool

/-- No two constants of the set have the same representative. -/
def Apart (S : RC → Prop) : Prop :=
  ∀ r r', S r → S r' → rcValue r.1 r.2.1 r.2.2 = rcValue r'.1 r'.2.1 r'.2.2 → r = r'

mutual
/-- All real constants of a term are in `S`. -/
def RcC (S : RC → Prop) : Cell → Prop
  | .rconst l u f => S (l, u, f)
  | .add _ ts => RcT S ts
  | .mul _ fs => RcG S fs
  | .un _ e => RcC S e
  | .bin _ a b => RcC S a ∧ RcC S b
  | .ite c a b => RcF S c ∧ RcC S a ∧ RcC S b
  | .const _ => True
  | .var _ => True
  | .nan => True
  | .uf _ _ => True
def RcT (S : RC → Prop) : CTerms → Prop
  | .nil => True
  | .cons e _ ts => RcC S e ∧ RcT S ts
def RcG (S : RC → Prop) : CFactors → Prop
  | .nil => True
  | .cons b e fs => RcC S b ∧ RcC S e ∧ RcG S fs
def RcF (S : RC → Prop) : FCell → Prop
  | .rel _ a b => RcC S a ∧ RcC S b
  | .conj fs => RcL S fs
  | .disj fs => RcL S fs
  | .neg f => RcF S f
  | .all _ f => RcF S f
  | .ff => True
  | .tt => True
  | .var _ => True
def RcL (S : RC → Prop) : FCells → Prop
  | .nil => True
  | .cons f fs => RcF S f ∧ RcL S fs
end

end Verif.Spec
