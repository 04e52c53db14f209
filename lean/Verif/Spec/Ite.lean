import Verif.Spec.Sem

/-! # Formulas without if-then-else; variables occurring anywhere -/

namespace Verif.Spec
open Verif.Model

mutual
/-- No if-then-else inside. -/
def IteFreeE : Expr → Prop
  | .const _ => True
  | .rconst _ => True
  | .var _ => True
  | .add a b => IteFreeE a ∧ IteFreeE b
  | .mul a b => IteFreeE a ∧ IteFreeE b
  | .app1 _ a => IteFreeE a
  | .app2 _ a b => IteFreeE a ∧ IteFreeE b
  | .ite .. => False
def IteFree : Fml → Prop
  | .ff => True
  | .tt => True
  | .bvar _ => True
  | .rel _ a b => IteFreeE a ∧ IteFreeE b
  | .conj fs => IteFreeList fs
  | .disj fs => IteFreeList fs
  | .neg f => IteFree f
  | .all _ f => IteFree f
def IteFreeList : List Fml → Prop
  | [] => True
  | f :: fs => IteFree f ∧ IteFreeList fs
end

mutual
/-- All variables occurring, free or bound, were created before variable number `n`. -/
def OldE (n : Nat) : Expr → Prop
  | .const _ => True
  | .rconst _ => True
  | .var v => v.id < n
  | .add a b => OldE n a ∧ OldE n b
  | .mul a b => OldE n a ∧ OldE n b
  | .app1 _ a => OldE n a
  | .app2 _ a b => OldE n a ∧ OldE n b
  | .ite c a b => Old n c ∧ OldE n a ∧ OldE n b
def Old (n : Nat) : Fml → Prop
  | .ff => True
  | .tt => True
  | .bvar v => v.id < n
  | .rel _ a b => OldE n a ∧ OldE n b
  | .conj fs => OldList n fs
  | .disj fs => OldList n fs
  | .neg f => Old n f
  | .all vs f => (∀ v ∈ vs, v.id < n) ∧ Old n f
def OldList (n : Nat) : List Fml → Prop
  | [] => True
  | f :: fs => Old n f ∧ OldList n fs
end

end Verif.Spec
