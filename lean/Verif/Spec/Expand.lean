import Verif.Spec.ExprNorm
import Verif.Model.Expand

/-!
# Expansion and substitution: what is meant
-/

namespace Verif.Spec
open Verif Verif.Model

/-- The functions that are simplified on construction have their usual meaning. -/
structure StdOps (v : CVal) : Prop where
  abs : ∀ x, v.un .abs x = some |x|
  sqrt : ∀ x, v.un .sqrt x = if 0 ≤ x then some (Real.sqrt x) else none
  min : ∀ x y, v.bin .min x y = some (min x y)
  max : ∀ x y, v.bin .max x y = some (max x y)

mutual
/-- Every power in the expression has an integer exponent, or a base that `f` does not turn into a
power with an integer exponent. -/
def Rooted (f : Cell → Run Cell) : Cell → Prop
  | .add _ ts => RootedT f ts
  | .mul _ fs => RootedG f fs
  | .un _ a => Rooted f a
  | .bin g a b => Rooted f a ∧ Rooted f b ∧ (g = .pow →
      (∃ q, b = .const q ∧ isInt32 q = true) ∨ ∀ a', f a = .ok a' → ¬ PowInt a')
  | .ite _ a b => Rooted f a ∧ Rooted f b
  | .const _ => True
  | .rconst .. => True
  | .var _ => True
  | .nan => True
  | .uf .. => True
/-- See `Rooted`. -/
def RootedT (f : Cell → Run Cell) : CTerms → Prop
  | .nil => True
  | .cons e _ ts => Rooted f e ∧ RootedT f ts
/-- See `Rooted`. -/
def RootedG (f : Cell → Run Cell) : CFactors → Prop
  | .nil => True
  | .cons a b fs => Rooted f a ∧ Rooted f b ∧
      ((∃ q, b = .const q ∧ isInt32 q = true) ∨ ∀ a', f a = .ok a' → ¬ PowInt a') ∧ RootedG f fs
end

mutual
/-- Every exponent is an integer. -/
def WholePow : Cell → Prop
  | .add _ ts => WholePowT ts
  | .mul _ fs => WholePowG fs
  | .un _ a => WholePow a
  | .bin g a b => WholePow a ∧ WholePow b ∧ (g = .pow → ∃ q, b = .const q ∧ isInt32 q = true)
  | .ite _ a b => WholePow a ∧ WholePow b
  | .const _ => True
  | .rconst .. => True
  | .var _ => True
  | .nan => True
  | .uf .. => True
/-- See `WholePow`. -/
def WholePowT : CTerms → Prop
  | .nil => True
  | .cons e _ ts => WholePow e ∧ WholePowT ts
/-- See `WholePow`. -/
def WholePowG : CFactors → Prop
  | .nil => True
  | .cons a b fs => WholePow a ∧ WholePow b ∧ (∃ q, b = .const q ∧ isInt32 q = true) ∧ WholePowG fs
end

mutual
/-- There are no uninterpreted functions. -/
def NoUf : Cell → Prop
  | .add _ ts => NoUfT ts
  | .mul _ fs => NoUfG fs
  | .un _ a => NoUf a
  | .bin _ a b => NoUf a ∧ NoUf b
  | .ite _ a b => NoUf a ∧ NoUf b
  | .const _ => True
  | .rconst .. => True
  | .var _ => True
  | .nan => True
  | .uf .. => False
/-- See `NoUf`. -/
def NoUfT : CTerms → Prop
  | .nil => True
  | .cons e _ ts => NoUf e ∧ NoUfT ts
/-- See `NoUf`. -/
def NoUfG : CFactors → Prop
  | .nil => True
  | .cons a b fs => NoUf a ∧ NoUf b ∧ NoUfG fs
end

/-- `w` is the valuation `v` after the substitution: a variable that is replaced has the value of
its replacement; a condition holds if what it becomes holds; the rest is the same. -/
structure After (s : CSubst) (g : FCell → Run FCell) (v w : CVal) : Prop where
  var : ∀ i, ev v ((s.find i).getD (.var i)) = some (w.var i)
  rc : w.rc = v.rc
  un : w.un = v.un
  bin : w.bin = v.bin
  cond : ∀ c c', g c = .ok c' → w.cond c = v.cond c'
  tt : v.cond .tt = true
  ff : v.cond .ff = false

end Verif.Spec
