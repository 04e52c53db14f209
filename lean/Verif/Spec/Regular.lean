import Verif.Spec.Filter
import Verif.Spec.Ite

/-!
# Well-formed problems and regular points

The theorems about the answers of a context are about formulas over declared variables in which
quantifiers are not nested and stand over comparisons of terms without conditionals, and about
points at which every term has a value and which keep off the gaps next to the literals of strict
bounds (see C20).
-/

namespace Verif.Spec
open Verif Verif.Model

mutual
/-- No quantifiers in the conditions of the expression. -/
def QFreeE : Expr → Prop
  | .const _ => True
  | .rconst _ => True
  | .var _ => True
  | .add a b => QFreeE a ∧ QFreeE b
  | .mul a b => QFreeE a ∧ QFreeE b
  | .app1 _ a => QFreeE a
  | .app2 _ a b => QFreeE a ∧ QFreeE b
  | .ite c a b => QFree c ∧ QFreeE a ∧ QFreeE b
/-- The formula has no quantifiers. -/
def QFree : Fml → Prop
  | .ff => True
  | .tt => True
  | .bvar _ => True
  | .rel _ a b => QFreeE a ∧ QFreeE b
  | .conj fs => QFrees fs
  | .disj fs => QFrees fs
  | .neg f => QFree f
  | .all _ _ => False
def QFrees : List Fml → Prop
  | [] => True
  | f :: fs => QFree f ∧ QFrees fs
end

mutual
/-- The formula is made of comparisons of terms without conditionals: what may stand under a
quantifier. -/
def Matrix : Fml → Prop
  | .ff => True
  | .tt => True
  | .bvar _ => False
  | .rel _ a b => IteFreeE a ∧ IteFreeE b
  | .conj fs => Matrices fs
  | .disj fs => Matrices fs
  | .neg f => Matrix f
  | .all _ _ => False
def Matrices : List Fml → Prop
  | [] => True
  | f :: fs => Matrix f ∧ Matrices fs
end

mutual
/-- An expression over the numerical variables satisfying `V`, with decimal literals enclosed by
their two doubles. -/
def WfE : (Variable → Prop) → Expr → Prop
  | _, .const _ => True
  | _, .rconst r => r.lb ≤ r.exact ∧ r.exact ≤ r.ub
  | V, .var v => v.type ≠ .boolean ∧ V v
  | V, .add a b => WfE V a ∧ WfE V b
  | V, .mul a b => WfE V a ∧ WfE V b
  | V, .app1 _ a => WfE V a
  | V, .app2 _ a b => WfE V a ∧ WfE V b
  | V, .ite c a b => WfF V c ∧ WfE V a ∧ WfE V b
/-- A formula over the variables satisfying `V`; formulas that are variables are Boolean variables;
under a quantifier there are only comparisons of terms without conditionals. -/
def WfF : (Variable → Prop) → Fml → Prop
  | _, .ff => True
  | _, .tt => True
  | V, .bvar v => v.type = .boolean ∧ V v
  | V, .rel _ a b => WfE V a ∧ WfE V b
  | V, .conj fs => WfFs V fs
  | V, .disj fs => WfFs V fs
  | V, .neg f => WfF V f
  | V, .all vs f => Matrix f ∧ WfF (fun v => V v ∨ v ∈ vs) f
def WfFs : (Variable → Prop) → List Fml → Prop
  | _, [] => True
  | V, f :: fs => WfF V f ∧ WfFs V fs
end

/-- The expression is a continuous variable, or an if-then-else term, for which the solver
introduces one. -/
def isPlace : Expr → Prop
  | .var v => v.type = .continuous
  | .ite .. => True
  | _ => False

/-- The value `x` is not strictly between a literal (stored as the doubles `lo` and `hi`) and its
neighbour on the side the relation, or its negation, looks at. -/
def OffGap (d : Dbl) (op : RelOp) (x : ℝ) (lo hi : ℚ) : Prop :=
  (op = .gt ∨ op = .leq → ¬ ((lo : ℝ) < x ∧ x < d.succ lo)) ∧
  (op = .lt ∨ op = .geq → ¬ ((d.pred hi : ℝ) < x ∧ x < hi))

/-- A comparison of a place with a literal keeps off the gap. -/
def RelOff (d : Dbl) (I : Interp) (ρ : Valuation) (op : RelOp) (a b : Expr) : Prop :=
  (∀ lo hi ex, asNum b = some (lo, hi, ex) → isPlace a → OffGap d op (eval I ρ a) lo hi) ∧
  (∀ lo hi ex, asNum a = some (lo, hi, ex) → isPlace b → OffGap d (flipRel op) (eval I ρ b) lo hi)

mutual
/-- The comparisons under a quantifier over `vs` that do not mention `vs` keep off the gaps,
whatever their relation is turned into. -/
def OffUnder (d : Dbl) (I : Interp) (ρ : Valuation) (vs : List Variable) : Fml → Prop
  | .ff => True
  | .tt => True
  | .bvar _ => True
  | .rel _ a b => (∀ v ∈ a.vars ++ b.vars, v ∉ vs) → ∀ op, RelOff d I ρ op a b
  | .conj fs => OffUnders d I ρ vs fs
  | .disj fs => OffUnders d I ρ vs fs
  | .neg f => OffUnder d I ρ vs f
  | .all _ _ => True
def OffUnders (d : Dbl) (I : Interp) (ρ : Valuation) (vs : List Variable) : List Fml → Prop
  | [] => True
  | f :: fs => OffUnder d I ρ vs f ∧ OffUnders d I ρ vs fs
end

mutual
/-- Every part of the expression has a value at the point, also in the branch of a conditional
that is not taken, and the conditions are regular. -/
def RegE (D : Dom) (I : Interp) (d : Dbl) (ρ : Valuation) : Expr → Prop
  | .const _ => True
  | .rconst _ => True
  | .var _ => True
  | .add a b => RegE D I d ρ a ∧ RegE D I d ρ b
  | .mul a b => RegE D I d ρ a ∧ RegE D I d ρ b
  | .app1 f a => RegE D I d ρ a ∧ D.d1 f (eval I ρ a)
  | .app2 f a b => RegE D I d ρ a ∧ RegE D I d ρ b ∧ D.d2 f (eval I ρ a) (eval I ρ b)
  | .ite c a b => RegF D I d ρ c ∧ RegE D I d ρ a ∧ RegE D I d ρ b
/-- The point is regular for the formula: all its terms have values and its comparisons keep off
the gaps; the terms under a quantifier have values for all values of the bound variables. -/
def RegF (D : Dom) (I : Interp) (d : Dbl) (ρ : Valuation) : Fml → Prop
  | .ff => True
  | .tt => True
  | .bvar _ => True
  | .rel op a b => RegE D I d ρ a ∧ RegE D I d ρ b ∧ RelOff d I ρ op a b
  | .conj fs => RegFs D I d ρ fs
  | .disj fs => RegFs D I d ρ fs
  | .neg f => RegF D I d ρ f
  | .all vs f => Matrix f ∧ DefF D I ρ (.all vs f) ∧ OffUnder d I ρ vs f
def RegFs (D : Dom) (I : Interp) (d : Dbl) (ρ : Valuation) : List Fml → Prop
  | [] => True
  | f :: fs => RegF D I d ρ f ∧ RegFs D I d ρ fs
end

end Verif.Spec
