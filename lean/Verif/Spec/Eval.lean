import Verif.Model.Eval
import Verif.Spec.Box

/-!
# What interval evaluation has to achieve
-/

namespace Verif.Spec
open Verif.Model

/-- Where the elementary functions are defined. -/
structure Dom where
  d1 : Fn1 → ℝ → Prop
  d2 : Fn2 → ℝ → ℝ → Prop

open Classical in
mutual
/-- The expression has a value at the point: no function is applied outside its domain. -/
def DefE (D : Dom) (I : Interp) (ρ : Valuation) : Expr → Prop
  | .const _ => True
  | .rconst _ => True
  | .var _ => True
  | .add a b => DefE D I ρ a ∧ DefE D I ρ b
  | .mul a b => DefE D I ρ a ∧ DefE D I ρ b
  | .app1 f a => DefE D I ρ a ∧ D.d1 f (eval I ρ a)
  | .app2 f a b => DefE D I ρ a ∧ DefE D I ρ b ∧ D.d2 f (eval I ρ a) (eval I ρ b)
  | .ite c a b => DefF D I ρ c ∧ (holds I ρ c → DefE D I ρ a) ∧ (¬ holds I ρ c → DefE D I ρ b)
/-- All expressions of the formula have a value at the point (under a quantifier: for all
values of the bound variables). -/
def DefF (D : Dom) (I : Interp) (ρ : Valuation) : Fml → Prop
  | .ff => True
  | .tt => True
  | .bvar _ => True
  | .rel _ a b => DefE D I ρ a ∧ DefE D I ρ b
  | .conj fs => DefFs D I ρ fs
  | .disj fs => DefFs D I ρ fs
  | .neg f => DefF D I ρ f
  | .all vs f => ∀ ρ' : Valuation, (∀ v, v ∉ vs → ρ' v = ρ v) →
      (∀ v ∈ vs, typeOk v.type (ρ' v)) → DefF D I ρ' f
def DefFs (D : Dom) (I : Interp) (ρ : Valuation) : List Fml → Prop
  | [] => True
  | f :: fs => DefF D I ρ f ∧ DefFs D I ρ fs
end

mutual
/-- Every real constant lies between its two stored doubles (C43 is about the literals). -/
def RcOkE : Expr → Prop
  | .const _ => True
  | .rconst r => r.lb ≤ r.exact ∧ r.exact ≤ r.ub
  | .var _ => True
  | .add a b => RcOkE a ∧ RcOkE b
  | .mul a b => RcOkE a ∧ RcOkE b
  | .app1 _ a => RcOkE a
  | .app2 _ a b => RcOkE a ∧ RcOkE b
  | .ite c a b => RcOkF c ∧ RcOkE a ∧ RcOkE b
def RcOkF : Fml → Prop
  | .ff => True
  | .tt => True
  | .bvar _ => True
  | .rel _ a b => RcOkE a ∧ RcOkE b
  | .conj fs => RcOkFs fs
  | .disj fs => RcOkFs fs
  | .neg f => RcOkF f
  | .all _ f => RcOkF f
def RcOkFs : List Fml → Prop
  | [] => True
  | f :: fs => RcOkF f ∧ RcOkFs fs
end

/-- The interval operations enclose the operations on reals (the assumption on IBEX). -/
structure IOpsOk (D : Dom) (I : Interp) (ops : IOps) : Prop where
  add : ∀ i j x y, InItv x i → InItv y j → InItv (x + y) (ops.add i j)
  mul : ∀ i j x y, InItv x i → InItv y j → InItv (x * y) (ops.mul i j)
  fn1 : ∀ f i x, InItv x i → D.d1 f x → InItv (I.f1 f x) (ops.fn1 f i)
  fn2 : ∀ f i j x y, InItv x i → InItv y j → D.d2 f x y → InItv (I.f2 f x y) (ops.fn2 f i j)
  sqr : ∀ i x, InItv x i → D.d2 .pow x 2 → InItv (I.f2 .pow x 2) (ops.sqr i)
  powInt : ∀ i x (n : ℤ), InItv x i → D.d2 .pow x n → InItv (I.f2 .pow x n) (ops.powInt i n)
  powQ : ∀ i x (q : ℚ), InItv x i → D.d2 .pow x q → InItv (I.f2 .pow x q) (ops.powQ i q)

/-- `diam()` is not smaller than the width (it is the width rounded upwards). -/
def DiamOk (fp : Fp) : Prop :=
  ∀ (i : Itv) (d : ℚ), i.isEmpty = false → fp.diam i ≤ .fin d →
    ∃ l u : ℚ, i = ⟨.fin l, .fin u⟩ ∧ u - l ≤ d

/-- The `δ`-weakening of a relation. -/
def weakRel (δ : ℝ) : RelOp → ℝ → ℝ → Prop
  | .eq, x, y => |x - y| ≤ δ
  | .neq, _, _ => True
  | .gt, x, y => x > y - δ
  | .geq, x, y => x ≥ y - δ
  | .lt, x, y => x < y + δ
  | .leq, x, y => x ≤ y + δ

/-- A possibly negated relation: its operator (with negations pushed in) and its two sides. -/
def asRel : Fml → Option (RelOp × Expr × Expr)
  | .rel op a b => some (op, a, b)
  | .neg f => (asRel f).map fun p => (p.1.neg, p.2)
  | _ => none

end Verif.Spec
