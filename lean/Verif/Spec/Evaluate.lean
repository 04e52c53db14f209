import Verif.Spec.Diff
import Verif.Model.Evaluate

/-!
# The truth of formulas, exact numbers, and where evaluation is safe
-/

namespace Verif.Spec
open Verif.Model

/-- Relations between reals. -/
def RelOp.On (op : RelOp) (x y : ℝ) : Prop :=
  match op with
  | .eq => x = y
  | .neq => x ≠ y
  | .gt => x > y
  | .geq => x ≥ y
  | .lt => x < y
  | .leq => x ≤ y

open Classical in
mutual
/-- The truth of a formula without quantifiers, if all expressions in it have values; a Boolean
variable is true if its value is not 0. -/
noncomputable def tv (v : CVal) : FCell → Option Bool
  | .ff => some false
  | .tt => some true
  | .var i => some (decide (v.var i ≠ 0))
  | .rel op a b => (ev v a).bind fun x => (ev v b).map fun y => decide (RelOp.On op x y)
  | .conj fs => tvAll v fs
  | .disj fs => tvAny v fs
  | .neg f => (tv v f).map fun t => !t
  | .all .. => none
/-- All are true. -/
noncomputable def tvAll (v : CVal) : FCells → Option Bool
  | .nil => some true
  | .cons f fs => (tv v f).bind fun t => (tvAll v fs).map fun u => t && u
/-- Some is true. -/
noncomputable def tvAny (v : CVal) : FCells → Option Bool
  | .nil => some false
  | .cons f fs => (tv v f).bind fun t => (tvAny v fs).map fun u => t || u
end

/-- Machine numbers without rounding: `val d` is the real that `d` stands for, `none` for the
special values.  Whenever an operation is defined on reals, the machine gives its exact value; where
it is not, the machine may give anything. -/
structure Num.Exact {D : Type} (N : Num D) (val : D → Option ℝ) (v : CVal) : Prop where
  ofQ : ∀ q, val (N.ofQ q) = some (q : ℝ)
  add : ∀ a b x y, val a = some x → val b = some y → val (N.add a b) = some (x + y)
  mul : ∀ a b x y, val a = some x → val b = some y → val (N.mul a b) = some (x * y)
  div : ∀ a b x y, val a = some x → val b = some y → y ≠ 0 → val (N.div a b) = some (x / y)
  pow : ∀ a b x y z, val a = some x → val b = some y → pw x y = some z →
    val (N.pow a b) = some z
  atan2 : ∀ a b x y z, val a = some x → val b = some y → v.bin .atan2 x y = some z →
    val (N.atan2 a b) = some z
  un : ∀ f a x z, val a = some x → v.un f x = some z → val (N.un f a) = some z
  lt : ∀ a b x y, val a = some x → val b = some y → (N.lt a b = true ↔ x < y)
  le : ∀ a b x y, val a = some x → val b = some y → (N.le a b = true ↔ x ≤ y)
  eq : ∀ a b x y, val a = some x → val b = some y → (N.eq a b = true ↔ x = y)
  nan : ∀ a x, val a = some x → N.nan a = false
  finite : ∀ a x, val a = some x → N.finite a = true
  int : ∀ a x, val a = some x →
    (N.int a = true ↔ ∃ k : ℤ, x = k ∧ -2 ^ 31 ≤ k ∧ k ≤ 2 ^ 31 - 1)

/-- Real constants stand for one of their two doubles; functions have no values outside of their
domains; `min` and `max` are what they are called. -/
structure EvalFun (v : CVal) : Prop where
  rc : ∀ l u f, v.rc l u f = (rcValue l u f : ℝ)
  log : ∀ x z, v.un .log x = some z → 0 ≤ x
  sqrt : ∀ x z, v.un .sqrt x = some z → 0 ≤ x
  asin : ∀ x z, v.un .asin x = some z → -1 ≤ x ∧ x ≤ 1
  acos : ∀ x z, v.un .acos x = some z → -1 ≤ x ∧ x ≤ 1
  min : ∀ x y, v.bin .min x y = some (Min.min x y)
  max : ∀ x y, v.bin .max x y = some (Max.max x y)

/-- The environment says nothing but the values of variables. -/
def Tells {D : Type} (val : D → Option ℝ) (v : CVal) (env : Envt D) : Prop :=
  ∀ x d, envFind x env = some d → val d = some (v.var x)

/-- The variables with an entry. -/
def Known {D : Type} (env : Envt D) (x : Nat) : Prop := (envFind x env).isSome = true

/-- The values of the variables of a box. -/
def Shows {D : Type} (val : D → Option ℝ) (v : CVal) : List Nat → List D → Prop
  | x :: xs, d :: ds => val d = some (v.var x) ∧ Shows val v xs ds
  | [], [] => True
  | _, _ => False

mutual
/-- The conditions that matter are about variables in `dom`, they have truth values, and the
valuation says what these are. -/
def Definite (dom : Nat → Prop) (v : CVal) : Cell → Prop
  | .add _ ts => DefiniteT dom v ts
  | .mul _ fs => DefiniteG dom v fs
  | .un _ a => Definite dom v a
  | .bin _ a b => Definite dom v a ∧ Definite dom v b
  | .ite c a b => (∀ x, c.occurs x = true → dom x) ∧ DefiniteF dom v c ∧ tv v c = some (v.cond c) ∧
      (v.cond c = true → Definite dom v a) ∧ (v.cond c = false → Definite dom v b)
  | _ => True
/-- See `Definite`. -/
def DefiniteT (dom : Nat → Prop) (v : CVal) : CTerms → Prop
  | .nil => True
  | .cons e _ ts => Definite dom v e ∧ DefiniteT dom v ts
/-- See `Definite`. -/
def DefiniteG (dom : Nat → Prop) (v : CVal) : CFactors → Prop
  | .nil => True
  | .cons b e fs => Definite dom v b ∧ Definite dom v e ∧ DefiniteG dom v fs
/-- See `Definite`. -/
def DefiniteF (dom : Nat → Prop) (v : CVal) : FCell → Prop
  | .rel _ a b => Definite dom v a ∧ Definite dom v b
  | .conj fs => DefiniteL dom v fs
  | .disj fs => DefiniteL dom v fs
  | .neg f => DefiniteF dom v f
  | _ => True
/-- See `Definite`. -/
def DefiniteL (dom : Nat → Prop) (v : CVal) : FCells → Prop
  | .nil => True
  | .cons f fs => DefiniteF dom v f ∧ DefiniteL dom v fs
end

/-- A negative number is not raised to an integer that is no `int`. -/
def PowFits (x y : ℝ) : Prop := x < 0 → ∀ k : ℤ, y = k → -2 ^ 31 ≤ k ∧ k ≤ 2 ^ 31 - 1

mutual
/-- No uninterpreted function is met, and no power whose exponent does not fit. -/
def Fair (v : CVal) : Cell → Prop
  | .add _ ts => FairT v ts
  | .mul _ fs => FairG v fs
  | .un _ a => Fair v a
  | .bin f a b => Fair v a ∧ Fair v b ∧
      (f = .pow → ∀ x y, ev v a = some x → ev v b = some y → PowFits x y)
  | .ite c a b => FairF v c ∧ (v.cond c = true → Fair v a) ∧ (v.cond c = false → Fair v b)
  | .uf .. => False
  | _ => True
/-- See `Fair`. -/
def FairT (v : CVal) : CTerms → Prop
  | .nil => True
  | .cons e _ ts => Fair v e ∧ FairT v ts
/-- See `Fair`. -/
def FairG (v : CVal) : CFactors → Prop
  | .nil => True
  | .cons b e fs => Fair v b ∧ Fair v e ∧ FairG v fs
/-- See `Fair`. -/
def FairF (v : CVal) : FCell → Prop
  | .rel _ a b => Fair v a ∧ Fair v b
  | .conj fs => FairL v fs
  | .disj fs => FairL v fs
  | .neg f => FairF v f
  | _ => True
/-- See `Fair`. -/
def FairL (v : CVal) : FCells → Prop
  | .nil => True
  | .cons f fs => FairF v f ∧ FairL v fs
end

mutual
/-- Built from sums, products and powers with natural exponents, quotients, and functions that are
defined everywhere or whose domain is closed; no conditions. -/
def Steady : Cell → Prop
  | .const _ => True
  | .rconst .. => True
  | .var _ => True
  | .add _ ts => SteadyT ts
  | .mul _ fs => SteadyG fs
  | .un f a => f ≠ .log ∧ f ≠ .tan ∧ Steady a
  | .bin f a b =>
    match f with
    | .pow => Steady a ∧ ∃ k : ℕ, b = .const k
    | .atan2 => False
    | _ => Steady a ∧ Steady b
  | _ => False
/-- See `Steady`. -/
def SteadyT : CTerms → Prop
  | .nil => True
  | .cons e _ ts => Steady e ∧ SteadyT ts
/-- See `Steady`. -/
def SteadyG : CFactors → Prop
  | .nil => True
  | .cons b e fs => Steady b ∧ (∃ k : ℕ, e = .const k) ∧ SteadyG fs
end

/-- The valuation with another value of `x`. -/
def CVal.at (v : CVal) (x : Nat) (t : ℝ) : CVal := { v with var := Function.update v.var x t }

/-- `gs` are the partial derivatives. -/
def Gradient {D : Type} (val : D → Option ℝ) (v : CVal) (e : Cell) : List Nat → List D → Prop
  | x :: xs, d :: ds => (∃ g, val d = some g ∧ DerivAt (CVal.at v x) e (v.var x) g) ∧
      Gradient val v e xs ds
  | [], [] => True
  | _, _ => False

/-- Reachable: what a fresh cached expression becomes. -/
inductive History {D : Type} (C : EvalCfg D) (A : Arith) (n : Nat) (e : Cell) : Cached D → Prop
  | new : History C A n e (Cached.fresh e)
  | event {c : Cached D} (h : History C A n e c) (k : Event D) : History C A n e (c.after C A n k)

/-- Functions and expressions with kinks, or that say nothing about their derivative. -/
def Kink : Cell → Prop
  | .un .abs _ => True
  | .bin .min _ _ => True
  | .bin .max _ _ => True
  | .ite .. => True
  | .uf .. => True
  | _ => False

mutual
/-- `s` is the expression itself or a part of it; conditions are not looked into. -/
def Part (s : Cell) : Cell → Prop
  | .add c ts => s = .add c ts ∨ PartT s ts
  | .mul c fs => s = .mul c fs ∨ PartG s fs
  | .un f a => s = .un f a ∨ Part s a
  | .bin f a b => s = .bin f a b ∨ Part s a ∨ Part s b
  | .ite c a b => s = .ite c a b ∨ Part s a ∨ Part s b
  | e => s = e
/-- See `Part`. -/
def PartT (s : Cell) : CTerms → Prop
  | .nil => False
  | .cons e _ ts => Part s e ∨ PartT s ts
/-- See `Part`. -/
def PartG (s : Cell) : CFactors → Prop
  | .nil => False
  | .cons b e fs => Part s b ∨ Part s e ∨ PartG s fs
end

mutual
/-- The relation `a op b` occurs in the formula, not below a quantifier. -/
def RelIn (op : RelOp) (a b : Cell) : FCell → Prop
  | .rel o c d => op = o ∧ a = c ∧ b = d
  | .conj fs => RelInL op a b fs
  | .disj fs => RelInL op a b fs
  | .neg f => RelIn op a b f
  | _ => False
/-- See `RelIn`. -/
def RelInL (op : RelOp) (a b : Cell) : FCells → Prop
  | .nil => False
  | .cons f fs => RelIn op a b f ∨ RelInL op a b fs
end

mutual
/-- There is a quantifier in the formula. -/
def Quantified : FCell → Prop
  | .conj fs => QuantifiedL fs
  | .disj fs => QuantifiedL fs
  | .neg f => Quantified f
  | .all .. => True
  | _ => False
/-- See `Quantified`. -/
def QuantifiedL : FCells → Prop
  | .nil => False
  | .cons f fs => Quantified f ∨ QuantifiedL fs
end

end Verif.Spec
