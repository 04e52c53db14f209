import Verif.Spec.Evaluate
import Verif.Model.Attr
import Mathlib.Algebra.MvPolynomial.Eval

/-!
# Variables, conditionals and polynomials
-/

namespace Verif.Spec
open Verif.Model

mutual
/-- The variable `i` occurs in the expression (free, in a condition). -/
def Occ (i : Nat) : Cell → Prop
  | .var j => i = j
  | .add _ ts => OccT i ts
  | .mul _ fs => OccG i fs
  | .un _ a => Occ i a
  | .bin _ a b => Occ i a ∨ Occ i b
  | .ite c a b => OccF i c ∨ Occ i a ∨ Occ i b
  | .uf _ vs => i ∈ vs
  | _ => False
/-- See `Occ`. -/
def OccT (i : Nat) : CTerms → Prop
  | .nil => False
  | .cons e _ ts => Occ i e ∨ OccT i ts
/-- See `Occ`. -/
def OccG (i : Nat) : CFactors → Prop
  | .nil => False
  | .cons b e fs => Occ i b ∨ Occ i e ∨ OccG i fs
/-- See `Occ`. -/
def OccF (i : Nat) : FCell → Prop
  | .var j => i = j
  | .rel _ a b => Occ i a ∨ Occ i b
  | .conj fs => OccL i fs
  | .disj fs => OccL i fs
  | .neg f => OccF i f
  | .all vs f => OccF i f ∧ i ∉ vs
  | _ => False
/-- See `Occ`. -/
def OccL (i : Nat) : FCells → Prop
  | .nil => False
  | .cons f fs => OccF i f ∨ OccL i fs
end

/-- Two readings that differ in the values of variables only: real constants and functions mean the
same, uninterpreted functions have equal values for equal arguments, and conditions that are both
true or both false count as such. -/
structure SameReading (v w : CVal) : Prop where
  rc : v.rc = w.rc
  un : v.un = w.un
  bin : v.bin = w.bin
  uf : ∀ f vs, (∀ i ∈ vs, v.var i = w.var i) → v.uf f vs = w.uf f vs
  cond : ∀ c, tv v c = tv w c → v.cond c = w.cond c

/-- An if-then-else. -/
def IsIte : Cell → Prop
  | .ite .. => True
  | _ => False

mutual
/-- `a` is a side of a relation in the formula. -/
def SideOf (a : Cell) : FCell → Prop
  | .rel _ c d => a = c ∨ a = d
  | .conj fs => SideOfL a fs
  | .disj fs => SideOfL a fs
  | .neg f => SideOf a f
  | .all _ f => SideOf a f
  | _ => False
/-- See `SideOf`. -/
def SideOfL (a : Cell) : FCells → Prop
  | .nil => False
  | .cons f fs => SideOf a f ∨ SideOfL a fs
end

mutual
/-- Nothing is divided by the constant 0. -/
def NoZeroDiv : Cell → Prop
  | .add _ ts => NoZeroDivT ts
  | .mul _ fs => NoZeroDivG fs
  | .un _ a => NoZeroDiv a
  | .bin f a b => NoZeroDiv a ∧ NoZeroDiv b ∧ (f = .div → b ≠ .const 0)
  | .ite _ a b => NoZeroDiv a ∧ NoZeroDiv b
  | _ => True
/-- See `NoZeroDiv`. -/
def NoZeroDivT : CTerms → Prop
  | .nil => True
  | .cons e _ ts => NoZeroDiv e ∧ NoZeroDivT ts
/-- See `NoZeroDiv`. -/
def NoZeroDivG : CFactors → Prop
  | .nil => True
  | .cons b e fs => NoZeroDiv b ∧ NoZeroDiv e ∧ NoZeroDivG fs
end

/-- The expression is a polynomial, for given values of real constants. -/
def IsPolynomial (rc : ℚ → ℚ → Bool → ℝ) (e : Cell) : Prop :=
  ∃ p : MvPolynomial ℕ ℝ, ∀ v : CVal, v.rc = rc → ev v e = some (MvPolynomial.eval v.var p)

end Verif.Spec
