import Verif.Spec.Smt2
import Verif.Model.Prefix

/-!
# Values of cells, and the cells whose text can be read back
-/

namespace Verif.Spec.Prefix
open Verif Verif.Model Verif.Model.Prefix Verif.Spec

open Classical in
mutual
/-- The value of an expression cell, for numbers `x` and truth values `p` of the variables.  Real
constants, `NaN`, uninterpreted functions and quantified conditions are not given a meaning. -/
noncomputable def cval (I : Interp) (x : Nat → ℝ) (p : Nat → Prop) : Cell → ℝ
  | .const q => q
  | .var i => x i
  | .add c ts => c + cvalT I x p ts
  | .mul c fs => c * cvalG I x p fs
  | .un f e => I.f1 f (cval I x p e)
  | .bin f a b => I.f2 f (cval I x p a) (cval I x p b)
  | .ite c a b => if ctrue I x p c then cval I x p a else cval I x p b
  | .rconst .. => 0
  | .nan => 0
  | .uf .. => 0
/-- The value of the terms of a sum. -/
noncomputable def cvalT (I : Interp) (x : Nat → ℝ) (p : Nat → Prop) : CTerms → ℝ
  | .nil => 0
  | .cons e q ts => q * cval I x p e + cvalT I x p ts
/-- The value of the factors of a product. -/
noncomputable def cvalG (I : Interp) (x : Nat → ℝ) (p : Nat → Prop) : CFactors → ℝ
  | .nil => 1
  | .cons b e fs => I.f2 .pow (cval I x p b) (cval I x p e) * cvalG I x p fs
/-- The truth of a formula cell. -/
noncomputable def ctrue (I : Interp) (x : Nat → ℝ) (p : Nat → Prop) : FCell → Prop
  | .ff => False
  | .tt => True
  | .var i => p i
  | .rel op a b => relSem op (cval I x p a) (cval I x p b)
  | .conj fs => ctrueAll I x p fs
  | .disj fs => ctrueAny I x p fs
  | .neg f => ¬ ctrue I x p f
  | .all .. => False
noncomputable def ctrueAll (I : Interp) (x : Nat → ℝ) (p : Nat → Prop) : FCells → Prop
  | .nil => True
  | .cons f fs => ctrue I x p f ∧ ctrueAll I x p fs
noncomputable def ctrueAny (I : Interp) (x : Nat → ℝ) (p : Nat → Prop) : FCells → Prop
  | .nil => False
  | .cons f fs => ctrue I x p f ∨ ctrueAny I x p fs
end

mutual
/-- The cells the theorem is about: constants are in `Q`, numeric variables in `V`, Boolean ones in
`B`; sums and products are not empty, products with the constant 1 have two factors, as in all
normal forms; there are no real constants, `NaN`, uninterpreted functions and quantifiers. -/
def OkC (Q : ℚ → Prop) (V B : Nat → Prop) : Cell → Prop
  | .const q => Q q
  | .var i => V i
  | .add c ts => Q c ∧ ts ≠ .nil ∧ OkT Q V B ts
  | .mul c fs => Q c ∧ fs ≠ .nil ∧ (c = 1 → ∀ b e, fs ≠ .cons b e .nil) ∧ OkG Q V B fs
  | .un _ e => OkC Q V B e
  | .bin _ a b => OkC Q V B a ∧ OkC Q V B b
  | .ite c a b => OkF Q V B c ∧ OkC Q V B a ∧ OkC Q V B b
  | .rconst .. => False
  | .nan => False
  | .uf .. => False
def OkT (Q : ℚ → Prop) (V B : Nat → Prop) : CTerms → Prop
  | .nil => True
  | .cons e q ts => OkC Q V B e ∧ Q q ∧ OkT Q V B ts
def OkG (Q : ℚ → Prop) (V B : Nat → Prop) : CFactors → Prop
  | .nil => True
  | .cons b e fs => OkC Q V B b ∧ OkC Q V B e ∧ OkG Q V B fs
def OkF (Q : ℚ → Prop) (V B : Nat → Prop) : FCell → Prop
  | .ff => True
  | .tt => True
  | .var i => B i
  | .rel _ a b => OkC Q V B a ∧ OkC Q V B b
  | .conj fs => fs ≠ .nil ∧ OkL Q V B fs
  | .disj fs => fs ≠ .nil ∧ OkL Q V B fs
  | .neg f => OkF Q V B f
  | .all .. => False
def OkL (Q : ℚ → Prop) (V B : Nat → Prop) : FCells → Prop
  | .nil => True
  | .cons f fs => OkF Q V B f ∧ OkL Q V B fs
end

/-- The number is written exactly, and it is not an integer of at most 19 digits beyond `2^53`; a
number of more digits or with a fraction is a double. -/
def Exact (N : Numerals) (q : ℚ) : Prop :=
  N.pr |q| = |q| ∧ (|q|.den = 1 ∧ |q| < 10 ^ 19 → |q| ≤ 2 ^ 53) ∧
    (¬ (|q|.den = 1 ∧ |q| < 10 ^ 19) → N.dbl |q| = true)

/-- The scanner takes the name for a name. -/
def IsName (n : String) : Prop := scan n = .sym n

/-- `r` is the decimal with 19 digits nearest to `q > 0`. -/
def Rounded19 (q r : ℚ) : Prop := ∃ (m : ℕ) (k : ℤ), 10 ^ 18 ≤ m ∧ m < 10 ^ 19 ∧
  r = m * (10 : ℚ) ^ k ∧ |r - q| ≤ (10 : ℚ) ^ k / 2

end Verif.Spec.Prefix
