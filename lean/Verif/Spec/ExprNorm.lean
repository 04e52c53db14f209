import Verif.Spec.Cells
import Verif.Model.ExprNorm
import Mathlib.Analysis.SpecialFunctions.Pow.Real

/-!
# Values of expression cells, and their normal form
-/

namespace Verif.Spec
open Verif.Model

/-- Values of variables and real constants, and the meaning of everything that is not arithmetic;
arbitrary. -/
structure CVal where
  var : Nat → ℝ
  rc : ℚ → ℚ → Bool → ℝ
  un : Fn1 → ℝ → Option ℝ
  bin : Fn2 → ℝ → ℝ → Option ℝ
  cond : FCell → Bool
  uf : List Nat → List Nat → Option ℝ

open Classical in
/-- Powers of reals: integer powers where there is no division by zero, all powers of positive
numbers, positive powers of zero. -/
noncomputable def pw (x y : ℝ) : Option ℝ :=
  if y = ⌊y⌋ then if x = 0 ∧ y < 0 then none else some (x ^ ⌊y⌋)
  else if 0 < x then some (x ^ y)
  else if x = 0 ∧ 0 < y then some 0
  else none

open Classical in
/-- Quotients of reals. -/
noncomputable def quo (x y : ℝ) : Option ℝ := if y = 0 then none else some (x / y)

mutual
/-- The value of an expression, if it is defined. -/
noncomputable def ev (v : CVal) : Cell → Option ℝ
  | .const q => some q
  | .rconst l u f => some (v.rc l u f)
  | .var i => some (v.var i)
  | .add c ts => (evT v ts).map fun s => c + s
  | .mul c fs => (evG v fs).map fun m => c * m
  | .un f e => (ev v e).bind (v.un f)
  | .bin f a b => (ev v a).bind fun x => (ev v b).bind fun y =>
      match f with
      | .div => quo x y
      | .pow => pw x y
      | f => v.bin f x y
  | .ite c a b => if v.cond c then ev v a else ev v b
  | .nan => none
  | .uf n vs => v.uf n vs
/-- The value of a sum. -/
noncomputable def evT (v : CVal) : CTerms → Option ℝ
  | .nil => some 0
  | .cons e q ts => (ev v e).bind fun x => (evT v ts).map fun s => q * x + s
/-- The value of a product. -/
noncomputable def evG (v : CVal) : CFactors → Option ℝ
  | .nil => some 1
  | .cons b e fs => (ev v b).bind fun x => (ev v e).bind fun y => (pw x y).bind fun p =>
      (evG v fs).map fun m => p * m
end

/-- The terms of a sum. -/
def keysT : CTerms → List Cell
  | .nil => []
  | .cons e _ ts => e :: keysT ts

/-- The bases of a product. -/
def keysG : CFactors → List Cell
  | .nil => []
  | .cons b _ fs => b :: keysG fs

/-- In increasing order. -/
def Sorted (l : List Cell) : Prop := l.Pairwise fun a b => a.less b = true

/-- A power with a constant integer exponent. -/
def PowInt (e : Cell) : Prop := ∃ b q, e = .bin .pow b (.const q) ∧ isInt32 q = true

mutual
/-- Normal form: sums have no zero coefficient and no constant term, no constant 0 with a single
term; products have no zero factor and no zero exponent, no constant 1 with a single factor; terms
and bases are in increasing order; no base is a power with a constant integer exponent. -/
def NF : Cell → Prop
  | .add c ts => NFT ts ∧ Sorted (keysT ts) ∧ ts ≠ .nil ∧ (c = 0 → 2 ≤ (keysT ts).length)
  | .mul c fs => c ≠ 0 ∧ NFG fs ∧ Sorted (keysG fs) ∧ fs ≠ .nil ∧ (c = 1 → 2 ≤ (keysG fs).length)
  | .bin f a b => NF a ∧ NF b ∧ (f = .pow → ¬ PowInt a ∧ b ≠ .const 0)
  | .un _ e => NF e
  | .ite _ a b => NF a ∧ NF b
  | .const _ => True
  | .rconst .. => True
  | .var _ => True
  | .nan => True
  | .uf .. => True
/-- See `NF`. -/
def NFT : CTerms → Prop
  | .nil => True
  | .cons e q ts => NF e ∧ e.isConst = false ∧ q ≠ 0 ∧ NFT ts
/-- See `NF`. -/
def NFG : CFactors → Prop
  | .nil => True
  | .cons b e fs => NF b ∧ NF e ∧ ¬ PowInt b ∧ e ≠ .const 0 ∧ NFG fs
end

/-- Constants are computed exactly. -/
structure Arith.Exact (A : Arith) : Prop where
  rnd : ∀ q, A.rnd q = q
  pow : ∀ p q r, A.pow p q = some r → pw p q = some (r : ℝ)

/-- No representative of a real constant is an integer. -/
def NoInt (S : RC → Prop) : Prop := ∀ r, S r → isInt32 (rcValue r.1 r.2.1 r.2.2) = false

/-- The value of what a caller wrote. -/
noncomputable def val (v : CVal) : Tree → Option ℝ
  | .const q => some q
  | .rconst l u f => some (v.rc l u f)
  | .var i => some (v.var i)
  | .add a b => (val v a).bind fun x => (val v b).map fun y => x + y
  | .sub a b => (val v a).bind fun x => (val v b).map fun y => x - y
  | .neg a => (val v a).map fun x => -x
  | .mul a b => (val v a).bind fun x => (val v b).map fun y => x * y
  | .div a b => (val v a).bind fun x => (val v b).bind fun y => quo x y
  | .pow a b => (val v a).bind fun x => (val v b).bind fun y => pw x y

/-- Exponents are integers, or the base is a variable or a constant; real constants are in `S`. -/
def Tame (S : RC → Prop) : Tree → Prop
  | .const _ => True
  | .rconst l u f => S (l, u, f)
  | .var _ => True
  | .add a b => Tame S a ∧ Tame S b
  | .sub a b => Tame S a ∧ Tame S b
  | .neg a => Tame S a
  | .mul a b => Tame S a ∧ Tame S b
  | .div a b => Tame S a ∧ Tame S b
  | .pow a b => Tame S a ∧ Tame S b ∧
      ((∃ q, b = .const q ∧ isInt32 q = true) ∨ (∃ i, a = .var i) ∨ (∃ q, a = .const q) ∨
        ∃ l u f, a = .rconst l u f)

/-- Sums, differences, opposites and multiples of variables and constants. -/
def Linear : Tree → Prop
  | .const _ => True
  | .var _ => True
  | .add a b => Linear a ∧ Linear b
  | .sub a b => Linear a ∧ Linear b
  | .neg a => Linear a
  | .mul a b => ((∃ q, a = .const q) ∧ Linear b) ∨ (Linear a ∧ ∃ q, b = .const q)
  | _ => False

end Verif.Spec
