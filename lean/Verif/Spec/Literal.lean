import Mathlib.Data.Nat.Digits.Defs
import Verif.Model.Literal

/-! # Doubles and literals -/

namespace Verif.Spec
open Verif Verif.Model

/-- The finite doubles. -/
def IsDouble (q : ℚ) : Prop :=
  ∃ m e : Int, |m| < 2 ^ 53 ∧ -1074 ≤ e ∧ e ≤ 971 ∧ q = m * (2 : ℚ) ^ e

/-- `d` is the least double from `q` on. -/
def LeastDouble (q d : ℚ) : Prop := IsDouble d ∧ q ≤ d ∧ ∀ d', IsDouble d' → q ≤ d' → d ≤ d'

/-- `d` is the greatest double up to `q`. -/
def GreatestDouble (q d : ℚ) : Prop := IsDouble d ∧ d ≤ q ∧ ∀ d', IsDouble d' → d' ≤ q → d' ≤ d

/-- The digits of a number, the first one the most significant. -/
def IsDigits (ds : List Char) (n : Nat) : Prop :=
  (∀ c ∈ ds, '0' ≤ c ∧ c ≤ '9') ∧ n = Nat.ofDigits 10 (ds.reverse.map fun c => c.toNat - 48)

/-- The exponent of a literal: nothing, or `e`, an optional sign and digits. -/
def IsExp (s : List Char) (e : Int) : Prop :=
  (s = [] ∧ e = 0) ∨
  ∃ c sg ds n, (c = 'e' ∨ c = 'E') ∧ s = c :: (sg ++ ds) ∧ ds ≠ [] ∧ IsDigits ds n ∧
    ((sg = ['-'] ∧ e = -n) ∨ ((sg = ['+'] ∨ sg = []) ∧ e = n))

/-- Decimal literals without sign and their values: digits, a point and digits, an exponent. -/
def IsDec (s : List Char) (q : ℚ) : Prop :=
  ∃ ip fp ex n e, (s = ip ++ '.' :: fp ++ ex ∨ (s = ip ++ ex ∧ fp = [])) ∧ ip ++ fp ≠ [] ∧
    IsDigits (ip ++ fp) n ∧ IsExp ex e ∧ q = n / 10 ^ fp.length * (10 : ℚ) ^ e

/-- Decimal literals with an optional minus sign. -/
def IsLiteral (s : List Char) (q : ℚ) : Prop := IsDec s q ∨ ∃ r, s = '-' :: r ∧ IsDec r (-q)

end Verif.Spec
