import Verif.Spec.Expand

/-!
# Polynomial expressions
-/

namespace Verif.Spec
open Verif.Model

/-- A product of the form `c·…` -/
def IsProduct : Cell → Prop
  | .mul .. => True
  | _ => False

mutual
/-- A polynomial of degree at most `D`: sums, products and powers with positive integer exponents
below `2³¹` of variables and constants; no base of a power with an exponent of 2 or more is turned by
`f` into a product. -/
def PolyE (f : Cell → Run Cell) : Cell → Nat → Prop
  | .const _, _ => True
  | .var _, D => 1 ≤ D
  | .add _ ts, D => PolyET f ts D
  | .mul _ fs, D => PolyEG f fs D
  | .bin .pow a (.const q), D => ∃ k d : ℕ, q = k ∧ 0 < k ∧ k < 2 ^ 31 ∧ k * d ≤ D ∧ PolyE f a d ∧
      (k ≠ 1 → ∀ x, f a = .ok x → ¬ IsProduct x)
  | _, _ => False
/-- See `PolyE`. -/
def PolyET (f : Cell → Run Cell) : CTerms → Nat → Prop
  | .nil, _ => True
  | .cons e _ ts, D => PolyE f e D ∧ PolyET f ts D
/-- See `PolyE`. -/
def PolyEG (f : Cell → Run Cell) : CFactors → Nat → Prop
  | .nil, _ => True
  | .cons b e fs, D => ∃ k d r : ℕ, e = .const k ∧ 0 < k ∧ k < 2 ^ 31 ∧ k * d + r ≤ D ∧
      PolyE f b d ∧ (k ≠ 1 → ∀ x, f b = .ok x → ¬ IsProduct x) ∧ PolyEG f fs r
end

end Verif.Spec
