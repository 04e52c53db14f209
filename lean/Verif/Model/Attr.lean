import Verif.Model.Expand

/-!
# What a cell records about itself

Models the attributes `is_polynomial_` and `include_ite_` that the constructors of
`symbolic/symbolic_expression_cell.cc` and `symbolic/symbolic_formula_cell.cc` compute; `variables_`
is `Cell.vars` of `Expand.lean`.
-/

namespace Verif.Model

mutual
/-- `include_ite` (`symbolic/symbolic_expression_cell.cc:73-79,105-113,250-255,276-284,316,385,428,477,
519,778,2006,2094`; `symbolic/symbolic_formula_cell.cc:46-53,75-80,502-505,539-541`). -/
def Cell.hasIte : Cell → Bool
  | .add _ ts => ts.hasIte
  | .mul _ fs => fs.hasIte
  | .un _ a => a.hasIte
  | .bin _ a b => a.hasIte || b.hasIte
  | .ite .. => true
  | _ => false
/-- `determine_include_ite` of a sum (`symbolic/symbolic_expression_cell.cc:73-79`). -/
def CTerms.hasIte : CTerms → Bool
  | .nil => false
  | .cons e _ ts => e.hasIte || ts.hasIte
/-- `determine_include_ite` of a product (`symbolic/symbolic_expression_cell.cc:105-113`). -/
def CFactors.hasIte : CFactors → Bool
  | .nil => false
  | .cons b e fs => b.hasIte || e.hasIte || fs.hasIte
end

mutual
/-- `include_ite` of a formula (`symbolic/symbolic_formula_cell.cc:46-53,75-80,502-505,539-541`;
false for `true`, `false` and Boolean variables, lines 165,192,221). -/
def FCell.hasIte : FCell → Bool
  | .rel _ a b => a.hasIte || b.hasIte
  | .conj fs => fs.hasIte
  | .disj fs => fs.hasIte
  | .neg f => f.hasIte
  | .all _ f => f.hasIte
  | _ => false
/-- See `FCell.hasIte`. -/
def FCells.hasIte : FCells → Bool
  | .nil => false
  | .cons f fs => f.hasIte || fs.hasIte
end

/-- The exponent is a constant that is not a negative number and an `int`
(`symbolic/symbolic_expression_cell.cc:56-58,94-98,121-125`). -/
def Cell.natPow : Cell → Bool
  | .const q => decide (0 ≤ q) && isInt32 q
  | _ => false

mutual
/-- `is_polynomial` (`symbolic/symbolic_expression_cell.cc:63-69,84-100,117-126,316,385,428,477,518,777,
1085,1453`; false for all other functions). -/
def Cell.isPoly : Cell → Bool
  | .const _ => true
  | .rconst .. => true
  | .var _ => true
  | .add _ ts => ts.isPoly
  | .mul _ fs => fs.isPoly
  | .bin .div a b => a.isPoly && b.isConst
  | .bin .pow a b => a.isPoly && b.natPow
  | _ => false
/-- `determine_polynomial` of a sum (`symbolic/symbolic_expression_cell.cc:63-69`). -/
def CTerms.isPoly : CTerms → Bool
  | .nil => true
  | .cons e _ ts => e.isPoly && ts.isPoly
/-- `determine_polynomial` of a product (`symbolic/symbolic_expression_cell.cc:84-100`). -/
def CFactors.isPoly : CFactors → Bool
  | .nil => true
  | .cons b e fs => b.isPoly && e.natPow && fs.isPoly
end

end Verif.Model
