import Verif.Model.Box

/-!
# Absorbing bounds into the box

Models `dreal/solver/filter_assertion.cc`.
-/

namespace Verif.Model
open Verif

/-- The finite doubles, as far as `nextafter` looks at them: the neighbours of a double,
`numeric_limits<double>::max()` and `numeric_limits<double>::min()` (the smallest positive normal
double).  A parameter of the model. -/
structure Dbl where
  succ : ℚ → ℚ
  pred : ℚ → ℚ
  maxv : ℚ
  minv : ℚ

namespace Dbl

/-- `std::nextafter(x, y)`. -/
def nextafter (d : Dbl) (x y : ℚ) : ℚ := if x = y then y else if x < y then d.succ x else d.pred x

end Dbl

/-- `FilterAssertionResult` (`dreal/solver/filter_assertion.h:23-27`). -/
inductive FilterRes where
  | notFiltered
  | withChange
  | withoutChange
deriving DecidableEq, Repr

namespace Filter

/-- `UpdateBoundsViaEquality(var, v, box)` (`dreal/solver/filter_assertion.cc:30-44`).  In an empty
box the bounds of every interval are `NaN`, so all comparisons fail. -/
def updEq (b : Box) (v : Variable) (q : ℚ) : FilterRes × Box :=
  let iv := b.getV v
  if b.bot then (.withChange, b.setEmpty)
  else if iv.lb = .fin q ∧ iv.ub = .fin q then (.withoutChange, b)
  else if iv.hasQ q then (.withChange, b.setV v (Itv.point q))
  else (.withChange, b.setEmpty)

/-- `UpdateBoundsViaEquality(var, new_lb, new_ub, box)`
(`dreal/solver/filter_assertion.cc:47-63`). -/
def updEqItv (b : Box) (v : Variable) (lo hi : ℚ) : FilterRes × Box :=
  let iv := b.getV v
  if b.bot then (.withChange, b.setEmpty)
  else if iv.lb = .fin lo ∧ iv.ub = .fin hi then (.withoutChange, b)
  else
    let iv' := iv.inter ⟨.fin lo, .fin hi⟩
    if iv'.isEmpty then (.withChange, (b.setV v iv').setEmpty)
    else (.withChange, b.setV v iv')

/-- `UpdateLowerBound` (`dreal/solver/filter_assertion.cc:65-80`). -/
def updLower (b : Box) (v : Variable) (q : ℚ) : FilterRes × Box :=
  let iv := b.getV v
  if b.bot then (.withChange, b.setEmpty)
  else if .fin q ≤ iv.lb then (.withoutChange, b)
  else if .fin q ≤ iv.ub then (.withChange, b.setV v ⟨.fin q, iv.ub⟩)
  else (.withChange, b.setEmpty)

/-- `UpdateUpperBound` (`dreal/solver/filter_assertion.cc:106-121`). -/
def updUpper (b : Box) (v : Variable) (q : ℚ) : FilterRes × Box :=
  let iv := b.getV v
  if b.bot then (.withChange, b.setEmpty)
  else if iv.ub ≤ .fin q then (.withoutChange, b)
  else if iv.lb ≤ .fin q then (.withChange, b.setV v ⟨iv.lb, .fin q⟩)
  else (.withChange, b.setEmpty)

/-- `UpdateStrictLowerBound` (`dreal/solver/filter_assertion.cc:82-104`). -/
def updStrictLower (d : Dbl) (b : Box) (v : Variable) (q : ℚ) : Outcome (FilterRes × Box) :=
  match v.type with
  | .continuous => .ok (updLower b v (d.nextafter q d.maxv))
  | .integer | .binary => .ok (.notFiltered, (updLower b v q).2)
  | .boolean => .throw

/-- `UpdateStrictUpperBound` (`dreal/solver/filter_assertion.cc:123-145`): the second argument of
`nextafter` is `numeric_limits<double>::min()`, a positive number. -/
def updStrictUpper (d : Dbl) (b : Box) (v : Variable) (q : ℚ) : Outcome (FilterRes × Box) :=
  match v.type with
  | .continuous => .ok (updUpper b v (d.nextafter q d.minv))
  | .integer | .binary => .ok (.notFiltered, (updUpper b v q).2)
  | .boolean => .throw

/-- `AssertionFilter::VisitEqualTo` (`dreal/solver/filter_assertion.cc:172-210`). -/
def visitEq (b : Box) (pol : Bool) (x y : Expr) : FilterRes × Box :=
  if pol then
    match x, y with
    | .var v, .const q => updEq b v q
    | .var v, .rconst r => updEqItv b v r.lb r.ub
    | .const q, .var v => updEq b v q
    | .rconst r, .var v => updEqItv b v r.lb r.ub
    | _, _ => (.notFiltered, b)
  else (.notFiltered, b)

/-- `AssertionFilter::VisitGreaterThan` (`dreal/solver/filter_assertion.cc:216-268`). -/
def visitGt (d : Dbl) (b : Box) (pol : Bool) (x y : Expr) : Outcome (FilterRes × Box) :=
  match x, y with
  | .var v, .const q => if pol then updStrictLower d b v q else .ok (updUpper b v q)
  | .var v, .rconst r => if pol then updStrictLower d b v r.lb else .ok (updUpper b v r.ub)
  | .const q, .var v => if pol then updStrictUpper d b v q else .ok (updLower b v q)
  | .rconst r, .var v => if pol then updStrictUpper d b v r.ub else .ok (updLower b v r.lb)
  | _, _ => .ok (.notFiltered, b)

/-- `AssertionFilter::VisitGreaterThanOrEqualTo`
(`dreal/solver/filter_assertion.cc:269-321`). -/
def visitGeq (d : Dbl) (b : Box) (pol : Bool) (x y : Expr) : Outcome (FilterRes × Box) :=
  match x, y with
  | .var v, .const q => if pol then .ok (updLower b v q) else updStrictUpper d b v q
  | .var v, .rconst r => if pol then .ok (updLower b v r.lb) else updStrictUpper d b v r.ub
  | .const q, .var v => if pol then .ok (updUpper b v q) else updStrictLower d b v q
  | .rconst r, .var v => if pol then .ok (updUpper b v r.ub) else updStrictLower d b v r.lb
  | _, _ => .ok (.notFiltered, b)

/-- `AssertionFilter::Visit` (`dreal/solver/filter_assertion.cc:153-171,211-215,322-351`). -/
def visit (d : Dbl) (b : Box) : Bool → Fml → Outcome (FilterRes × Box)
  | pol, .rel .eq x y => .ok (visitEq b pol x y)
  | pol, .rel .neq x y => .ok (visitEq b (!pol) x y)
  | pol, .rel .gt x y => visitGt d b pol x y
  | pol, .rel .geq x y => visitGeq d b pol x y
  | pol, .rel .lt x y => visitGeq d b (!pol) x y
  | pol, .rel .leq x y => visitGt d b (!pol) x y
  | pol, .neg f => visit d b (!pol) f
  | _, _ => .ok (.notFiltered, b)

/-- `FilterAssertion` (`dreal/solver/filter_assertion.cc:363-366`). -/
def filter (d : Dbl) (f : Fml) (b : Box) : Outcome (FilterRes × Box) := visit d b true f

end Filter
end Verif.Model
