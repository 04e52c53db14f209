import Verif.Model.Strengthen

/-!
# Substitution

Models `Expression::Substitute` and `Formula::Substitute` and the `Substitute` functions of the
cells (`symbolic/symbolic_expression.cc:259-290`, `symbolic/symbolic_formula.cc:117-150`,
`symbolic_expression_cell.cc`, `symbolic_formula_cell.cc`).  Simplified: sums, products and
function applications are rebuilt as they are (their simplification on construction is modelled in
`ExprNorm.lean`).
-/

namespace Verif.Model

/-- `ExpressionSubstitution` and `FormulaSubstitution` (`symbolic/symbolic_expression.h:89-99`):
finite maps. -/
structure Subst where
  ex : List (Variable × Expr) := []
  fm : List (Variable × Fml) := []

/-- `find` in a map. -/
def lookupV {α : Type} (v : Variable) : List (Variable × α) → Option α
  | [] => none
  | (w, a) :: l => if w = v then some a else lookupV v l

/-- Removal of the bound variables (`symbolic/symbolic_formula_cell.cc:578-586`): Boolean ones from the
formula map, the others from the expression map. -/
def Subst.erase (s : Subst) (vs : List Variable) : Subst where
  ex := s.ex.filter fun p => ¬ (p.1 ∈ vs ∧ p.1.type ≠ .boolean)
  fm := s.fm.filter fun p => ¬ (p.1 ∈ vs ∧ p.1.type = .boolean)

mutual
/-- `Substitute` of expression cells (`symbolic/symbolic_expression_cell.cc:366-373` variable, `603-612`
sum, `864-873` product, `1474-1485` and the like for the functions, `2059-2071` if-then-else).  A
function application whose arguments do not change is returned unchanged, which is the same
value. -/
def subE (s : Subst) : Expr → Expr
  | .const q => .const q
  | .rconst r => .rconst r
  | .var v => (lookupV v s.ex).getD (.var v)
  | .add a b => .add (subE s a) (subE s b)
  | .mul a b => .mul (subE s a) (subE s b)
  | .app1 f a => .app1 f (subE s a)
  | .app2 f a b => .app2 f (subE s a) (subE s b)
  | .ite c a b =>
    let c' := subF s c
    let a' := subE s a
    let b' := subE s b
    if c' = c ∧ a' = a ∧ b' = b then .ite c a b else mkIte c' a' b'
/-- `Substitute` of formula cells (`symbolic/symbolic_formula_cell.cc:224-231` variable, `270-281` and the
like for relations, `432-453` conjunction, `474-495` disjunction, `525-533` negation, `573-593`
quantifier). -/
def subF (s : Subst) : Fml → Fml
  | .ff => .ff
  | .tt => .tt
  | .bvar v => (lookupV v s.fm).getD (.bvar v)
  | .rel op a b =>
    let a' := subE s a
    let b' := subE s b
    if a' = a ∧ b' = b then .rel op a b else mkRel op a' b'
  | .conj fs =>
    match subAnd s .tt false fs with
    | (ret, true) => ret
    | (_, false) => .conj fs
  | .disj fs =>
    match subOr s .ff false fs with
    | (ret, true) => ret
    | (_, false) => .disj fs
  | .neg f =>
    let f' := subF s f
    if f' = f then .neg f else notF f'
  | .all vs f =>
    let f' := subF (s.erase vs) f
    if f' = f then .all vs f else forallF vs f'
/-- The loop of `FormulaAnd::Substitute` (`symbolic/symbolic_formula_cell.cc:436-447`): the result so far
and `changed`; the early return is a result with `changed` set. -/
def subAnd (s : Subst) (ret : Fml) (changed : Bool) : List Fml → Fml × Bool
  | [] => (ret, changed)
  | f :: fs =>
    let f' := subF s f
    let r := andF ret f'
    if r = .ff then (.ff, true) else subAnd s r (changed || f' ≠ f) fs
/-- The loop of `FormulaOr::Substitute` (`symbolic/symbolic_formula_cell.cc:478-489`). -/
def subOr (s : Subst) (ret : Fml) (changed : Bool) : List Fml → Fml × Bool
  | [] => (ret, changed)
  | f :: fs =>
    let f' := subF s f
    let r := orF ret f'
    if r = .tt then (.tt, true) else subOr s r (changed || f' ≠ f) fs
end

/-- `Formula::Substitute(expr_subst, formula_subst)` (`symbolic/symbolic_formula.cc:127-134`). -/
def Fml.substitute (f : Fml) (s : Subst) : Fml :=
  if s.ex.isEmpty && s.fm.isEmpty then f else subF s f

/-- `Expression::Substitute(expr_subst, formula_subst)` (`symbolic/symbolic_expression.cc:264-272`). -/
def Expr.substitute (e : Expr) (s : Subst) : Expr :=
  if s.ex.isEmpty && s.fm.isEmpty then e else subE s e

end Verif.Model
