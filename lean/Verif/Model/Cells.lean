import Verif.Model.Syntax

/-!
# The cells of expressions and formulas, and their order

Models the stored normal forms of
`third_party/com_github_robotlocomotion_drake/dreal/symbolic/` (below: `symbolic/`) and the
structural comparisons `EqualTo` and `Less` on them.
-/

namespace Verif.Model

mutual
/-- Expression cells (`symbolic/symbolic_expression.h:25-53`, `symbolic_expression_cell.h`).
Simplified: doubles are rationals, variables are their ids, the letters of names are numbers. -/
inductive Cell where
  | const (q : ℚ)
  | rconst (lb ub : ℚ) (useLb : Bool)
  | var (id : Nat)
  /-- `c + Σ qᵢ·eᵢ`, a map from terms to coefficients -/
  | add (c : ℚ) (ts : CTerms)
  /-- `c · Π bᵢ ^ eᵢ`, a map from bases to exponents -/
  | mul (c : ℚ) (fs : CFactors)
  | un (f : Fn1) (e : Cell)
  | bin (f : Fn2) (a b : Cell)
  | ite (c : FCell) (a b : Cell)
  | nan
  | uf (name : List Nat) (vs : List Nat)
/-- `map<Expression, double>`, in the order of the map. -/
inductive CTerms where
  | nil
  | cons (e : Cell) (q : ℚ) (ts : CTerms)
/-- `map<Expression, Expression>`, in the order of the map. -/
inductive CFactors where
  | nil
  | cons (b e : Cell) (fs : CFactors)
/-- Formula cells (`symbolic/symbolic_formula.h:21-35`, `symbolic_formula_cell.h`). -/
inductive FCell where
  | ff
  | tt
  | var (id : Nat)
  | rel (op : RelOp) (a b : Cell)
  | conj (fs : FCells)
  | disj (fs : FCells)
  | neg (f : FCell)
  | all (vs : List Nat) (f : FCell)
/-- `set<Formula>`, in the order of the set. -/
inductive FCells where
  | nil
  | cons (f : FCell) (fs : FCells)
end

/-- The kinds of unary functions, by their place in the enumeration
(`symbolic/symbolic_expression.h:32-46`). -/
def Fn1.kind : Fn1 → Nat
  | .log => 6 | .abs => 7 | .exp => 8 | .sqrt => 9 | .sin => 11 | .cos => 12 | .tan => 13
  | .asin => 14 | .acos => 15 | .atan => 16 | .sinh => 18 | .cosh => 19 | .tanh => 20

/-- The kinds of binary functions (`symbolic/symbolic_expression.h:31,36,43,47,48`). -/
def Fn2.kind : Fn2 → Nat
  | .div => 5 | .pow => 10 | .atan2 => 17 | .min => 21 | .max => 22

/-- `Expression::get_kind` (`symbolic/symbolic_expression.h:25-53`). -/
def Cell.kind : Cell → Nat
  | .const _ => 0
  | .rconst .. => 1
  | .var _ => 2
  | .add .. => 3
  | .mul .. => 4
  | .un f _ => f.kind
  | .bin f _ _ => f.kind
  | .ite .. => 23
  | .nan => 24
  | .uf .. => 25

/-- The kinds of relations (`symbolic/symbolic_formula.h:21-35`). -/
def RelOp.kind : RelOp → Nat
  | .eq => 3 | .neq => 4 | .gt => 5 | .geq => 6 | .lt => 7 | .leq => 8

/-- `Formula::get_kind` (`symbolic/symbolic_formula.h:21-35`). -/
def FCell.kind : FCell → Nat
  | .ff => 0
  | .tt => 1
  | .var _ => 2
  | .rel op _ _ => op.kind
  | .conj _ => 9
  | .disj _ => 10
  | .neg _ => 11
  | .all .. => 12

/-- `ExpressionRealConstant::get_value` (`symbolic/symbolic_expression_cell.h:261`). -/
def rcValue (lb ub : ℚ) (useLb : Bool) : ℚ := if useLb then lb else ub

/-- `lexicographical_compare` of two lists of numbers: strings
(`symbolic/symbolic_expression_cell.cc:2111-2117`) and sets of variables
(`symbolic/symbolic_variables.cc:77-81`). -/
def lessNats : List Nat → List Nat → Bool
  | _, [] => false
  | [], _ :: _ => true
  | i :: is, j :: js => if i < j then true else if j < i then false else lessNats is js

mutual
/-- `Expression::EqualTo` (`symbolic/symbolic_expression.cc:193-208`) and the per-cell functions
(`symbolic/symbolic_expression_cell.cc:257-262,286-291,336-340,391-395,439-445,483-487,535-550,
795-811,2017-2024,2098-2104`).  The comparison of hashes is left out: equal cells have equal
hashes. -/
def Cell.equalTo : Cell → Cell → Bool
  | .const p, .const q => p == q
  | .rconst l u f, .rconst l' u' f' => l == l' && (u == u' && f == f')
  | .var i, .var j => i == j
  | .add c ts, .add d us => c == d && ts.equalTo us
  | .mul c fs, .mul d gs => c == d && fs.equalTo gs
  | .un f a, .un g b => f == g && a.equalTo b
  | .bin f a b, .bin g c d => f == g && (a.equalTo c && b.equalTo d)
  | .ite c a b, .ite c' a' b' => c.equalTo c' && (a.equalTo a' && b.equalTo b')
  | .nan, .nan => true
  | .uf n vs, .uf m ws => n == m && vs == ws
  | _, _ => false
/-- `equal` on the maps of sums (`symbolic/symbolic_expression_cell.cc:543-549`). -/
def CTerms.equalTo : CTerms → CTerms → Bool
  | .nil, .nil => true
  | .cons e q ts, .cons e' q' us => (e.equalTo e' && q == q') && ts.equalTo us
  | _, _ => false
/-- `equal` on the maps of products (`symbolic/symbolic_expression_cell.cc:803-809`). -/
def CFactors.equalTo : CFactors → CFactors → Bool
  | .nil, .nil => true
  | .cons b e fs, .cons b' e' gs => (b.equalTo b' && e.equalTo e') && fs.equalTo gs
  | _, _ => false
/-- `Formula::EqualTo` (`symbolic/symbolic_formula.cc:82-98`) and the per-cell functions
(`symbolic/symbolic_formula_cell.cc:55-60,90-98,129-133,155-159,196-201,507-512,545-550`). -/
def FCell.equalTo : FCell → FCell → Bool
  | .ff, .ff => true
  | .tt, .tt => true
  | .var i, .var j => i == j
  | .rel o a b, .rel p c d => o == p && (a.equalTo c && b.equalTo d)
  | .conj fs, .conj gs => fs.equalTo gs
  | .disj fs, .disj gs => fs.equalTo gs
  | .neg f, .neg g => f.equalTo g
  | .all vs f, .all ws g => vs == ws && f.equalTo g
  | _, _ => false
/-- `equal` on sets of formulas (`symbolic/symbolic_formula_cell.cc:94-97`). -/
def FCells.equalTo : FCells → FCells → Bool
  | .nil, .nil => true
  | .cons f fs, .cons g gs => f.equalTo g && fs.equalTo gs
  | _, _ => false
end

mutual
/-- The number of nodes: enough fuel for the comparisons. -/
def Cell.size : Cell → Nat
  | .add _ ts => ts.size + 1
  | .mul _ fs => fs.size + 1
  | .un _ e => e.size + 1
  | .bin _ a b => a.size + b.size + 1
  | .ite c a b => c.size + a.size + b.size + 1
  | _ => 1
def CTerms.size : CTerms → Nat
  | .nil => 1
  | .cons e _ ts => e.size + ts.size + 1
def CFactors.size : CFactors → Nat
  | .nil => 1
  | .cons b e fs => b.size + e.size + fs.size + 1
def FCell.size : FCell → Nat
  | .rel _ a b => a.size + b.size + 1
  | .conj fs => fs.size + 1
  | .disj fs => fs.size + 1
  | .neg f => f.size + 1
  | .all _ f => f.size + 1
  | _ => 1
def FCells.size : FCells → Nat
  | .nil => 1
  | .cons f fs => f.size + fs.size + 1
end

mutual
/-- `Expression::Less` (`symbolic/symbolic_expression.cc:210-226`) and the per-cell functions
(`symbolic/symbolic_expression_cell.cc:264-269,293-305,342-348,397-401,447-452,489-493,552-581,
813-842,2026-2044,2106-2118`).  The first argument bounds the depth of the recursion. -/
def lessC : Nat → Cell → Cell → Bool
  | 0, _, _ => false
  | n + 1, a, b =>
    if a.kind < b.kind then true
    else if b.kind < a.kind then false
    else match a, b with
    | .const p, .const q => p < q
    | .rconst l u f, .rconst l' u' f' => rcValue l u f < rcValue l' u' f'
    | .var i, .var j => i < j
    | .add c ts, .add d us => if c < d then true else if d < c then false else lessTs n ts us
    | .mul c fs, .mul d gs => if c < d then true else if d < c then false else lessFs n fs gs
    | .un _ e, .un _ e' => lessC n e e'
    | .bin _ e1 e2, .bin _ e1' e2' =>
      if lessC n e1 e1' then true else if lessC n e1' e1 then false else lessC n e2 e2'
    | .ite c e1 e2, .ite c' e1' e2' =>
      if lessF n c c' then true
      else if lessF n c' c then false
      else if lessC n e1 e1' then true
      else if lessC n e1' e1 then false
      else lessC n e2 e2'
    | .uf s vs, .uf s' vs' =>
      if lessNats s s' then true else if lessNats s' s then false else lessNats vs vs'
    | _, _ => false
/-- `lexicographical_compare` on the maps of sums
(`symbolic/symbolic_expression_cell.cc:565-580`). -/
def lessTs : Nat → CTerms → CTerms → Bool
  | 0, _, _ => false
  | _ + 1, _, .nil => false
  | _ + 1, .nil, .cons .. => true
  | n + 1, .cons e q ts, .cons e' q' us =>
    if (if lessC n e e' then true else if lessC n e' e then false else decide (q < q')) then true
    else if (if lessC n e' e then true else if lessC n e e' then false else decide (q' < q)) then
      false
    else lessTs n ts us
/-- `lexicographical_compare` on the maps of products
(`symbolic/symbolic_expression_cell.cc:826-841`). -/
def lessFs : Nat → CFactors → CFactors → Bool
  | 0, _, _ => false
  | _ + 1, _, .nil => false
  | _ + 1, .nil, .cons .. => true
  | n + 1, .cons b e fs, .cons b' e' gs =>
    if (if lessC n b b' then true else if lessC n b' b then false else lessC n e e') then true
    else if (if lessC n b' b then true else if lessC n b b' then false else lessC n e' e) then false
    else lessFs n fs gs
/-- `Formula::Less` (`symbolic/symbolic_formula.cc:100-110`) and the per-cell functions
(`symbolic/symbolic_formula_cell.cc:62-73,100-108,135-140,161-166,203-208,514-519,552-563`). -/
def lessF : Nat → FCell → FCell → Bool
  | 0, _, _ => false
  | n + 1, f, g =>
    if f.kind < g.kind then true
    else if g.kind < f.kind then false
    else match f, g with
    | .var i, .var j => i < j
    | .rel _ a b, .rel _ a' b' =>
      if lessC n a a' then true else if lessC n a' a then false else lessC n b b'
    | .conj fs, .conj gs => lessL n fs gs
    | .disj fs, .disj gs => lessL n fs gs
    | .neg f, .neg g => lessF n f g
    | .all vs f, .all ws g =>
      if lessNats vs ws then true else if lessNats ws vs then false else lessF n f g
    | _, _ => false
/-- `lexicographical_compare` on sets of formulas
(`symbolic/symbolic_formula_cell.cc:104-107`). -/
def lessL : Nat → FCells → FCells → Bool
  | 0, _, _ => false
  | _ + 1, _, .nil => false
  | _ + 1, .nil, .cons .. => true
  | n + 1, .cons f fs, .cons g gs =>
    if lessF n f g then true else if lessF n g f then false else lessL n fs gs
end

/-- `Expression::Less` with enough fuel (see `lessC`). -/
def Cell.less (a b : Cell) : Bool := lessC (a.size + b.size) a b

/-- `Formula::Less` with enough fuel (see `lessF`). -/
def FCell.less (f g : FCell) : Bool := lessF (f.size + g.size) f g

/-- `set<Formula>::insert` (`symbolic/symbolic_formula.cc:177-185,305-313`): a formula the order
does not tell from a stored one is not inserted. -/
def FCells.insert (x : FCell) : FCells → FCells
  | .nil => .cons x .nil
  | .cons f fs =>
    if x.less f then .cons x (.cons f fs)
    else if f.less x then .cons f (FCells.insert x fs)
    else .cons f fs

/-- The formulas of a set. -/
def FCells.toList : FCells → List FCell
  | .nil => []
  | .cons f fs => f :: fs.toList

/-- Formulas inserted one after the other (`MergeConjunction`, `MergeDisjunction`,
`make_conjunction(set)`, `symbolic/symbolic_formula.cc:177-185,305-313,225-257`). -/
def insertAll (l : List FCell) (fs : FCells) : FCells := l.foldl (fun s x => FCells.insert x s) fs

end Verif.Model
