import Verif.Model.Diff

/-!
# Expansion and substitution on expression cells

Models the functions `Expand` and `Substitute` of `symbolic/symbolic_expression_cell.cc` and
`Expression::EvaluatePartial`.
-/

namespace Verif.Model

/-- The functions of one argument (`symbolic/symbolic_expression.cc:684-704,742-774`). -/
def mkUn (f : Fn1) (a : Cell) : Cell :=
  match f with
  | .abs => absE a
  | .sqrt => sqrtE a
  | f => .un f a

/-- `min` (`symbolic/symbolic_expression.cc:776-786`). -/
def minE (a b : Cell) : Cell :=
  if a.equalTo b then a
  else match a, b with
    | .const p, .const q => .const (if q < p then q else p)
    | a, b => .bin .min a b

/-- `max` (`symbolic/symbolic_expression.cc:788-798`). -/
def maxE (a b : Cell) : Cell :=
  if a.equalTo b then a
  else match a, b with
    | .const p, .const q => .const (if p < q then q else p)
    | a, b => .bin .max a b

/-- The functions of two arguments (`symbolic/symbolic_expression.cc:622-649,706-740,760-762,
776-798`). -/
def mkBin (A : Arith) (n : Nat) (f : Fn2) (a b : Cell) : Run Cell :=
  match f with
  | .div => divE A n a b
  | .pow => powE A n a b
  | .atan2 => .ok (.bin .atan2 a b)
  | .min => .ok (minE a b)
  | .max => .ok (maxE a b)

/-- `if_then_else` (`symbolic/symbolic_expression.cc:803-814`). -/
def iteCell (c : FCell) (a b : Cell) : Cell :=
  match c with
  | .tt => a
  | .ff => b
  | c => .ite c a b

/-! ## Expansion -/

mutual
/-- `ExpandMultiplication` (`symbolic/symbolic_expression_cell.cc:133-197`).  The assertions of lines
135-136, that the arguments are expanded, are left out (`C64_again`). -/
def expMul (A : Arith) : Nat → Cell → Cell → Run Cell
  | 0, _, _ => .oof
  | n + 1, a, b =>
    match a, b with
    | .add c ts, b => do
      let r ← expMul A n (.const c) b
      expMulL A n r ts b
    | a, .add c ts => do
      let r ← expMul A n a (.const c)
      expMulR A n r a ts
    | .bin .div a1 a2, .bin .div b1 b2 => do
      let x ← expMul A n a1 b1
      let y ← expMul A n a2 b2
      divE A n x y
    | .bin .div a1 a2, b => do
      let x ← expMul A n a1 b
      divE A n x a2
    | a, .bin .div b1 b2 => do
      let x ← expMul A n a b1
      divE A n x b2
    | a, b => mulE A n a b
/-- The loop of lines 143-147. -/
def expMulL (A : Arith) : Nat → Cell → CTerms → Cell → Run Cell
  | 0, _, _, _ => .oof
  | n + 1, r, ts, b =>
    match ts with
    | .nil => .ok r
    | .cons e q ts => do
      let x ← expMul A n (.const q) e
      let y ← expMul A n x b
      let r' ← addE A n r y
      expMulL A n r' ts b
/-- The loop of lines 155-159. -/
def expMulR (A : Arith) : Nat → Cell → Cell → CTerms → Run Cell
  | 0, _, _, _ => .oof
  | n + 1, r, a, ts =>
    match ts with
    | .nil => .ok r
    | .cons e q ts => do
      let x ← expMul A n a (.const q)
      let y ← expMul A n x e
      let r' ← addE A n r y
      expMulR A n r' a ts
end

/-- `ExpandPow` with a natural exponent (`symbolic/symbolic_expression_cell.cc:200-214`). -/
def expPowN (A : Arith) : Nat → Cell → Nat → Run Cell
  | 0, _, _ => .oof
  | n + 1, b, k =>
    if k = 0 then .ub
    else if k = 1 then .ok b
    else do
      let h ← expPowN A n b (k / 2)
      if k % 2 = 1 then do
        let t ← expMul A n b h
        expMul A n t h
      else expMul A n h h

/-- `ExpandPow` (`symbolic/symbolic_expression_cell.cc:218-234`). -/
def expPow (A : Arith) (n : Nat) (b e : Cell) : Run Cell :=
  match b, e with
  | .add c ts, .const q =>
    if q ≤ 0 ∨ isInt32 q = false then powE A n (.add c ts) (.const q)
    else expPowN A n (.add c ts) q.num.toNat
  | b, e => powE A n b e

/-- The loop of `DivExpandVisitor::VisitAddition` (`symbolic/symbolic_expression_cell.cc:1121-1124`). -/
def divTerms (A : Arith) (n : Nat) (q : ℚ) (s : ℚ × CTerms) : CTerms → Run (ℚ × CTerms)
  | .nil => .ok s
  | .cons e p ts => do
    let x ← mulE A n (.const (A.rnd (p / q))) e
    let s' ← addExpr A n s x
    divTerms A n q s' ts

/-- `DivExpandVisitor::Simplify` (`symbolic/symbolic_expression_cell.cc:1110-1221`).  Simplified:
division by 0, which gives an infinity or no number, stops with `oof`. -/
def divSimp (A : Arith) (n : Nat) : Cell → ℚ → Run Cell
  | .add c ts, q => if q = 0 then .oof else do
    let s ← divTerms A n q (A.rnd (c / q), .nil) ts
    getAdd A n s
  | .mul c fs, q => if q = 0 then .oof else getMul A n (A.rnd (c / q), fs)
  | .bin .div a (.const m), q => divSimp A n a (A.rnd (m * q))
  | .bin .div a b, q => do
    let x ← divSimp A n a q
    divE A n x b
  | .nan, _ => .throw
  | e, q => divE A n e (.const q)

mutual
/-- `Expression::Expand` (`symbolic/symbolic_expression.cc:254-257`,
`symbolic/symbolic_expression_cell.cc:364,408,458,499-501,852-862,1224-1239,1290-1298,1329-1337,
1369-1377,1414-1422,1466-1472,1504-1512,1540-1548,1576-1584,1621-1629,1670-1678,1710-1718,1747-1757,
1793-1801,1830-1838,1867-1875,1904-1914,1951-1961,2053-2057,2124`). -/
def expandC (A : Arith) (n : Nat) : Cell → Run Cell
  | .const q => .ok (.const q)
  | .rconst l u f => .ok (.rconst l u f)
  | .var i => .ok (.var i)
  | .add c ts => expandT A n (.const c) ts
  | .mul c fs => expandG A n (.const c) fs
  | .un f a => do
    let a' ← expandC A n a
    if a.equalTo a' then .ok (.un f a) else .ok (mkUn f a')
  | .bin .div a (.const q) => do
    let a' ← expandC A n a
    divSimp A n a' q
  | .bin .pow a b => do
    let a' ← expandC A n a
    let b' ← expandC A n b
    expPow A n a' b'
  | .bin f a b => do
    let a' ← expandC A n a
    let b' ← expandC A n b
    if a.equalTo a' && b.equalTo b' then .ok (.bin f a b) else mkBin A n f a' b'
  | .ite .. => .throw
  | .nan => .throw
  | .uf g vs => .ok (.uf g vs)
/-- `ExpressionAdd::Expand` (`symbolic/symbolic_expression_cell.cc:591-601`). -/
def expandT (A : Arith) (n : Nat) (r : Cell) : CTerms → Run Cell
  | .nil => .ok r
  | .cons e q ts => do
    let x ← expandC A n e
    let y ← expMul A n x (.const q)
    let r' ← addE A n r y
    expandT A n r' ts
/-- `ExpressionMul::Expand` (`symbolic/symbolic_expression_cell.cc:852-862`). -/
def expandG (A : Arith) (n : Nat) (r : Cell) : CFactors → Run Cell
  | .nil => .ok r
  | .cons b e fs => do
    let x ← expandC A n b
    let y ← expandC A n e
    let p ← expPow A n x y
    let r' ← expMul A n r p
    expandG A n r' fs
end

/-! ## Substitution -/

/-- Insertion in a set of variables (`symbolic/symbolic_variables.cc:90-93`). -/
def insVar (x : Nat) : List Nat → List Nat
  | [] => [x]
  | y :: ys => if x < y then x :: y :: ys else if x = y then y :: ys else y :: insVar x ys

/-- Union of sets of variables (`symbolic/symbolic_variables.cc:84-87`). -/
def unionVars (xs : List Nat) (ys : List Nat) : List Nat := xs.foldl (fun l x => insVar x l) ys

mutual
/-- `GetVariables` (`symbolic/symbolic_expression_cell.cc:248-254,282,526-533,785-793,2006-2015,
2090-2096`), `GetFreeVariables` (`symbolic/symbolic_formula_cell.cc:42,80-88,504,541`). -/
def Cell.vars : Cell → List Nat
  | .const _ => []
  | .rconst .. => []
  | .var i => [i]
  | .add _ ts => ts.vars
  | .mul _ fs => fs.vars
  | .un _ a => a.vars
  | .bin _ a b => unionVars a.vars b.vars
  | .ite c a b => unionVars c.vars (unionVars a.vars b.vars)
  | .nan => []
  | .uf _ vs => vs
/-- See `Cell.vars`. -/
def CTerms.vars : CTerms → List Nat
  | .nil => []
  | .cons e _ ts => unionVars e.vars ts.vars
/-- See `Cell.vars`. -/
def CFactors.vars : CFactors → List Nat
  | .nil => []
  | .cons b e fs => unionVars b.vars (unionVars e.vars fs.vars)
/-- See `Cell.vars`. -/
def FCell.vars : FCell → List Nat
  | .ff => []
  | .tt => []
  | .var i => [i]
  | .rel _ a b => unionVars a.vars b.vars
  | .conj fs => fs.vars
  | .disj fs => fs.vars
  | .neg f => f.vars
  | .all vs f => f.vars.filter fun i => !vs.contains i
/-- See `Cell.vars`. -/
def FCells.vars : FCells → List Nat
  | .nil => []
  | .cons f fs => unionVars f.vars fs.vars
end

/-- `ExpressionSubstitution` (`symbolic/symbolic_expression.h:89-92`): a map from variables to
expressions. -/
abbrev CSubst := List (Nat × Cell)

/-- `expr_subst.find(x)`. -/
def CSubst.find : CSubst → Nat → Option Cell
  | [], _ => none
  | (y, e) :: s, x => if y = x then some e else CSubst.find s x

mutual
/-- `Expression::Substitute` (`symbolic/symbolic_expression.cc:264-281`,
`symbolic/symbolic_expression_cell.cc:366-373,410-413,460-463,503-506,603-612,864-874,1241-1254,
1300-1309,1474-1485,2059-2071,2126-2150` and the like).  The substitution in the condition of an
if-then-else is the parameter `g`.  Simplified: the Boolean variables of uninterpreted functions are
left out. -/
def substC (A : Arith) (n : Nat) (s : CSubst) (g : FCell → Run FCell) : Cell → Run Cell
  | .const q => .ok (.const q)
  | .rconst l u f => .ok (.rconst l u f)
  | .var i => .ok ((s.find i).getD (.var i))
  | .add c ts => do
    let p ← substT A n s g (c, .nil) ts
    getAdd A n p
  | .mul c fs => do
    let p ← substG A n s g (c, .nil) fs
    getMul A n p
  | .un f a => do
    let a' ← substC A n s g a
    if a.equalTo a' then .ok (.un f a) else .ok (mkUn f a')
  | .bin f a b => do
    let a' ← substC A n s g a
    let b' ← substC A n s g b
    if a.equalTo a' && b.equalTo b' then .ok (.bin f a b) else mkBin A n f a' b'
  | .ite c a b => do
    let c' ← g c
    let a' ← substC A n s g a
    let b' ← substC A n s g b
    if c.equalTo c' && a.equalTo a' && b.equalTo b' then .ok (.ite c a b) else .ok (iteCell c' a' b')
  | .nan => .throw
  | .uf f vs =>
    .ok (.uf f (vs.foldl (fun l x => match s.find x with
      | some e => unionVars e.vars l
      | none => l) []))
/-- `ExpressionAdd::Substitute` (`symbolic/symbolic_expression_cell.cc:603-612`). -/
def substT (A : Arith) (n : Nat) (s : CSubst) (g : FCell → Run FCell) (p : ℚ × CTerms) :
    CTerms → Run (ℚ × CTerms)
  | .nil => .ok p
  | .cons e q ts => do
    let x ← substC A n s g e
    let y ← mulE A n x (.const q)
    let p' ← addExpr A n p y
    substT A n s g p' ts
/-- `ExpressionMul::Substitute` (`symbolic/symbolic_expression_cell.cc:864-874`). -/
def substG (A : Arith) (n : Nat) (s : CSubst) (g : FCell → Run FCell) (p : ℚ × CFactors) :
    CFactors → Run (ℚ × CFactors)
  | .nil => .ok p
  | .cons b e fs => do
    let x ← substC A n s g b
    let y ← substC A n s g e
    let z ← powE A n x y
    let p' ← mulExpr A n p z
    substG A n s g p' fs
end

/-- `Expression::EvaluatePartial` (`symbolic/symbolic_expression.cc:243-252`), with an environment of
numbers. -/
def evalPartial (A : Arith) (n : Nat) (g : FCell → Run FCell) (env : List (Nat × ℚ)) (e : Cell) :
    Run Cell :=
  if env.isEmpty then .ok e
  else substC A n (env.map fun p => (p.1, .const p.2)) g e

end Verif.Model
