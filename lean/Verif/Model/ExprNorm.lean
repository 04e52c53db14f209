import Verif.Model.Cells
import Verif.Model.Contractor

/-!
# Arithmetic on expressions

Models the operators of `symbolic/symbolic_expression.cc` and the two factories of
`symbolic/symbolic_expression_cell.cc`, which simplify while they build.  The functions are
mutually recursive; the first number bounds the depth (`oof` when it is used up).
-/

namespace Verif.Model

/-- Arithmetic on constants.  `rnd` is the rounding of sums, products and quotients of doubles,
`pow` is `std::pow`.  Simplified: where `pow` is `none` (a result that is no number) the model
stops with `oof`. -/
structure Arith where
  rnd : ℚ → ℚ
  pow : ℚ → ℚ → Option ℚ

/-- `is_integer` (`symbolic/symbolic_expression_cell.cc:45-54`). -/
def isInt32 (q : ℚ) : Bool := decide (-2 ^ 31 ≤ q ∧ q ≤ 2 ^ 31 - 1 ∧ q.den = 1)

/-- `is_constant` (`symbolic/symbolic_expression.cc:817`). -/
def Cell.isConst : Cell → Bool
  | .const _ => true
  | _ => false

/-- `ExpressionAddFactory::AddTerm` (`symbolic/symbolic_expression_cell.cc:741-762`), on the map in
its order.  The assertion of line 742 is checked by the callers. -/
def CTerms.addTerm (A : Arith) (q : ℚ) (e : Cell) : CTerms → CTerms
  | .nil => .cons e q .nil
  | .cons k p ts =>
    if e.less k then .cons e q (.cons k p ts)
    else if k.less e then .cons k p (CTerms.addTerm A q e ts)
    else if A.rnd (p + q) = 0 then ts
    else .cons k (A.rnd (p + q)) ts

/-- `ExpressionAddFactory::AddMap` (`symbolic/symbolic_expression_cell.cc:764-770`). -/
def CTerms.addMap (A : Arith) (ts : CTerms) : CTerms → Run CTerms
  | .nil => .ok ts
  | .cons e q us => if e.isConst then .ub else CTerms.addMap A (CTerms.addTerm A q e ts) us

/-- The map of `ExpressionAddFactory::Negate` (`symbolic/symbolic_expression_cell.cc:709-715`). -/
def CTerms.negate : CTerms → CTerms
  | .nil => .nil
  | .cons e q ts => .cons e (-q) ts.negate

mutual
/-- `operator+=` (`symbolic/symbolic_expression.cc:330-374`), where the two sides are different
objects. -/
def addE (A : Arith) : Nat → Cell → Cell → Run Cell
  | 0, _, _ => .oof
  | n + 1, a, b =>
    if a.equalTo (.const 0) then .ok b
    else if b.equalTo (.const 0) then .ok a
    else match a, b with
    | .const p, .const q => .ok (.const (A.rnd (p + q)))
    | .add c ts, b => do
      let f ← addExpr A n (c, ts) b
      getAdd A n f
    | a, .add c ts => do
      let f ← addExpr A n (c, ts) a
      getAdd A n f
    | a, b => do
      let f ← addExpr A n (0, .nil) a
      let g ← addExpr A n f b
      getAdd A n g
/-- `ExpressionAddFactory::AddExpression`, `Add`
(`symbolic/symbolic_expression_cell.cc:673-700`). -/
def addExpr (A : Arith) : Nat → ℚ × CTerms → Cell → Run (ℚ × CTerms)
  | 0, _, _ => .oof
  | n + 1, (c, ts), e =>
    match e with
    | .const q => .ok (A.rnd (c + q), ts)
    | .add d us => do
      let ts' ← CTerms.addMap A ts us
      .ok (A.rnd (c + d), ts')
    | .mul d fs =>
      if d = 1 then .ok (c, CTerms.addTerm A 1 (.mul d fs) ts)
      else do
        let t ← getMul A n (1, fs)
        if t.isConst then .ub else .ok (c, CTerms.addTerm A d t ts)
    | e => .ok (c, CTerms.addTerm A 1 e ts)
/-- `ExpressionAddFactory::GetExpression` (`symbolic/symbolic_expression_cell.cc:717-734`). -/
def getAdd (A : Arith) : Nat → ℚ × CTerms → Run Cell
  | 0, _ => .oof
  | n + 1, (c, ts) =>
    match ts with
    | .nil => .ok (.const c)
    | .cons e q .nil => if c = 0 then mulE A n (.const q) e else .ok (.add c ts)
    | ts => .ok (.add c ts)
/-- `operator*=` (`symbolic/symbolic_expression.cc:480-615`), where the two sides are different
objects. -/
def mulE (A : Arith) : Nat → Cell → Cell → Run Cell
  | 0, _, _ => .oof
  | n + 1, a, b =>
    if a.equalTo (.const 1) then .ok b
    else if b.equalTo (.const 1) then .ok a
    else match a, b with
    | .bin .div a1 a2, .bin .div b1 b2 => do
      let x ← mulE A n a1 b1
      let y ← mulE A n a2 b2
      divE A n x y
    | a, b =>
    match a, b with
    | a, .bin .div (.const q) d => do
      let x ← mulE A n (.const q) a
      divE A n x d
    | .bin .div (.const q) d, b => do
      let x ← mulE A n (.const q) b
      divE A n x d
    | a, b => mulRest A n a b
/-- The remaining cases of `operator*=` (`symbolic/symbolic_expression.cc:503-615`). -/
def mulRest (A : Arith) : Nat → Cell → Cell → Run Cell
  | 0, _, _ => .oof
  | n + 1, a, b =>
    match a, b with
    | .const p, .const q => .ok (.const (A.rnd (p * q)))
    | .const p, b =>
      if p = -1 then
        match b with
        | .add c ts => getAdd A n (-c, ts.negate)
        | .mul c fs => getMul A n (-c, fs)
        | b => mulFlat A n (.const p) b
      else if p = 0 then .ok (.const 0)
      else mulFlat A n (.const p) b
    | a, .const q =>
      if q = -1 then
        match a with
        | .add c ts => getAdd A n (-c, ts.negate)
        | .mul c fs => getMul A n (-c, fs)
        | a => mulFlat A n a (.const q)
      else if q = 0 then .ok (.const 0)
      else mulFlat A n a (.const q)
    | a, b => mulFlat A n a b
/-- The cases of `operator*=` about powers and flattening
(`symbolic/symbolic_expression.cc:546-615`). -/
def mulFlat (A : Arith) : Nat → Cell → Cell → Run Cell
  | 0, _, _ => .oof
  | n + 1, a, b =>
    match a, b with
    | .bin .pow e1 e2, .bin .pow e3 e4 =>
      if e1.equalTo e3 then do
        let s ← addE A n e2 e4
        powE A n e1 s
      else if e1.equalTo (.bin .pow e3 e4) then do
        let s ← addE A n (.const 1) e2
        powE A n e1 s
      else do
        let f ← mulExpr A n (1, .nil) (.bin .pow e1 e2)
        let g ← mulExpr A n f (.bin .pow e3 e4)
        getMul A n g
    | .bin .pow e1 e2, b =>
      if e1.equalTo b then do
        let s ← addE A n (.const 1) e2
        powE A n e1 s
      else
        match b with
        | .mul c fs => do
          let f ← mulExpr A n (c, fs) (.bin .pow e1 e2)
          getMul A n f
        | b => do
          let f ← mulExpr A n (1, .nil) (.bin .pow e1 e2)
          let g ← mulExpr A n f b
          getMul A n g
    | a, .bin .pow e1 e2 =>
      if e1.equalTo a then do
        let s ← addE A n (.const 1) e2
        powE A n e1 s
      else
        match a with
        | .mul c fs => do
          let f ← mulExpr A n (c, fs) (.bin .pow e1 e2)
          getMul A n f
        | a => do
          let f ← mulExpr A n (1, .nil) a
          let g ← mulExpr A n f (.bin .pow e1 e2)
          getMul A n g
    | .mul c fs, b => do
      let f ← mulExpr A n (c, fs) b
      getMul A n f
    | a, .mul c fs => do
      let f ← mulExpr A n (c, fs) a
      getMul A n f
    | a, b =>
      if a.equalTo b then powE A n a (.const 2)
      else do
        let f ← mulExpr A n (1, .nil) a
        let g ← mulExpr A n f b
        getMul A n g
/-- `ExpressionMulFactory::AddExpression`, `Add`
(`symbolic/symbolic_expression_cell.cc:962-992`). -/
def mulExpr (A : Arith) : Nat → ℚ × CFactors → Cell → Run (ℚ × CFactors)
  | 0, _, _ => .oof
  | n + 1, (c, fs), e =>
    if c = 0 then .ok (c, fs)
    else match e with
    | .const q => if q = 0 then .ok (0, .nil) else .ok (A.rnd (c * q), fs)
    | .mul d gs => do
      let fs' ← mulMap A n fs gs
      .ok (A.rnd (c * d), fs')
    | .bin .pow b e => do
      let fs' ← mulTerm A n fs b e
      .ok (c, fs')
    | e => do
      let fs' ← mulTerm A n fs e (.const 1)
      .ok (c, fs')
/-- `ExpressionMulFactory::AddMap` (`symbolic/symbolic_expression_cell.cc:1075-1081`). -/
def mulMap (A : Arith) : Nat → CFactors → CFactors → Run CFactors
  | 0, _, _ => .oof
  | n + 1, fs, gs =>
    match gs with
    | .nil => .ok fs
    | .cons b e gs => do
      let fs' ← mulTerm A n fs b e
      mulMap A n fs' gs
/-- `ExpressionMulFactory::AddTerm` (`symbolic/symbolic_expression_cell.cc:1033-1073`): the
assertion and the powers of powers. -/
def mulTerm (A : Arith) : Nat → CFactors → Cell → Cell → Run CFactors
  | 0, _, _, _ => .oof
  | n + 1, fs, b, e =>
    if b.isConst ∧ e.isConst then .ub
    else match b with
    | .bin .pow e1 (.const v) =>
      if e.isConst ∧ isInt32 v then do
        let e' ← mulE A n (.const v) e
        mulTerm A n fs e1 e'
      else mulIns A n b e fs
    | b => mulIns A n b e fs
/-- `ExpressionMulFactory::AddTerm`: the map (`symbolic/symbolic_expression_cell.cc:1053-1072`). -/
def mulIns (A : Arith) : Nat → Cell → Cell → CFactors → Run CFactors
  | 0, _, _, _ => .oof
  | _ + 1, b, e, .nil => .ok (.cons b e .nil)
  | n + 1, b, e, .cons k p fs =>
    if b.less k then .ok (.cons b e (.cons k p fs))
    else if k.less b then do
      let fs' ← mulIns A n b e fs
      .ok (.cons k p fs')
    else do
      let s ← addE A n p e
      if s.equalTo (.const 0) then .ok fs else .ok (.cons k s fs)
/-- `ExpressionMulFactory::GetExpression` (`symbolic/symbolic_expression_cell.cc:1006-1026`). -/
def getMul (A : Arith) : Nat → ℚ × CFactors → Run Cell
  | 0, _ => .oof
  | n + 1, (c, fs) =>
    if c = 0 then .ok (.const 0)
    else match fs with
    | .nil => .ok (.const c)
    | .cons b e .nil => if c = 1 then powE A n b e else .ok (.mul c fs)
    | fs => .ok (.mul c fs)
/-- `pow` (`symbolic/symbolic_expression.cc:706-740`), with `check_domain`
(`symbolic/symbolic_expression_cell.cc:1455-1464`).  Reading the value of an exponent that is no
constant is undefined behaviour (`symbolic/symbolic_expression.cc:855-858`,
`symbolic/symbolic_expression_cell.cc:2256-2260`). -/
def powE (A : Arith) : Nat → Cell → Cell → Run Cell
  | 0, _, _ => .oof
  | _ + 1, a, b =>
    match b with
    | .const v =>
      match a with
      | .const u =>
        if u < 0 ∧ ¬ isInt32 v then .throw
        else match A.pow u v with
          | some r => .ok (.const r)
          | none => .oof
      | a =>
        if v = 0 then .ok (.const 1)
        else if v = 1 then .ok a
        else match a with
        | .bin .pow base (.const u) =>
          if isInt32 u ∧ isInt32 v then .ok (.bin .pow base (.const (A.rnd (u * v))))
          else .ok (.bin .pow a b)
        | .bin .pow base (.rconst l u f) =>
          if isInt32 (rcValue l u f) ∧ isInt32 v then
            .ok (.bin .pow base (.const (A.rnd (rcValue l u f * v))))
          else .ok (.bin .pow a b)
        | .bin .pow _ _ => .ub
        | a => .ok (.bin .pow a b)
    | b => .ok (.bin .pow a b)
/-- `operator/=` (`symbolic/symbolic_expression.cc:622-649`). -/
def divE (A : Arith) : Nat → Cell → Cell → Run Cell
  | 0, _, _ => .oof
  | _ + 1, a, b =>
    if b.equalTo (.const 1) then .ok a
    else match a, b with
    | .const p, .const q => if q = 0 then .throw else .ok (.const (A.rnd (p / q)))
    | a, b => if a.equalTo b then .ok (.const 1) else .ok (.bin .div a b)
end

/-- Unary `operator-` (`symbolic/symbolic_expression.cc:411-427`), `NegateAddition`,
`NegateMultiplication` (lines 51-92). -/
def negE (A : Arith) (n : Nat) : Cell → Run Cell
  | .const q => .ok (.const (-q))
  | .add c ts => getAdd A n (-c, ts.negate)
  | .mul c fs => getMul A n (-c, fs)
  | e => mulE A n (.const (-1)) e

/-- `operator-=` (`symbolic/symbolic_expression.cc:405-407`). -/
def minusE (A : Arith) (n : Nat) (a b : Cell) : Run Cell := do
  let m ← negE A n b
  addE A n a m

/-- `sqrt` and `abs` (`symbolic/symbolic_expression.cc:686-692`). -/
def absE : Cell → Cell
  | .const q => .const |q|
  | e => .un .abs e

/-- See `absE`. -/
def sqrtE : Cell → Cell
  | .bin .pow b (.const q) => if q = 2 then absE b else .un .sqrt (.bin .pow b (.const q))
  | e => .un .sqrt e

/-- `e += e`: the two sides are the same object (`symbolic/symbolic_expression.cc:347-355`).  If
no other expression shares the cell, its map is moved out before it is read. -/
def addSelf (A : Arith) (n : Nat) (unique : Bool) : Cell → Run Cell
  | .add c ts => if unique then getAdd A n (A.rnd (c + c), ts) else addE A n (.add c ts) (.add c ts)
  | e => addE A n e e

/-- `e *= e` (`symbolic/symbolic_expression.cc:577-593`), as `addSelf`. -/
def mulSelf (A : Arith) (n : Nat) (unique : Bool) : Cell → Run Cell
  | .mul c fs => if unique then getMul A n (A.rnd (c * c), fs) else mulE A n (.mul c fs) (.mul c fs)
  | e => mulE A n e e

/-- The calls a caller makes to build an expression: the operators of the API applied to variables
and constants. -/
inductive Tree where
  | const (q : ℚ)
  | rconst (lb ub : ℚ) (useLb : Bool)
  | var (id : Nat)
  | add (a b : Tree)
  | sub (a b : Tree)
  | neg (a : Tree)
  | mul (a b : Tree)
  | div (a b : Tree)
  | pow (a b : Tree)

/-- The expression that is built (`symbolic/symbolic_expression.cc:303-306,387-390,411-427,
452-456,617-620,706-740`). -/
def build (A : Arith) (n : Nat) : Tree → Run Cell
  | .const q => .ok (.const q)
  | .rconst l u f => .ok (.rconst l u f)
  | .var i => .ok (.var i)
  | .add a b => do
    let x ← build A n a
    let y ← build A n b
    addE A n x y
  | .sub a b => do
    let x ← build A n a
    let y ← build A n b
    minusE A n x y
  | .neg a => do
    let x ← build A n a
    negE A n x
  | .mul a b => do
    let x ← build A n a
    let y ← build A n b
    mulE A n x y
  | .div a b => do
    let x ← build A n a
    let y ← build A n b
    divE A n x y
  | .pow a b => do
    let x ← build A n a
    let y ← build A n b
    powE A n x y

end Verif.Model
