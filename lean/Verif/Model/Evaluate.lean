import Verif.Model.Diff

/-!
# Evaluation of expressions and formulas

Models `Environment` (`symbolic/symbolic_environment.{h,cc}`) and the functions `Evaluate` of
`symbolic/symbolic_expression_cell.cc` and `symbolic/symbolic_formula_cell.cc`.
-/

namespace Verif.Model

/-- Machine numbers, with all their special values: constants, the operations of the hardware and
of `<cmath>`, and the comparisons. -/
structure Num (D : Type) where
  ofQ : ℚ → D
  add : D → D → D
  mul : D → D → D
  div : D → D → D
  /-- `std::pow` -/
  pow : D → D → D
  /-- `std::atan2` -/
  atan2 : D → D → D
  /-- `std::log`, `std::fabs`, … -/
  un : Fn1 → D → D
  lt : D → D → Bool
  le : D → D → Bool
  eq : D → D → Bool
  /-- `std::isnan` -/
  nan : D → Bool
  /-- `std::isfinite` -/
  finite : D → Bool
  /-- `is_integer` (`symbolic/symbolic_expression_cell.cc:45-54`) -/
  int : D → Bool

/-- `Environment` (`symbolic/symbolic_environment.h:59-130`): an unordered map from variables to
numbers, here a list without repeated keys. -/
abbrev Envt (D : Type) := List (Nat × D)

/-- `Environment::find` (`symbolic/symbolic_environment.h:107-109`). -/
def envFind {D : Type} (x : Nat) : Envt D → Option D
  | [] => none
  | (y, d) :: env => if y = x then some d else envFind x env

/-- `env[x] = d` with the non-const `operator[]` (`symbolic/symbolic_environment.cc:83-90`).  The
refusal of the dummy variable is left out. -/
def envSet {D : Type} (x : Nat) (d : D) : Envt D → Envt D
  | [] => [(x, d)]
  | (y, c) :: env => if y = x then (x, d) :: env else (y, c) :: envSet x d env

/-- `Environment::insert` (`symbolic/symbolic_environment.cc:63-67`): an entry that exists stays. -/
def envInsert {D : Type} (N : Num D) (x : Nat) (d : D) (env : Envt D) : Outcome (Envt D) :=
  if x = 0 then .throw
  else if N.nan d then .throw
  else match envFind x env with
    | some _ => .ok env
    | none => .ok (env ++ [(x, d)])

mutual
/-- `GetVariables().IsSubsetOf(…)` (`symbolic/symbolic_variables.cc:49-52`); the variables as for
`Cell.occurs`. -/
def Cell.within (p : Nat → Bool) : Cell → Bool
  | .const _ => true
  | .rconst .. => true
  | .var i => p i
  | .add _ ts => ts.within p
  | .mul _ fs => fs.within p
  | .un _ a => a.within p
  | .bin _ a b => a.within p && b.within p
  | .ite c a b => c.within p && a.within p && b.within p
  | .nan => true
  | .uf _ vs => vs.all p
/-- See `Cell.within`. -/
def CTerms.within (p : Nat → Bool) : CTerms → Bool
  | .nil => true
  | .cons e _ ts => e.within p && ts.within p
/-- See `Cell.within`. -/
def CFactors.within (p : Nat → Bool) : CFactors → Bool
  | .nil => true
  | .cons b e fs => b.within p && e.within p && fs.within p
/-- See `Cell.within`. -/
def FCell.within (p : Nat → Bool) : FCell → Bool
  | .ff => true
  | .tt => true
  | .var i => p i
  | .rel _ a b => a.within p && b.within p
  | .conj fs => fs.within p
  | .disj fs => fs.within p
  | .neg f => f.within p
  | .all vs f => f.within fun i => p i || vs.contains i
/-- See `Cell.within`. -/
def FCells.within (p : Nat → Bool) : FCells → Bool
  | .nil => true
  | .cons f fs => f.within p && fs.within p
end

/-- `DoEvaluate` of the unary functions, with `check_domain`
(`symbolic/symbolic_expression_cell.cc:1281-1288,1321-1324,1364,1400,1407-1414,1446-1449,1535,1571,
1607,1612-1619,1653-1656,1661-1668,1702-1705,1742,1825,1862,1899`). -/
def evalUn {D : Type} (N : Num D) (f : Fn1) (x : D) : Outcome D :=
  match f with
  | .log => if N.le (N.ofQ 0) x then .ok (N.un .log x) else .throw
  | .sqrt => if N.le (N.ofQ 0) x then .ok (N.un .sqrt x) else .throw
  | .asin => if N.le (N.ofQ (-1)) x && N.le x (N.ofQ 1) then .ok (N.un .asin x) else .throw
  | .acos => if N.le (N.ofQ (-1)) x && N.le x (N.ofQ 1) then .ok (N.un .acos x) else .throw
  | f => .ok (N.un f x)

/-- `DoEvaluate` of the binary functions (`symbolic/symbolic_expression_cell.cc:1268-1276,1455-1464,
1496-1499,1786-1788,1944-1946,1991-1993`); `std::min(a, b)` is `b < a ? b : a`, `std::max(a, b)` is
`a < b ? b : a`. -/
def evalBin {D : Type} (N : Num D) (f : Fn2) (x y : D) : Outcome D :=
  match f with
  | .div => if N.eq y (N.ofQ 0) then .throw else .ok (N.div x y)
  | .pow =>
    if N.finite x && N.lt x (N.ofQ 0) && N.finite y && !N.int y then .throw else .ok (N.pow x y)
  | .atan2 => .ok (N.atan2 x y)
  | .min => .ok (if N.lt y x then y else x)
  | .max => .ok (if N.lt x y then y else x)

/-- What is evaluated with: the numbers, and the comparison of two expressions after
`EvaluatePartial` (`symbolic/symbolic_formula_cell.cc:260`), which is not modelled and may be
anything. -/
structure EvalCfg (D : Type) where
  num : Num D
  part : Envt D → Cell → Cell → Outcome Bool

mutual
/-- `Expression::Evaluate` (`symbolic/symbolic_expression.cc:238-241`,
`symbolic/symbolic_expression_cell.cc:271-274,307-311,350-362,403-406,454-456,495-497,2046-2051,
2120-2122`). -/
def evalC {D : Type} (C : EvalCfg D) (env : Envt D) : Cell → Outcome D
  | .const q => .ok (C.num.ofQ q)
  | .rconst l u f => .ok (C.num.ofQ (rcValue l u f))
  | .var i =>
    match envFind i env with
    | some d => if C.num.nan d then .ub else .ok d
    | none => .throw
  | .add c ts => evalT C env (C.num.ofQ c) ts
  | .mul c fs => evalG C env (C.num.ofQ c) fs
  | .un f e => do
    let x ← evalC C env e
    evalUn C.num f x
  | .bin f a b => do
    let x ← evalC C env a
    let y ← evalC C env b
    evalBin C.num f x y
  | .ite c a b => do
    let t ← evalF C env c
    if t then evalC C env a else evalC C env b
  | .nan => .throw
  | .uf .. => .throw
/-- `ExpressionAdd::Evaluate` (`symbolic/symbolic_expression_cell.cc:583-589`); `s` is the sum so
far. -/
def evalT {D : Type} (C : EvalCfg D) (env : Envt D) (s : D) : CTerms → Outcome D
  | .nil => .ok s
  | .cons e q ts => do
    let x ← evalC C env e
    evalT C env (C.num.add s (C.num.mul x (C.num.ofQ q))) ts
/-- `ExpressionMul::Evaluate` (`symbolic/symbolic_expression_cell.cc:844-850`); `m` is the product
so far.  There is no `check_domain` here. -/
def evalG {D : Type} (C : EvalCfg D) (env : Envt D) (m : D) : CFactors → Outcome D
  | .nil => .ok m
  | .cons b e fs => do
    let x ← evalC C env b
    let y ← evalC C env e
    evalG C env (C.num.mul m (C.num.pow x y)) fs
/-- `Formula::Evaluate` (`symbolic/symbolic_formula.cc:112-115`,
`symbolic/symbolic_formula_cell.cc:142,168,210-222,245-268,291-294,317-320,343-346,369-372,395-398,
521-523,565-571`). -/
def evalF {D : Type} (C : EvalCfg D) (env : Envt D) : FCell → Outcome Bool
  | .ff => .ok false
  | .tt => .ok true
  | .var i =>
    match envFind i env with
    | some d => .ok (!C.num.eq d (C.num.ofQ 0))
    | none => .throw
  | .rel .eq a b =>
    if env.isEmpty then .ok (a.equalTo b)
    else if a.within (fun i => (envFind i env).isSome) && b.within (fun i => (envFind i env).isSome)
      then do
        let x ← evalC C env a
        let y ← evalC C env b
        .ok (C.num.eq x y)
      else C.part env a b
  | .rel .neq a b =>
    if env.isEmpty then .ok (!a.equalTo b)
    else if a.within (fun i => (envFind i env).isSome) && b.within (fun i => (envFind i env).isSome)
      then do
        let x ← evalC C env a
        let y ← evalC C env b
        .ok (!C.num.eq x y)
      else do
        let r ← C.part env a b
        .ok (!r)
  | .rel .gt a b => do
    let x ← evalC C env a
    let y ← evalC C env b
    .ok (C.num.lt y x)
  | .rel .geq a b => do
    let x ← evalC C env a
    let y ← evalC C env b
    .ok (C.num.le y x)
  | .rel .lt a b => do
    let x ← evalC C env a
    let y ← evalC C env b
    .ok (C.num.lt x y)
  | .rel .leq a b => do
    let x ← evalC C env a
    let y ← evalC C env b
    .ok (C.num.le x y)
  | .conj fs => evalAll C env fs
  | .disj fs => evalAny C env fs
  | .neg f => do
    let t ← evalF C env f
    .ok (!t)
  | .all .. => .throw
/-- `FormulaAnd::Evaluate` (`symbolic/symbolic_formula_cell.cc:426-430`). -/
def evalAll {D : Type} (C : EvalCfg D) (env : Envt D) : FCells → Outcome Bool
  | .nil => .ok true
  | .cons f fs => do
    let t ← evalF C env f
    if t then evalAll C env fs else .ok false
/-- `FormulaOr::Evaluate` (`symbolic/symbolic_formula_cell.cc:468-472`). -/
def evalAny {D : Type} (C : EvalCfg D) (env : Envt D) : FCells → Outcome Bool
  | .nil => .ok false
  | .cons f fs => do
    let t ← evalF C env f
    if t then .ok true else evalAny C env fs
end

/-! ## The objective of the local optimiser -/

/-- `CachedExpression` (`dreal/optimization/cached_expression.h:33-51`): an expression, the
environment it is evaluated in, and the partial derivatives computed so far.  The pointer to the
box is left out. -/
structure Cached (D : Type) where
  expr : Cell
  env : Envt D
  grad : List (Nat × Cell)

/-- The constructor (`dreal/optimization/cached_expression.cc:27-30`). -/
def Cached.fresh {D : Type} (e : Cell) : Cached D := ⟨e, [], []⟩

/-- `gradient_.find(x)` (`dreal/optimization/cached_expression.cc:49`). -/
def gradFind (x : Nat) : List (Nat × Cell) → Option Cell
  | [] => none
  | (y, r) :: g => if y = x then some r else gradFind x g

/-- `CachedExpression::Differentiate` (`dreal/optimization/cached_expression.cc:47-55`), with the
state afterwards. -/
def Cached.diff {D : Type} (A : Arith) (n x : Nat) (c : Cached D) : Run Cell × Cached D :=
  match gradFind x c.grad with
  | some r => (.ok r, c)
  | none =>
    match diffC A n x c.expr with
    | .ok r => (.ok r, { c with grad := (x, r) :: c.grad })
    | .throw => (.throw, c)
    | .ub => (.ub, c)
    | .oof => (.oof, c)

/-- The loop that sets up the environment (`dreal/optimization/nlopt_optimizer.cc:49-56`). -/
def setPoint {D : Type} (N : Num D) : List Nat → List D → Envt D → Run Unit × Envt D
  | x :: xs, d :: ds, env =>
    if N.nan d then (.throw, env) else setPoint N xs ds (envSet x d env)
  | _, _, env => (.ok (), env)

/-- The loop that sets up the gradient (`dreal/optimization/nlopt_optimizer.cc:58-62`). -/
def setGrad {D : Type} (C : EvalCfg D) (A : Arith) (n : Nat) : List Nat → Cached D →
    Run (List D) × Cached D
  | [], c => (.ok [], c)
  | x :: xs, c =>
    match c.diff A n x with
    | (.ok r, c1) =>
      match evalC C c1.env r with
      | .ok g =>
        match setGrad C A n xs c1 with
        | (.ok gs, c2) => (.ok (g :: gs), c2)
        | (.throw, c2) => (.throw, c2)
        | (.ub, c2) => (.ub, c2)
        | (.oof, c2) => (.oof, c2)
      | .throw => (.throw, c1)
      | .ub => (.ub, c1)
    | (.throw, c1) => (.throw, c1)
    | (.ub, c1) => (.ub, c1)
    | (.oof, c1) => (.oof, c1)

/-- `NloptOptimizerEvaluate` (`dreal/optimization/nlopt_optimizer.cc:39-66`): the value and the
gradient, if it is asked for, and the state afterwards.  `box` are the variables of the box. -/
def nloptObjective {D : Type} (C : EvalCfg D) (A : Arith) (n : Nat) (box : List Nat) (xs : List D)
    (wantGrad : Bool) (c : Cached D) : Run (D × List D) × Cached D :=
  if xs.length ≠ box.length ∨ xs.length = 0 then (.ub, c)
  else
    match setPoint C.num box xs c.env with
    | (.ok (), env) =>
      let c1 := { c with env := env }
      match if wantGrad then setGrad C A n box c1 else (.ok [], c1) with
      | (.ok gs, c2) =>
        match evalC C c2.env c2.expr with
        | .ok d => (.ok (d, gs), c2)
        | .throw => (.throw, c2)
        | .ub => (.ub, c2)
      | (.throw, c2) => (.throw, c2)
      | (.ub, c2) => (.ub, c2)
      | (.oof, c2) => (.oof, c2)
    | (.throw, env) => (.throw, { c with env := env })
    | (.ub, env) => (.ub, { c with env := env })
    | (.oof, env) => (.oof, { c with env := env })

/-- What happens to a cached expression: the optimiser asks for a value
(`dreal/optimization/nlopt_optimizer.cc:39-66`), or a new run starts in another environment (lines
180-190). -/
inductive Event (D : Type) where
  | ask (box : List Nat) (xs : List D) (wantGrad : Bool)
  | start (env : Envt D)

/-- The state after an event; an exception leaves what was done before it. -/
def Cached.after {D : Type} (C : EvalCfg D) (A : Arith) (n : Nat) (c : Cached D) :
    Event D → Cached D
  | .ask box xs g => (nloptObjective C A n box xs g c).2
  | .start env => { c with env := env }

/-! ## Is an expression differentiable -/

mutual
/-- `IsDifferentiableVisitor` on expressions (`dreal/symbolic/symbolic.cc:458-504`); NaN is refused
by the visitor (`symbolic/symbolic_expression_visitor.h:166-167`). -/
def isDiffC : Cell → Outcome Bool
  | .const _ => .ok true
  | .rconst .. => .ok true
  | .var _ => .ok true
  | .add _ ts => isDiffT ts
  | .mul _ fs => isDiffG fs
  | .un f a =>
    match f with
    | .abs => .ok false
    | _ => isDiffC a
  | .bin f a b =>
    match f with
    | .min => .ok false
    | .max => .ok false
    | _ => do
      let t ← isDiffC a
      if t then isDiffC b else .ok false
  | .ite .. => .ok false
  | .nan => .throw
  | .uf .. => .ok false
/-- See `isDiffC` (`dreal/symbolic/symbolic.cc:461-468`). -/
def isDiffT : CTerms → Outcome Bool
  | .nil => .ok true
  | .cons e _ ts => do
    let t ← isDiffC e
    if t then isDiffT ts else .ok false
/-- See `isDiffC` (`dreal/symbolic/symbolic.cc:469-478`). -/
def isDiffG : CFactors → Outcome Bool
  | .nil => .ok true
  | .cons b e fs => do
    let t ← isDiffC b
    if t then do
      let u ← isDiffC e
      if u then isDiffG fs else .ok false
    else .ok false
end

mutual
/-- `IsDifferentiableVisitor` on formulas (`dreal/symbolic/symbolic.cc:423-455`). -/
def isDiffF : FCell → Outcome Bool
  | .ff => .ok true
  | .tt => .ok true
  | .var _ => .ok true
  | .rel _ a b => do
    let t ← isDiffC a
    if t then isDiffC b else .ok false
  | .conj fs => isDiffL fs
  | .disj fs => isDiffL fs
  | .neg f => isDiffF f
  | .all .. => .ok false
/-- See `isDiffF` (`dreal/symbolic/symbolic.cc:444-453`). -/
def isDiffL : FCells → Outcome Bool
  | .nil => .ok true
  | .cons f fs => do
    let t ← isDiffF f
    if t then isDiffL fs else .ok false
end

end Verif.Model
