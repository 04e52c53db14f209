import Verif.Model.Minimize
import Verif.Model.Session

/-!
# The `dr` front end

`dreal/dr/parser.yy`, `driver.cc` and `run.cc`: a problem is a list of declarations, constraints and
costs.  How a text becomes such a problem is modelled in `DrScan.lean` and `DrParse.lean`.
-/

namespace Verif.Model.Dr
open Verif Verif.Model

/-- Expressions of a problem (`dreal/dr/parser.yy:184-218`).  `pow(a, b)` and `a ^ b` are the same
tree.  A literal is the double `std::stod` makes of it (`dreal/dr/scanner.ll:135-148`). -/
inductive DExpr where
  | num (q : ℚ)
  | id (n : String)
  | add (a b : DExpr)
  | neg (a : DExpr)
  | sub (a b : DExpr)
  | mul (a b : DExpr)
  | fn1 (f : Fn1) (a : DExpr)
  | fn2 (f : Fn2) (a b : DExpr)

/-- The relations (`dreal/dr/parser.yy:169-173`). -/
inductive DRel where
  | eq | lt | le | gt | ge

/-- Formulas of a problem (`dreal/dr/parser.yy:168-179`). -/
inductive DFml where
  | rel (o : DRel) (a b : DExpr)
  | and (f g : DFml)
  | or (f g : DFml)
  | imp (f g : DFml)
  | not (f : DFml)

/-- A declaration (`dreal/dr/parser.yy:122-128`).  Simplified: the bounds are the doubles that
evaluating them gives. -/
structure DDecl where
  name : String
  lo : EQ
  hi : EQ

/-- A problem (`dreal/dr/parser.yy:104-163`). -/
structure DProb where
  decls : List DDecl
  ctrs : List DFml
  costs : List DExpr

/-- The driver while the declarations are read (`dreal/dr/driver.h:109-115`): the names, the number of
variables constructed, and the calls on the context. -/
structure DState where
  scope : ScopedMap String Variable := {}
  next : Nat := 0
  log : List Cmd := []

/-- A declaration: a new variable, entered under its name and declared with its bounds
(`dreal/dr/parser.yy:122-128`, `dreal/dr/driver.cc:89-93`, `dreal/solver/context.cc:48-53`). -/
def DState.declare (s : DState) (d : DDecl) : DState :=
  let v : Variable := ⟨s.next, .continuous⟩
  { scope := s.scope.insert d.name v, next := s.next + 1,
    log := s.log ++ [.newVar .continuous, .declare v true, .setInterval v d.lo d.hi] }

/-- `-e` (`dreal/dr/parser.yy:195`, `symbolic/symbolic_expression.cc:411-427`).  Simplified: of the arithmetic on
constants only the change of sign is carried out, which makes literals of negative numbers. -/
def negE : Expr → Expr
  | .const q => .const (-q)
  | e => .mul (.const (-1)) e

/-- The value of an expression (`dreal/dr/parser.yy:184-218`); an unknown name ends the parse. -/
def trE (sc : ScopedMap String Variable) : DExpr → Outcome Expr
  | .num q => .ok (.const q)
  | .id n => do
    let v ← sc.at? n
    .ok (.var v)
  | .add a b => do
    let x ← trE sc a
    let y ← trE sc b
    .ok (.add x y)
  | .neg a => do
    let x ← trE sc a
    .ok (negE x)
  | .sub a b => do
    let x ← trE sc a
    let y ← trE sc b
    .ok (x.sub y)
  | .mul a b => do
    let x ← trE sc a
    let y ← trE sc b
    .ok (.mul x y)
  | .fn1 f a => do
    let x ← trE sc a
    .ok (.app1 f x)
  | .fn2 f a b => do
    let x ← trE sc a
    let y ← trE sc b
    .ok (.app2 f x y)

/-- The relations. -/
def DRel.op : DRel → RelOp
  | .eq => .eq
  | .lt => .lt
  | .le => .leq
  | .gt => .gt
  | .ge => .geq

/-- The value of a formula (`dreal/dr/parser.yy:168-179`). -/
def trF (sc : ScopedMap String Variable) : DFml → Outcome Fml
  | .rel o a b => do
    let x ← trE sc a
    let y ← trE sc b
    .ok (mkRel o.op x y)
  | .and f g => do
    let x ← trF sc f
    let y ← trF sc g
    .ok (andF x y)
  | .or f g => do
    let x ← trF sc f
    let y ← trF sc g
    .ok (orF x y)
  | .imp f g => do
    let x ← trF sc f
    let y ← trF sc g
    .ok (orF (notF x) y)
  | .not f => do
    let x ← trF sc f
    .ok (notF x)

/-- The values of a list, in order. -/
def trAll {α β : Type} (t : α → Outcome β) : List α → Outcome (List β)
  | [] => .ok []
  | a :: as => do
    let x ← t a
    let xs ← trAll t as
    .ok (x :: xs)

/-- The variables under their names once the declarations are read. -/
def scopeOf (p : DProb) : ScopedMap String Variable := (p.decls.foldl DState.declare {}).scope

/-- The context when the check begins (`dreal/dr/driver.cc:100-107`).  Simplified: the counter of
variable ids starts at 0 instead of 1. -/
def posed (cfg : CCfg) (p : DProb) : Run Ctx := do
  let s := p.decls.foldl DState.declare {}
  let fs ← Run.lift (trAll (trF s.scope) p.ctrs)
  let es ← Run.lift (trAll (trE s.scope) p.costs)
  let r ← runCmds cfg (Ctx.init 0) (s.log ++ fs.map .assert)
  if es.isEmpty then .ok r.2 else minimize cfg r.2 es

/-- What is printed for a problem, `unsat` being `none` (`dreal/dr/driver.cc:99-122`).  Simplified: an
exception and a parse that was ended (`dreal/dr/run.cc:25-35` does not look at the result) leave
nothing; the value printed for the costs is left out. -/
def solve (cfg : CCfg) (p : DProb) : Run (Option Box) := do
  let c ← posed cfg p
  let q ← checkSat cfg c
  .ok q.1

end Verif.Model.Dr
