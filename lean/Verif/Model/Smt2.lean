import Verif.Model.Subst
import Verif.Model.Session

/-!
# The SMT-LIB front end

Models the grammar actions of `dreal/smt2/parser.yy` and the functions of `dreal/smt2/driver.cc`
they call.  Scanning and parsing proper (from characters to the abstract syntax below) are not
modelled.  An aborted parse (`YYABORT`) is an exception here.
-/

namespace Verif.Model.Smt2
open Verif Verif.Model

/-- `Sort` (`dreal/smt2/sort.h:26-31`). -/
inductive Srt where
  | bool | int | real | binary
deriving DecidableEq, Repr

/-- `SortToType` (`dreal/smt2/sort.cc:55-67`). -/
def Srt.toType : Srt → VType
  | .binary => .binary
  | .bool => .boolean
  | .int => .integer
  | .real => .continuous

/-- A variable bound by `forall`, with its optional bounds (`dreal/smt2/parser.yy:549-560`).
Simplified: the bounds are the doubles that evaluating the bound terms gives. -/
structure SBind where
  name : String
  srt : Srt
  dom : Option (ℚ × ℚ) := none

/-- The arithmetic relations of the grammar (`dreal/smt2/parser.yy:309-312`). -/
inductive SRel where
  | lt | le | gt | ge

/-- Terms (`dreal/smt2/parser.yy:288-488`).  A `let` has the list of its names and the list of
their terms.  `dec` is a decimal literal that is not a double, `num` any other literal.  The term
lists of the arithmetic operators are not empty in the grammar, except that of `+`. -/
inductive STerm where
  | tru
  | fls
  | num (q : ℚ)
  | dec (r : RConst)
  | sym (n : String)
  | eq (a b : STerm)
  | rel (o : SRel) (a b : STerm)
  | and (ts : List STerm)
  | or (ts : List STerm)
  | xor (ts : List STerm)
  | not (t : STerm)
  | imp (a b : STerm)
  | ite (c a b : STerm)
  | all (bs : List SBind) (body : STerm)
  | let_ (ns : List String) (ts : List STerm) (body : STerm)
  | add (t : STerm) (ts : List STerm)
  | neg (t : STerm)
  | sub (t : STerm) (ts : List STerm)
  | mul (t : STerm) (ts : List STerm)
  | div (t : STerm) (ts : List STerm)
  | fn1 (f : Fn1) (t : STerm)
  | fn2 (f : Fn2) (a b : STerm)
  | call (n : String) (ts : List STerm)

/-- `Term` (`dreal/smt2/term.h`): an expression or a formula. -/
inductive Term where
  | expr (e : Expr)
  | fml (f : Fml)

/-- `Term::expression()` (`dreal/smt2/term.cc:37-42`). -/
def Term.expression : Term → Outcome Expr
  | .expr e => .ok e
  | .fml _ => .throw

/-- `Term::formula()` (`dreal/smt2/term.cc:48-53`). -/
def Term.formula : Term → Outcome Fml
  | .fml f => .ok f
  | .expr _ => .throw

/-- The one-entry substitution `v ↦ t`, by the type of `v` (`dreal/smt2/term.cc:61-87`).  A term of
the wrong kind has the default value in the other member (`dreal/smt2/term.cc:31-32`). -/
def single (v : Variable) (t : Term) : Subst :=
  if v.type = .boolean then
    ⟨[], [(v, match t with | .fml f => f | .expr _ => .tt)]⟩
  else
    ⟨[(v, match t with | .expr e => e | .fml _ => .const 0)], []⟩

/-- `Term::Substitute` (`dreal/smt2/term.cc:61-87`). -/
def Term.substitute (t : Term) (v : Variable) (a : Term) : Term :=
  match t with
  | .fml f => .fml (subF (single v a) f)
  | .expr e => .expr (subE (single v a) e)

/-- `Term::Check(Variable::Type)` (`dreal/smt2/term.cc:107-125`). -/
def Term.checkType (t : Term) (ty : VType) : Bool :=
  match ty, t with
  | .boolean, .fml _ => true
  | .boolean, .expr _ => false
  | _, .expr _ => true
  | _, .fml _ => false

/-- `Term::Check(Sort)` (`dreal/smt2/term.cc:89-105`). -/
def Term.checkSort (t : Term) (s : Srt) : Bool := t.checkType s.toType

/-- `FunctionDefinition` (`dreal/smt2/driver.h:29-40`). -/
structure FunDef where
  params : List Variable
  ret : Srt
  body : Term

/-- The loop of `FunctionDefinition::operator()` (`dreal/smt2/driver.cc:66-71`). -/
def applyLoop : List Variable → List Term → Term → Outcome Term
  | p :: ps, a :: as, t => if a.checkType p.type then applyLoop ps as (t.substitute p a) else .throw
  | _, _, t => .ok t

/-- `FunctionDefinition::operator()` (`dreal/smt2/driver.cc:56-74`). -/
def FunDef.apply (fd : FunDef) (args : List Term) : Outcome Term :=
  if fd.params.length ≠ args.length then .throw
  else if fd.body.checkSort fd.ret then applyLoop fd.params args fd.body
  else .throw

/-- `EliminateBooleanVariables` (`dreal/smt2/driver.cc:323-333`). -/
def elimBool (vs : List Variable) (f : Fml) : Fml :=
  vs.foldl (fun ret b =>
    if b.type = .boolean then andF (subF ⟨[], [(b, .tt)]⟩ ret) (subF ⟨[], [(b, .ff)]⟩ ret)
    else ret) f

/-- `Smt2Driver` (`dreal/smt2/driver.h:174-187`): the names, the functions, the id the next
variable gets, and the calls made on the context so far. -/
structure Drv where
  scope : ScopedMap String Variable := {}
  funs : ScopedMap String FunDef := {}
  next : Nat := 0
  log : List Cmd := []

/-- A call on the context.  The context takes variable ids from the same counter: `use` tells how
many, given the calls so far.  The theorems hold for every `use`. -/
def Drv.call (use : List Cmd → Nat) (d : Drv) (c : Cmd) : Drv :=
  { d with log := d.log ++ [c], next := d.next + use (d.log ++ [c]) }

/-- `RegisterVariable` (`dreal/smt2/driver.cc:261-265`): a new variable under its name. -/
def Drv.register (d : Drv) (n : String) (s : Srt) : Variable × Drv :=
  let v : Variable := ⟨d.next, s.toType⟩
  (v, { d with scope := d.scope.insert n v, next := d.next + 1, log := d.log ++ [.newVar v.type] })

/-- `DeclareVariable(name, sort)` (`dreal/smt2/driver.cc:267-271`). -/
def Drv.declare (use : List Cmd → Nat) (d : Drv) (n : String) (s : Srt) : Variable × Drv :=
  let (v, d) := d.register n s
  (v, d.call use (.declare v true))

/-- `DeclareLocalVariable` (`dreal/smt2/driver.cc:303-309`): the name of the new variable is made
unique, but it is found under the name given. -/
def Drv.declareLocal (use : List Cmd → Nat) (d : Drv) (n : String) (s : Srt) : Variable × Drv :=
  let (v, d) := d.register n s
  (v, d.call use (.declare v false))

/-- `PushScope` (`dreal/smt2/driver.h:130-133`). -/
def Drv.pushScope (d : Drv) : Drv := { d with scope := d.scope.push, funs := d.funs.push }

/-- `PopScope` (`dreal/smt2/driver.h:135-138`). -/
def Drv.popScope (d : Drv) : Outcome Drv := do
  let fs ← d.funs.pop
  let sc ← d.scope.pop
  .ok { d with scope := sc, funs := fs }

/-- The loop of `let_binding_list` (`dreal/smt2/parser.yy:492-506`), over the bindings in the order
of the vector. -/
def bindLoop (use : List Cmd → Nat) : List (String × Term) → Drv → Drv
  | [], d => d
  | (n, .fml f) :: l, d =>
    let (v, d) := d.declareLocal use n .bool
    bindLoop use l (d.call use (.assert
      (orF (andF (.bvar v) f) (andF (notF (.bvar v)) (notF f)))))
  | (n, .expr e) :: l, d =>
    let (v, d) := d.declareLocal use n .real
    bindLoop use l (d.call use (.assert (mkRel .eq (.var v) e)))

/-- `variable_sort` for each bound variable, in order (`dreal/smt2/parser.yy:549-560`). -/
def registerAll : List SBind → Drv → List Variable × Drv
  | [], d => ([], d)
  | b :: bs, d =>
    let (v, d) := d.register b.name b.srt
    let (vs, d) := registerAll bs d
    (v :: vs, d)

/-- The domain formula of `variable_sort_list` (`dreal/smt2/parser.yy:533-547`).  Building
`lb <= v` for a Boolean variable throws (`symbolic/symbolic_expression_cell.cc:313-334`). -/
def domain : List SBind → List Variable → Outcome Fml
  | b :: bs, v :: vs => do
    let f ← domain bs vs
    match b.dom with
    | none => .ok f
    | some (l, u) =>
      if v.type = .boolean then .throw
      else .ok (andF (andF f (mkRel .leq (.const l) (.var v))) (mkRel .leq (.var v) (.const u)))
  | _, _ => .ok .tt

/-- The action of `forall` (`dreal/smt2/parser.yy:364-374`). -/
def mkForall (vars : List Variable) (dom body : Fml) : Fml :=
  let body := elimBool vars body
  let q := vars.filter fun v => v ∈ body.fv
  if q.isEmpty then body else forallF q (implyF dom body)

/-- The relations. -/
def SRel.op : SRel → RelOp
  | .lt => .lt
  | .le => .leq
  | .gt => .gt
  | .ge => .geq

/-- `$$ = t1 == t2` (`dreal/smt2/parser.yy:290-308`). -/
def mkEq : Term → Term → Outcome Term
  | .expr a, .expr b => .ok (.fml (mkRel .eq a b))
  | .fml f, .fml g => .ok (.fml (eqF f g))
  | _, _ => .throw

/-- `ite` (`dreal/smt2/parser.yy:340-363`). -/
def mkIteT (c : Fml) : Term → Term → Outcome Term
  | .expr a, .expr b => .ok (.expr (mkIte c a b))
  | .fml f, .fml g => .ok (.fml (andF (orF (notF c) f) (orF c g)))
  | _, _ => .throw

/-- `xor` of two (`dreal/smt2/parser.yy:330`). -/
def xorF (f g : Fml) : Fml := orF (andF f (notF g)) (andF (notF f) g)

/-- The loops over formulas (`dreal/smt2/parser.yy:313-333`). -/
def foldFml (op : Fml → Fml → Fml) : Fml → List Term → Outcome Fml
  | f, [] => .ok f
  | f, t :: ts => do
    let g ← t.formula
    foldFml op (op f g) ts

/-- The loops over expressions (`dreal/smt2/parser.yy:407-433`): the first term is only looked at
when there is another. -/
def foldExpr (op : Expr → Expr → Expr) : Term → List Term → Outcome Term
  | t, [] => .ok t
  | t, u :: us => do
    let a ← t.expression
    let b ← u.expression
    foldExpr op (.expr (op a b)) us

mutual
/-- The value of a term and the driver afterwards (`dreal/smt2/parser.yy:288-488`). -/
def tr (use : List Cmd → Nat) : STerm → Drv → Outcome (Term × Drv)
  | .tru, d => .ok (.fml .tt, d)
  | .fls, d => .ok (.fml .ff, d)
  | .num q, d => .ok (.expr (.const q), d)
  | .dec r, d => .ok (.expr (.rconst r), d)
  | .sym n, d => do
    let v ← d.scope.at? n
    if v.type = .boolean then .ok (.fml (.bvar v), d) else .ok (.expr (.var v), d)
  | .eq a b, d => do
    let (x, d) ← tr use a d
    let (y, d) ← tr use b d
    let t ← mkEq x y
    .ok (t, d)
  | .rel o a b, d => do
    let (x, d) ← tr use a d
    let (y, d) ← tr use b d
    let e ← x.expression
    let e' ← y.expression
    .ok (.fml (mkRel o.op e e'), d)
  | .and ts, d => do
    let (xs, d) ← trs use ts d
    let f ← foldFml andF .tt xs
    .ok (.fml f, d)
  | .or ts, d => do
    let (xs, d) ← trs use ts d
    let f ← foldFml orF .ff xs
    .ok (.fml f, d)
  | .xor ts, d => do
    let (xs, d) ← trs use ts d
    let f ← foldFml xorF .ff xs
    .ok (.fml f, d)
  | .not t, d => do
    let (x, d) ← tr use t d
    let f ← x.formula
    .ok (.fml (notF f), d)
  | .imp a b, d => do
    let (x, d) ← tr use a d
    let (y, d) ← tr use b d
    let f ← x.formula
    let g ← y.formula
    .ok (.fml (orF (notF f) g), d)
  | .ite c a b, d => do
    let (z, d) ← tr use c d
    let (x, d) ← tr use a d
    let (y, d) ← tr use b d
    let f ← z.formula
    let t ← mkIteT f x y
    .ok (t, d)
  | .all bs body, d => do
    let (vs, d) := registerAll bs d.pushScope
    let dom ← domain bs vs
    let (x, d) ← tr use body d
    let d ← d.popScope
    let f ← x.formula
    .ok (.fml (mkForall vs dom f), d)
  | .let_ ns ts body, d => do
    let (xs, d) ← trs use ts d.pushScope
    let d := bindLoop use (ns.zip xs).reverse d
    let (x, d) ← tr use body d
    let d ← d.popScope
    .ok (x, d)
  | .add t ts, d => do
    let (x, d) ← tr use t d
    let (xs, d) ← trs use ts d
    let r ← foldExpr .add x xs
    .ok (r, d)
  | .neg t, d => do
    let (x, d) ← tr use t d
    let e ← x.expression
    .ok (.expr (.mul (.const (-1)) e), d)
  | .sub t ts, d => do
    let (x, d) ← tr use t d
    let (xs, d) ← trs use ts d
    let r ← foldExpr Expr.sub x xs
    .ok (r, d)
  | .mul t ts, d => do
    let (x, d) ← tr use t d
    let (xs, d) ← trs use ts d
    let r ← foldExpr .mul x xs
    .ok (r, d)
  | .div t ts, d => do
    let (x, d) ← tr use t d
    let (xs, d) ← trs use ts d
    let r ← foldExpr (.app2 .div) x xs
    .ok (r, d)
  | .fn1 f t, d => do
    let (x, d) ← tr use t d
    let e ← x.expression
    .ok (.expr (.app1 f e), d)
  | .fn2 f a b, d => do
    let (x, d) ← tr use a d
    let (y, d) ← tr use b d
    let e ← x.expression
    let e' ← y.expression
    .ok (.expr (.app2 f e e'), d)
  | .call n ts, d => do
    let (xs, d) ← trs use ts d
    match d.funs.map n with
    | none => .throw
    | some fd => do
      let r ← fd.apply xs
      .ok (r, d)
/-- `term_list`, and the terms of `var_binding_list` (`dreal/smt2/parser.yy:284-286, 565-577`), in
order. -/
def trs (use : List Cmd → Nat) : List STerm → Drv → Outcome (List Term × Drv)
  | [], d => .ok ([], d)
  | t :: ts, d => do
    let (x, d) ← tr use t d
    let (xs, d) ← trs use ts d
    .ok (x :: xs, d)
end

/-- The commands that matter for the problem posed (`dreal/smt2/parser.yy:130-282`): the others
set options or print.  Simplified: the bounds of a declaration are the doubles that evaluating
them gives. -/
inductive SCmd where
  | declare (n : String) (s : Srt) (dom : Option (EQ × EQ))
  | define (n : String) (ps : List (String × Srt)) (ret : Srt) (body : STerm)
  | assert (t : STerm)
  | check
  | push (n : Int)
  | pop (n : Int)

/-- `name_sort_list` (`dreal/smt2/parser.yy:519-530`). -/
def declareParams (use : List Cmd → Nat) : List (String × Srt) → Drv → List Variable × Drv
  | [], d => ([], d)
  | (n, s) :: ps, d =>
    let (v, d) := d.declareLocal use n s
    let (vs, d) := declareParams use ps d
    (v :: vs, d)

/-- `v == term` for a definition without parameters (`dreal/smt2/parser.yy:180-184`): using a
variable as a formula throws unless it is Boolean, and as an expression if it is
(`symbolic/symbolic_formula_cell.cc:177-194`, `symbolic/symbolic_expression_cell.cc:313-334`). -/
def mkDef (v : Variable) : Term → Outcome Fml
  | .fml f => if v.type = .boolean then .ok (eqF (.bvar v) f) else .throw
  | .expr e => if v.type = .boolean then .throw else .ok (mkRel .eq (.var v) e)

/-- One command (`dreal/smt2/parser.yy:148-191, 274-282`). -/
def step (use : List Cmd → Nat) (d : Drv) : SCmd → Outcome Drv
  | .declare n s none => .ok (d.declare use n s).2
  | .declare n s (some (l, u)) =>
    let (v, d) := d.declare use n s
    .ok (d.call use (.setInterval v l u))
  | .define n ps ret body => do
    let (vs, d) := declareParams use ps d.pushScope
    let (x, d) ← tr use body d
    let d ← d.popScope
    if vs.isEmpty then
      let (v, d) := d.declare use n ret
      let f ← mkDef v x
      .ok (d.call use (.assert f))
    else .ok { d with funs := d.funs.insert n ⟨vs, ret, x⟩ }
  | .assert t => do
    let (x, d) ← tr use t d
    let f ← x.formula
    .ok (d.call use (.assert f))
  | .check => .ok (d.call use .check)
  | .push n => if n ≤ 0 then .throw else
      .ok ((List.replicate n.toNat Cmd.push).foldl (Drv.call use) d)
  | .pop n => if n ≤ 0 then .throw else
      .ok ((List.replicate n.toNat Cmd.pop).foldl (Drv.call use) d)

/-- A script (`dreal/smt2/parser.yy:123-146`).  The calls on the context are recorded; what they do
is modelled in `Session.lean`. -/
def run (use : List Cmd → Nat) : List SCmd → Drv → Outcome Drv
  | [], d => .ok d
  | c :: cs, d => do
    let d ← step use d c
    run use cs d

end Verif.Model.Smt2
