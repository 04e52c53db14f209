import Mathlib.Data.Rat.Defs
import Mathlib.Algebra.Order.Ring.Rat

/-!
# Symbolic expressions and formulas

Models the data types of
`third_party/com_github_robotlocomotion_drake/dreal/symbolic/` (below: `symbolic/`):
`symbolic_variable.h`, `symbolic_expression.h`, `symbolic_formula.h`.
-/

namespace Verif.Model

/-- `Variable::Type` (`symbolic/symbolic_variable.h:22-27`). -/
inductive VType where
  | continuous | integer | binary | boolean
deriving DecidableEq, Repr, Inhabited

/-- `Variable` (`symbolic/symbolic_variable.h:17,93-101`): identity is the id
(`equal_to`, line 85).  Names are not part of the model; the type is a function of the id in
every run because ids are handed out once (`symbolic/symbolic_variable.cc:23-29`). -/
structure Variable where
  id : Nat
  type : VType := .continuous
deriving DecidableEq, Repr, Inhabited

/-- The six relational formula kinds (`symbolic/symbolic_formula.h:25-30`). -/
inductive RelOp where
  | eq | neq | gt | geq | lt | leq
deriving DecidableEq, Repr

/-- Unary function kinds (`symbolic/symbolic_expression.h:32-46`). -/
inductive Fn1 where
  | log | abs | exp | sqrt | sin | cos | tan | asin | acos | atan | sinh | cosh | tanh
deriving DecidableEq, Repr

/-- Binary function kinds (`symbolic/symbolic_expression.h:31,36,43,47,48`). -/
inductive Fn2 where
  | div | pow | atan2 | min | max
deriving DecidableEq, Repr

/-- A real constant (`symbolic/symbolic_expression.h:27`): the code stores the enclosing
doubles `lb`, `ub` and a flag that tells which of them is the representative.  `exact` is a
ghost value: the number the user wrote.  No definition modelling code reads `exact`. -/
structure RConst where
  lb : ℚ
  ub : ℚ
  useLb : Bool
  exact : ℚ
deriving DecidableEq, Repr

mutual
/-- Expressions (`symbolic/symbolic_expression.h:25-53`).  Simplified: sums and products are
binary here (the C++ normal forms `c0 + Σ ci ei`, `c Π bi^ei` are modelled separately in
`ExprNorm.lean`); doubles are rationals; `NaN` and uninterpreted functions are left out. -/
inductive Expr where
  | const (q : ℚ)
  | rconst (r : RConst)
  | var (v : Variable)
  | add (a b : Expr)
  | mul (a b : Expr)
  | app1 (f : Fn1) (a : Expr)
  | app2 (f : Fn2) (a b : Expr)
  | ite (c : Fml) (t e : Expr)
/-- Formulas (`symbolic/symbolic_formula.h:21-35`).  The operands of conjunctions and
disjunctions are `std::set`s in C++; here they are lists without repetition, kept in insertion
order. -/
inductive Fml where
  | ff
  | tt
  | bvar (v : Variable)
  | rel (op : RelOp) (a b : Expr)
  | conj (fs : List Fml)
  | disj (fs : List Fml)
  | neg (f : Fml)
  | all (vs : List Variable) (f : Fml)
end

instance : Inhabited Expr := ⟨.const 0⟩
instance : Inhabited Fml := ⟨.tt⟩

mutual
/-- `Expression::EqualTo` (`symbolic/symbolic_expression.cc`, per-cell `EqualTo` in
`symbolic_expression_cell.cc`): structural equality.  The hash comparison that precedes it is
an optimisation. -/
def Expr.beq : Expr → Expr → Bool
  | .const p, .const q => p == q
  | .rconst r, .rconst s => r == s
  | .var v, .var w => v == w
  | .add a b, .add c d => a.beq c && b.beq d
  | .mul a b, .mul c d => a.beq c && b.beq d
  | .app1 f a, .app1 g b => f == g && a.beq b
  | .app2 f a b, .app2 g c d => f == g && (a.beq c && b.beq d)
  | .ite c a b, .ite c' a' b' => c.beq c' && (a.beq a' && b.beq b')
  | _, _ => false
/-- `Formula::EqualTo` (`symbolic/symbolic_formula.cc:82-98`): structural equality. -/
def Fml.beq : Fml → Fml → Bool
  | .ff, .ff => true
  | .tt, .tt => true
  | .bvar v, .bvar w => v == w
  | .rel o a b, .rel p c d => o == p && (a.beq c && b.beq d)
  | .conj fs, .conj gs => Fml.beqList fs gs
  | .disj fs, .disj gs => Fml.beqList fs gs
  | .neg f, .neg g => f.beq g
  | .all vs f, .all ws g => vs == ws && f.beq g
  | _, _ => false
def Fml.beqList : List Fml → List Fml → Bool
  | [], [] => true
  | f :: fs, g :: gs => f.beq g && Fml.beqList fs gs
  | _, _ => false
end

mutual
theorem Expr.beq_iff : ∀ a b : Expr, a.beq b = true ↔ a = b
  | .const p, b => by cases b <;> simp [Expr.beq]
  | .rconst r, b => by cases b <;> simp [Expr.beq]
  | .var v, b => by cases b <;> simp [Expr.beq]
  | .add a1 a2, b => by cases b <;> simp [Expr.beq, Expr.beq_iff a1, Expr.beq_iff a2]
  | .mul a1 a2, b => by cases b <;> simp [Expr.beq, Expr.beq_iff a1, Expr.beq_iff a2]
  | .app1 f a, b => by cases b <;> simp [Expr.beq, Expr.beq_iff a]
  | .app2 f a1 a2, b => by cases b <;> simp [Expr.beq, Expr.beq_iff a1, Expr.beq_iff a2]
  | .ite c a1 a2, b => by
    cases b <;> simp [Expr.beq, Fml.beq_iff c, Expr.beq_iff a1, Expr.beq_iff a2]
theorem Fml.beq_iff : ∀ a b : Fml, a.beq b = true ↔ a = b
  | .ff, b => by cases b <;> simp [Fml.beq]
  | .tt, b => by cases b <;> simp [Fml.beq]
  | .bvar v, b => by cases b <;> simp [Fml.beq]
  | .rel o a1 a2, b => by cases b <;> simp [Fml.beq, Expr.beq_iff a1, Expr.beq_iff a2]
  | .conj fs, b => by cases b <;> simp [Fml.beq, Fml.beqList_iff fs]
  | .disj fs, b => by cases b <;> simp [Fml.beq, Fml.beqList_iff fs]
  | .neg f, b => by cases b <;> simp [Fml.beq, Fml.beq_iff f]
  | .all vs f, b => by cases b <;> simp [Fml.beq, Fml.beq_iff f]
theorem Fml.beqList_iff : ∀ a b : List Fml, Fml.beqList a b = true ↔ a = b
  | [], b => by cases b <;> simp [Fml.beqList]
  | f :: fs, b => by cases b <;> simp [Fml.beqList, Fml.beq_iff f, Fml.beqList_iff fs]
end

instance : DecidableEq Expr := fun a b => decidable_of_iff _ (Expr.beq_iff a b)
instance : DecidableEq Fml := fun a b => decidable_of_iff _ (Fml.beq_iff a b)

mutual
/-- Variables of an expression (`symbolic/symbolic_expression_cell.cc`, `GetVariables`). -/
def Expr.vars : Expr → List Variable
  | .const _ => []
  | .rconst _ => []
  | .var v => [v]
  | .add a b => a.vars ++ b.vars
  | .mul a b => a.vars ++ b.vars
  | .app1 _ a => a.vars
  | .app2 _ a b => a.vars ++ b.vars
  | .ite c a b => c.fv ++ (a.vars ++ b.vars)
/-- Free variables of a formula (`symbolic/symbolic_formula_cell.cc`, `GetFreeVariables`). -/
def Fml.fv : Fml → List Variable
  | .ff => []
  | .tt => []
  | .bvar v => [v]
  | .rel _ a b => a.vars ++ b.vars
  | .conj fs => Fml.fvList fs
  | .disj fs => Fml.fvList fs
  | .neg f => f.fv
  | .all vs f => f.fv.filter (fun v => v ∉ vs)
def Fml.fvList : List Fml → List Variable
  | [] => []
  | f :: fs => f.fv ++ Fml.fvList fs
end

theorem Fml.mem_fvList {v : Variable} {fs : List Fml} :
    v ∈ Fml.fvList fs ↔ ∃ f ∈ fs, v ∈ f.fv := by
  induction fs with
  | nil => simp [Fml.fvList]
  | cons f fs ih => simp [Fml.fvList, ih]

/-- `is_conjunction`-style queries (`symbolic/symbolic_formula.cc:561-590`). -/
def Fml.isConj : Fml → Bool | .conj _ => true | _ => false
def Fml.isDisj : Fml → Bool | .disj _ => true | _ => false
def Fml.isRel : Fml → Bool | .rel .. => true | _ => false
def Fml.isNeg : Fml → Bool | .neg _ => true | _ => false
def Fml.isAll : Fml → Bool | .all .. => true | _ => false
def Fml.isBvar : Fml → Bool | .bvar _ => true | _ => false

/-! ## Construction (`symbolic/symbolic_formula.cc`) -/

/-- `std::set::insert` on an operand set. -/
def insertF (f : Fml) (s : List Fml) : List Fml := if f ∈ s then s else s ++ [f]

/-- `MergeConjunction` (`symbolic/symbolic_formula.cc:178-186`). -/
def mergeConj (f : Fml) (s : List Fml) : List Fml :=
  match f with
  | .conj gs => gs.foldl (fun s g => insertF g s) s
  | f => insertF f s

/-- `Formula::make_conjunction(f1, f2)` = `f1 && f2` (`symbolic/symbolic_formula.cc:190-223`); the
in-place variant for unshared cells gives the same value. -/
def andF (f1 f2 : Fml) : Fml :=
  if f1 = .ff then f1
  else if f2 = .ff then .ff
  else if f1 = .tt then f2
  else if f2 = .tt then f1
  else if f1 = f2 then f1
  else match f1, f2 with
    | .conj ops, f2 => .conj (mergeConj f2 ops)
    | f1, .conj ops => .conj (mergeConj f1 ops)
    | f1, f2 => .conj (insertF f2 (insertF f1 []))

/-- The loop of `make_conjunction(set)` (`symbolic/symbolic_formula.cc:226-247`); `none` is the
short-circuit to False. -/
def conjLoop : List Fml → List Fml → Option (List Fml)
  | [], ops => some ops
  | f :: fs, ops =>
    if f = .ff then none
    else if f = .tt then conjLoop fs ops
    else conjLoop fs (mergeConj f ops)

/-- `make_conjunction(set)` (`symbolic/symbolic_formula.cc:225-257`). -/
def mkConj (fs : List Fml) : Fml :=
  match conjLoop fs [] with
  | none => .ff
  | some [] => .tt
  | some [f] => f
  | some ops => .conj ops

/-- `MergeDisjunction` (`symbolic/symbolic_formula.cc:306-314`). -/
def mergeDisj (f : Fml) (s : List Fml) : List Fml :=
  match f with
  | .disj gs => gs.foldl (fun s g => insertF g s) s
  | f => insertF f s

/-- `Formula::make_disjunction(f1, f2)` = `f1 || f2` (`symbolic/symbolic_formula.cc:318-351`). -/
def orF (f1 f2 : Fml) : Fml :=
  if f1 = .tt then f1
  else if f2 = .tt then .tt
  else if f1 = .ff then f2
  else if f2 = .ff then f1
  else if f1 = f2 then f1
  else match f1, f2 with
    | .disj ops, f2 => .disj (mergeDisj f2 ops)
    | f1, .disj ops => .disj (mergeDisj f1 ops)
    | f1, f2 => .disj (insertF f2 (insertF f1 []))

/-- The loop of `make_disjunction(set)` (`symbolic/symbolic_formula.cc:354-375`). -/
def disjLoop : List Fml → List Fml → Option (List Fml)
  | [], ops => some ops
  | f :: fs, ops =>
    if f = .tt then none
    else if f = .ff then disjLoop fs ops
    else disjLoop fs (mergeDisj f ops)

/-- `make_disjunction(set)` (`symbolic/symbolic_formula.cc:353-385`). -/
def mkDisj (fs : List Fml) : Fml :=
  match disjLoop fs [] with
  | none => .tt
  | some [] => .ff
  | some [f] => f
  | some ops => .disj ops

/-- `operator!` (`symbolic/symbolic_formula.cc:432-444`). -/
def notF (f : Fml) : Fml :=
  if f = .tt then .ff
  else if f = .ff then .tt
  else match f with
    | .neg g => g
    | f => .neg f

/-- `forall` (`symbolic/symbolic_formula.cc:173-175`). -/
def forallF (vs : List Variable) (f : Fml) : Fml := .all (vs.filter (fun v => v ∈ f.fv)) f

/-- `imply` (`dreal/symbolic/symbolic.cc:39`). -/
def implyF (f1 f2 : Fml) : Fml := orF (notF f1) f2

/-- `iff` (`dreal/symbolic/symbolic.cc:50-52`). -/
def iffF (f1 f2 : Fml) : Fml := andF (implyF f1 f2) (implyF f2 f1)

/-- `operator==(Formula, Formula)` (`symbolic/symbolic_formula.cc:478-480`). -/
def eqF (f1 f2 : Fml) : Fml := andF (orF (notF f1) f2) (orF (notF f2) f1)

/-! ### Relations -/

/-- A linear form: constant and coefficient per non-constant term. -/
abbrev LinForm := ℚ × List (Expr × ℚ)

/-- Add `c * t` to a coefficient table, dropping a term whose coefficient becomes zero
(`ExpressionAddFactory::AddTerm`, `symbolic_expression_cell.cc`). -/
def addTerm (t : Expr) (c : ℚ) : List (Expr × ℚ) → List (Expr × ℚ)
  | [] => if c = 0 then [] else [(t, c)]
  | (u, d) :: l =>
    if t = u then (if c + d = 0 then l else (u, c + d) :: l) else (u, d) :: addTerm t c l

def LinForm.add (l m : LinForm) : LinForm :=
  (l.1 + m.1, m.2.foldl (fun acc p => addTerm p.1 p.2 acc) l.2)

def LinForm.scale (c : ℚ) (l : LinForm) : LinForm :=
  if c = 0 then (0, []) else (c * l.1, l.2.map fun p => (p.1, c * p.2))

/-- The sum normal form of an expression as far as it matters for constant folding of
relations: `c0 + Σ ci * ti` with non-constant terms `ti` compared structurally
(`ExpressionAddFactory`, `symbolic_expression_cell.cc`). -/
def Expr.lin : Expr → LinForm
  | .const q => (q, [])
  | .add a b => a.lin.add b.lin
  | .mul (.const c) b => b.lin.scale c
  | e => (0, [(e, 1)])

/-- `e1 - e2` as built by `operator-` (`symbolic/symbolic_expression.cc:387-427`). -/
def Expr.sub (a b : Expr) : Expr := .add a (.mul (.const (-1)) b)

/-- The test `diff.get_kind() == Constant` of the relational operators
(`symbolic/symbolic_formula.cc:469-476, 506-513, 525-559`) and the constant.  Simplified: which
differences the C++ simplifier recognises as constant is approximated by the linear normal
form; constant arithmetic is exact. -/
def constDiff (a b : Expr) : Option ℚ :=
  match (a.sub b).lin with
  | (c, []) => some c
  | _ => none

/-- Comparison of a constant with zero (`symbolic/symbolic_formula.cc:473,510,529,538,547,556`). -/
def RelOp.testZero : RelOp → ℚ → Bool
  | .eq, c => c = 0
  | .neq, c => c ≠ 0
  | .gt, c => 0 < c
  | .geq, c => 0 ≤ c
  | .lt, c => c < 0
  | .leq, c => c ≤ 0

/-- The relational operators on expressions (`symbolic/symbolic_formula.cc:469-476, 506-513, 525-559`). -/
def mkRel (op : RelOp) (a b : Expr) : Fml :=
  match constDiff a b with
  | some c => if op.testZero c then .tt else .ff
  | none => .rel op a b

/-- `operator!(RelationalOperator)` (`dreal/symbolic/symbolic.cc`). -/
def RelOp.neg : RelOp → RelOp
  | .eq => .neq
  | .neq => .eq
  | .gt => .leq
  | .geq => .lt
  | .lt => .geq
  | .leq => .gt

end Verif.Model
