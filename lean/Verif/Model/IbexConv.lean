import Verif.Model.ExprNorm

/-!
# From formulas to the constraints of IBEX

Models `dreal/util/ibex_converter.cc`, on the cells of expressions and formulas.
-/

namespace Verif.Model

/-- The expressions of IBEX that are built (`dreal/util/ibex_converter.cc`).  Symbols are given by
their place in the array of variables (`dreal/util/ibex_converter.h:151`), constants are
intervals.  The three kinds of powers with exponents that are not integers are the overloads named
in `dreal/util/ibex_converter.cc:196-203`. -/
inductive INode where
  | sym (k : Nat)
  | const (lb ub : ℚ)
  | add (a b : INode)
  | sub (a b : INode)
  | mul (a b : INode)
  | div (a b : INode)
  | powInt (a : INode) (q : ℚ)
  | powDbl (a : INode) (q : ℚ)
  | powCst (q : ℚ) (b : INode)
  | powExp (a b : INode)
  | un (f : Fn1) (a : INode)
  | bin (f : Fn2) (a b : INode)
  deriving DecidableEq

/-- The comparisons of IBEX that are built (`dreal/util/ibex_converter.cc:345-385`). -/
inductive ICmp where
  | eq | lt | leq | gt | geq
  deriving DecidableEq

/-- `ibex::ExprCtr`: the expression compared with zero. -/
structure ICtr where
  node : INode
  cmp : ICmp
  deriving DecidableEq

/-- `symbolic_var_to_ibex_var_.find` (`dreal/util/ibex_converter.cc:133`), where the symbol made for
the variable is given by its place (lines 72-82). -/
def placeOf (i : Nat) : List Nat → Option Nat
  | [] => none
  | j :: js => if j = i then some 0 else (placeOf i js).map (· + 1)

mutual
/-- `IbexConverter::Visit(const Expression&)` (`dreal/util/ibex_converter.cc:127-129`) and the
functions it dispatches to (lines 131-191,226-324); NaN throws in
`symbolic/symbolic_expression_visitor.h:166-167`.  `ids` are the ids of the variables of the box.
The first number bounds the depth.  A null pointer instead of an expression is undefined behaviour:
the callers dereference it. -/
def convC (A : Arith) (ids : List Nat) : Nat → Cell → Run INode
  | 0, _ => .oof
  | n + 1, e =>
    match e with
    | .const q => .ok (.const q q)
    | .rconst l u _ => .ok (.const l u)
    | .var i =>
      match placeOf i ids with
      | some k => .ok (.sym k)
      | none => .throw
    | .add c ts => convT A ids n (if c ≠ 0 then some (.const c c) else none) ts
    | .mul c fs => convG A ids n (if c ≠ 1 then some (.const c c) else none) fs
    | .un f a => do
      let x ← convC A ids n a
      .ok (.un f x)
    | .bin .div a b => do
      let x ← convC A ids n a
      let y ← convC A ids n b
      .ok (.div x y)
    | .bin .pow a b => convP A ids n a b
    | .bin f a b => do
      let x ← convC A ids n a
      let y ← convC A ids n b
      .ok (.bin f x y)
    | .ite .. => .throw
    | .nan => .throw
    | .uf .. => .throw
/-- The loop of `VisitAddition` (`dreal/util/ibex_converter.cc:167-190`). -/
def convT (A : Arith) (ids : List Nat) : Nat → Option INode → CTerms → Run INode
  | 0, _, _ => .oof
  | n + 1, ret, ts =>
    match ts with
    | .nil =>
      match ret with
      | some r => .ok r
      | none => .ub
    | .cons e q ts =>
      if q = 1 then do
        let x ← convC A ids n e
        match ret with
        | some r => convT A ids n (some (.add r x)) ts
        | none => convT A ids n (some x) ts
      else if q = -1 then
        match ret with
        | some r => do
          let x ← convC A ids n e
          convT A ids n (some (.sub r x)) ts
        | none => do
          let m ← negE A n e
          let x ← convC A ids n m
          convT A ids n (some x) ts
      else do
        let x ← convC A ids n e
        match ret with
        | some r => convT A ids n (some (.add r (.mul (.const q q) x))) ts
        | none => convT A ids n (some (.mul (.const q q) x)) ts
/-- The loop of `VisitMultiplication` (`dreal/util/ibex_converter.cc:232-241`). -/
def convG (A : Arith) (ids : List Nat) : Nat → Option INode → CFactors → Run INode
  | 0, _, _ => .oof
  | n + 1, ret, fs =>
    match fs with
    | .nil =>
      match ret with
      | some r => .ok r
      | none => .ub
    | .cons b e fs => do
      let x ← convP A ids n b e
      match ret with
      | some r => convG A ids n (some (.mul r x)) fs
      | none => convG A ids n (some x) fs
/-- `ProcessPow` (`dreal/util/ibex_converter.cc:193-224`).  The exponent of an integer power is kept
as a rational. -/
def convP (A : Arith) (ids : List Nat) : Nat → Cell → Cell → Run INode
  | 0, _, _ => .oof
  | n + 1, a, b =>
    match b with
    | .const q => do
      let x ← convC A ids n a
      if isInt32 q then .ok (.powInt x q)
      else if q = 1 / 2 then .ok (.un .sqrt x)
      else .ok (.powDbl x q)
    | b =>
      match a with
      | .const q => do
        let y ← convC A ids n b
        .ok (.powCst q y)
      | a => do
        let x ← convC A ids n a
        let y ← convC A ids n b
        .ok (.powExp x y)
end

/-- The expression of a relation, compared with zero (`dreal/util/ibex_converter.cc:348,362,364,
371,373`). -/
def convRel (A : Arith) (ids : List Nat) (n : Nat) (c : ICmp) (a b : Cell) : Run (Option ICtr) := do
  let d ← minusE A n a b
  let x ← convC A ids n d
  .ok (some ⟨x, c⟩)

/-- `IbexConverter::Visit(const Formula&, bool)` (`dreal/util/ibex_converter.cc:328-331`) and the
functions it dispatches to (lines 333-403).  A null pointer is `none`. -/
def convF (A : Arith) (ids : List Nat) (n : Nat) : FCell → Bool → Run (Option ICtr)
  | .ff, _ => .throw
  | .tt, _ => .ok none
  | .var _, _ => .throw
  | .rel .eq a b, pol => if pol then convRel A ids n .eq a b else .ok none
  | .rel .neq a b, pol => if pol then .ok none else convRel A ids n .eq a b
  | .rel .gt a b, pol => convRel A ids n (if pol then .gt else .leq) a b
  | .rel .geq a b, pol => convRel A ids n (if pol then .geq else .lt) a b
  | .rel .lt a b, pol => convRel A ids n (if pol then .lt else .geq) a b
  | .rel .leq a b, pol => convRel A ids n (if pol then .leq else .gt) a b
  | .conj _, _ => .throw
  | .disj _, _ => .throw
  | .neg f, pol => convF A ids n f !pol
  | .all .., _ => .throw

/-- `IbexConverter::Convert(const Formula&)` (`dreal/util/ibex_converter.cc:97-108`). -/
def convert (A : Arith) (ids : List Nat) (n : Nat) (f : FCell) : Run (Option ICtr) :=
  convF A ids n f true

end Verif.Model
