import Verif.Model.Cells
import Verif.Model.Smt2

/-!
# The prefix printer, and the parser of SMT-LIB terms

Models `dreal/symbolic/prefix_printer.cc` (below: `prefix_printer.cc`), the words of `dreal/smt2/scanner.ll` and the productions
for terms of `dreal/smt2/parser.yy`.  Simplified: texts are lists of words, so the letters between
them (blanks) are left out and a number is a word with its value.
-/

namespace Verif.Model.Prefix
open Verif Verif.Model Verif.Model.Smt2

/-- A parenthesis, an unsigned number, or any other word. -/
inductive Word where
  | lp
  | rp
  | num (q : ℚ)
  | txt (s : String)
deriving DecidableEq, Repr

/-- Decimal numbers.  `pr` gives the value of the decimal written for a double, with 19 digits
(`dreal/symbolic/prefix_printer.cc:44`, parameter: `ostream`); `mid` is the rounded `lb/2 + ub/2`
(`dreal/symbolic/prefix_printer.cc:66-67`); `dbl` tells whether a number is a double; `lo`, `hi`
are the ends of `StringToInterval` and `near` is `std::stod` (parameters, see `Literal.lean`). -/
structure Numerals where
  pr : ℚ → ℚ
  dbl : ℚ → Bool
  lo : ℚ → ℚ
  hi : ℚ → ℚ
  near : ℚ → ℚ
  mid : ℚ → ℚ → ℚ

/-- `print_constant` (`dreal/symbolic/prefix_printer.cc:30-36`). -/
def printConst (N : Numerals) (c : ℚ) : List Word :=
  if 0 ≤ c then [.num (N.pr c)] else [.lp, .txt "-", .num (N.pr (-c)), .rp]

/-- The names given to `VisitUnaryFunction` (`dreal/symbolic/prefix_printer.cc:139-197`). -/
def fn1Name : Fn1 → String
  | .log => "log" | .abs => "abs" | .exp => "exp" | .sqrt => "sqrt" | .sin => "sin" | .cos => "cos"
  | .tan => "tan" | .asin => "asin" | .acos => "acos" | .atan => "atan" | .sinh => "sinh"
  | .cosh => "cosh" | .tanh => "tanh"

/-- The names given to `VisitBinaryFunction` (`dreal/symbolic/prefix_printer.cc:135-205`). -/
def fn2Name : Fn2 → String
  | .div => "/" | .pow => "^" | .atan2 => "atan2" | .min => "min" | .max => "max"

/-- `is_one` (`symbolic/symbolic_expression.cc:823`), used in `dreal/symbolic/prefix_printer.cc:122`. -/
def isOne : Cell → Bool
  | .const q => q == 1
  | _ => false

mutual
/-- `PrefixPrinter::Print` of an expression (`dreal/symbolic/prefix_printer.cc:49-51, 57-219`); `name` gives the
names of variables.  Visiting a `NaN` throws
(`symbolic/symbolic_expression_visitor.h:50-51`). -/
def printE (N : Numerals) (name : Nat → String) : Cell → Outcome (List Word)
  | .const q => .ok (printConst N q)
  | .rconst l u _ => .ok (printConst N (N.mid l u))
  | .var i => .ok [.txt (name i)]
  | .add c ts => do
    let ws ← printT N name ts
    .ok ([.lp, .txt "+"] ++ (if c ≠ 0 then printConst N c else []) ++ ws ++ [.rp])
  | .mul c fs => do
    let ws ← printG N name fs
    .ok ([.lp, .txt "*"] ++ (if c ≠ 1 then printConst N c else []) ++ ws ++ [.rp])
  | .un f e => do
    let ws ← printE N name e
    .ok ([.lp, .txt (fn1Name f)] ++ ws ++ [.rp])
  | .bin f a b => do
    let ws ← printE N name a
    let us ← printE N name b
    .ok ([.lp, .txt (fn2Name f)] ++ ws ++ us ++ [.rp])
  | .ite c a b => do
    let vs ← printF N name c
    let ws ← printE N name a
    let us ← printE N name b
    .ok ([.lp, .txt "ite"] ++ vs ++ ws ++ us ++ [.rp])
  | .nan => .throw
  | .uf _ _ => .throw
/-- The loop of `VisitAddition` (`dreal/symbolic/prefix_printer.cc:94-108`). -/
def printT (N : Numerals) (name : Nat → String) : CTerms → Outcome (List Word)
  | .nil => .ok []
  | .cons e q ts => do
    let ws ← printE N name e
    let us ← printT N name ts
    .ok ((if q = 1 then ws else [.lp, .txt "*"] ++ printConst N q ++ ws ++ [.rp]) ++ us)
/-- The loop of `VisitMultiplication` (`dreal/symbolic/prefix_printer.cc:118-132`). -/
def printG (N : Numerals) (name : Nat → String) : CFactors → Outcome (List Word)
  | .nil => .ok []
  | .cons b e fs => do
    let ws ← printE N name b
    if isOne e then
      let us ← printG N name fs
      .ok (ws ++ us)
    else
      let vs ← printE N name e
      let us ← printG N name fs
      .ok ([.lp, .txt "^"] ++ ws ++ vs ++ [.rp] ++ us)
/-- `PrefixPrinter::Print` of a formula (`dreal/symbolic/prefix_printer.cc:53-55, 221-303`). -/
def printF (N : Numerals) (name : Nat → String) : FCell → Outcome (List Word)
  | .ff => .ok [.txt "false"]
  | .tt => .ok [.txt "true"]
  | .var i => .ok [.txt (name i)]
  | .rel op a b => do
    let ws ← printE N name a
    let us ← printE N name b
    match op with
    | .eq => .ok ([.lp, .txt "="] ++ ws ++ us ++ [.rp])
    | .neq => .ok ([.lp, .txt "not", .lp, .txt "="] ++ ws ++ us ++ [.rp, .rp])
    | .gt => .ok ([.lp, .txt ">"] ++ ws ++ us ++ [.rp])
    | .geq => .ok ([.lp, .txt ">="] ++ ws ++ us ++ [.rp])
    | .lt => .ok ([.lp, .txt "<"] ++ ws ++ us ++ [.rp])
    | .leq => .ok ([.lp, .txt "<="] ++ ws ++ us ++ [.rp])
  | .conj fs => do
    let ws ← printL N name fs
    .ok ([.lp, .txt "and"] ++ ws ++ [.rp])
  | .disj fs => do
    let ws ← printL N name fs
    .ok ([.lp, .txt "or"] ++ ws ++ [.rp])
  | .neg f => do
    let ws ← printF N name f
    .ok ([.lp, .txt "not"] ++ ws ++ [.rp])
  | .all _ _ => .throw
/-- The loops of `VisitConjunction` and `VisitDisjunction` (`dreal/symbolic/prefix_printer.cc:277-293`). -/
def printL (N : Numerals) (name : Nat → String) : FCells → Outcome (List Word)
  | .nil => .ok []
  | .cons f fs => do
    let ws ← printF N name f
    let us ← printL N name fs
    .ok (ws ++ us)
end

/-- The tokens of words (`dreal/smt2/scanner.ll:94-171`).  `other` stands for the words that begin
no application of a function or operator: commands, sorts of literals, `let`, `forall`. -/
inductive Tok where
  | plus | minus | times | div | eq | rel (o : SRel) | f1 (f : Fn1) | f2 (f : Fn2)
  | tru | fls | and | or | xor | not | ite | imp | other
  | sym (n : String)

/-- The reserved words that are no operators (`dreal/smt2/scanner.ll:94-133, 159-160`). -/
def reserved : List String := ["!", "BINARY", "DECIMAL", "HEXADECIMAL", "NUMERAL", "STRING", "_", "as",
  "exists", "forall", "let", "par", "assert", "check-sat", "check-sat-assuming", "declare-const",
  "declare-fun", "declare-sort", "define-fun", "define-fun-rec", "define-sort", "echo", "exit",
  "get-assertions", "get-assignment", "get-info", "get-model", "get-option", "get-proof",
  "get-unsat-assumptions", "get-unsat-core", "get-value", "pop", "push", "reset",
  "reset-assertions", "set-info", "set-logic", "set-option", "maximize", "minimize"]

/-- The operators and functions (`dreal/smt2/scanner.ll:135-171`). -/
def operators : List (String × Tok) := [("+", .plus), ("-", .minus), ("*", .times), ("/", .div),
  ("=", .eq), ("<=", .rel .le), (">=", .rel .ge), ("<", .rel .lt), (">", .rel .gt),
  ("exp", .f1 .exp), ("log", .f1 .log), ("abs", .f1 .abs), ("sin", .f1 .sin), ("cos", .f1 .cos),
  ("tan", .f1 .tan), ("asin", .f1 .asin), ("arcsin", .f1 .asin), ("acos", .f1 .acos),
  ("arccos", .f1 .acos), ("atan", .f1 .atan), ("arctan", .f1 .atan), ("atan2", .f2 .atan2),
  ("arctan2", .f2 .atan2), ("sinh", .f1 .sinh), ("cosh", .f1 .cosh), ("tanh", .f1 .tanh),
  ("min", .f2 .min), ("max", .f2 .max), ("sqrt", .f1 .sqrt), ("^", .f2 .pow), ("pow", .f2 .pow),
  ("true", .tru), ("false", .fls), ("and", .and), ("or", .or), ("xor", .xor), ("not", .not),
  ("ite", .ite), ("=>", .imp)]

/-- The scanner on a word (`dreal/smt2/scanner.ll:94-215`). -/
def scan (s : String) : Tok :=
  match operators.lookup s with
  | some t => t
  | none => if s ∈ reserved then .other else .sym s

/-- The productions `DOUBLE` and `INT` (`dreal/smt2/parser.yy:378-390`,
`dreal/smt2/scanner.ll:183-205`, `dreal/util/math.cc:47-56`): an integer of at most 19 digits is
written without a point or an exponent, and has to be at most `2^53`. -/
def lit (N : Numerals) (r : ℚ) : Outcome STerm :=
  if r.den = 1 ∧ r < 10 ^ 19 then if r ≤ 2 ^ 53 then .ok (.num r) else .throw
  else if N.dbl r then .ok (.num r)
  else .ok (.dec ⟨N.lo r, N.hi r, N.lo r == N.near r, r⟩)

/-- The productions for applications (`dreal/smt2/parser.yy:290-488`), without `forall` and
`let`. -/
def applyTok : Tok → List STerm → Outcome STerm
  | .plus, t :: ts => .ok (.add t ts)
  | .minus, [t] => .ok (.neg t)
  | .minus, t :: u :: ts => .ok (.sub t (u :: ts))
  | .times, t :: u :: ts => .ok (.mul t (u :: ts))
  | .div, t :: u :: ts => .ok (.div t (u :: ts))
  | .eq, [a, b] => .ok (.eq a b)
  | .rel o, [a, b] => .ok (.rel o a b)
  | .f1 f, [a] => .ok (.fn1 f a)
  | .f2 f, [a, b] => .ok (.fn2 f a b)
  | .and, t :: ts => .ok (.and (t :: ts))
  | .or, t :: ts => .ok (.or (t :: ts))
  | .xor, t :: ts => .ok (.xor (t :: ts))
  | .not, [t] => .ok (.not t)
  | .ite, [c, a, b] => .ok (.ite c a b)
  | .imp, [a, b] => .ok (.imp a b)
  | .sym n, t :: ts => .ok (.call n (t :: ts))
  | _, _ => .throw

mutual
/-- The parser of terms (`dreal/smt2/parser.yy:288-488`): the term at the front, and what follows
it.  Simplified: `forall` and `let` are not read. -/
def parseT (N : Numerals) : Nat → List Word → Run (STerm × List Word)
  | 0, _ => .oof
  | n + 1, ws => match ws with
    | .num q :: ws => match lit N q with
      | .ok t => .ok (t, ws)
      | _ => .throw
    | .txt s :: ws => match scan s with
      | .tru => .ok (.tru, ws)
      | .fls => .ok (.fls, ws)
      | .sym m => .ok (.sym m, ws)
      | _ => .throw
    | .lp :: .txt s :: ws => match parseL N n ws with
      | .ok (ts, ws) => match applyTok (scan s) ts with
        | .ok t => .ok (t, ws)
        | _ => .throw
      | .throw => .throw
      | .ub => .ub
      | .oof => .oof
    | _ => .throw
/-- Terms up to a closing parenthesis (`dreal/smt2/parser.yy:284-286`). -/
def parseL (N : Numerals) : Nat → List Word → Run (List STerm × List Word)
  | 0, _ => .oof
  | n + 1, ws => match ws with
    | .rp :: ws => .ok ([], ws)
    | ws => match parseT N n ws with
      | .ok (t, ws) => match parseL N n ws with
        | .ok (ts, ws) => .ok (t :: ts, ws)
        | .throw => .throw
        | .ub => .ub
        | .oof => .oof
      | .throw => .throw
      | .ub => .ub
      | .oof => .oof
end

end Verif.Model.Prefix
