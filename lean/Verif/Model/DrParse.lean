import Verif.Model.Dr

/-!
# The grammar of the `dr` format

Models the grammar of `dreal/dr/parser.yy` on tokens.  The parser that `bison` generates from it is a
shift-reduce parser; its tables are not in the source, so the model has the rules, the declared
precedences and the way `bison` resolves conflicts with them, on a stack of symbols instead of
states.
-/

namespace Verif.Model.DrParse
open Verif Verif.Model Verif.Model.Dr

/-- Tokens (`dreal/dr/parser.yy:61-73`, `dreal/dr/scanner.ll:80-123`).  `other` is a character that is
passed to the parser as it is. -/
inductive Tok where
  | var | cost | prec | ctr
  | plus | minus | times | div
  | eq | le | ge | lt | gt
  | fn1 (f : Fn1) | fn2 (f : Fn2) | caret
  | and | or | not | implies
  | lb | rb | colon | comma | semi
  | num (q : ℚ) | id (n : String)
  | lp | rp | other (c : Char)
deriving DecidableEq

/-- `%left`, `%right`, `%nonassoc`. -/
inductive Assoc where
  | left | right | non
deriving DecidableEq, Repr

/-- Declared precedences (`dreal/dr/parser.yy:78-87`), the highest last. -/
def declared : Tok → Option (Nat × Assoc)
  | .eq | .lt | .gt => some (1, .non)
  | .plus | .minus => some (2, .left)
  | .times | .div => some (3, .left)
  | .caret => some (5, .right)
  | .implies => some (6, .right)
  | .or => some (7, .left)
  | .and => some (8, .left)
  | .not => some (9, .left)
  | _ => none

/-- `%prec UMINUS` (`dreal/dr/parser.yy:81,195`). -/
def uminus : Nat × Assoc := (4, .left)

/-- Rules `expr: expr TK expr` (`dreal/dr/parser.yy:194,196-198,216`). -/
def binary : Tok → Option (DExpr → DExpr → DExpr)
  | .plus => some .add
  | .minus => some .sub
  | .times => some .mul
  | .div => some (.fn2 .div)
  | .caret => some (.fn2 .pow)
  | _ => none

/-- Rules `formula: expr TK expr` (`dreal/dr/parser.yy:169-173`). -/
def relation : Tok → Option DRel
  | .eq => some .eq
  | .lt => some .lt
  | .le => some .le
  | .gt => some .gt
  | .ge => some .ge
  | _ => none

/-- Rules `formula: formula TK formula` (`dreal/dr/parser.yy:174-176`). -/
def connective : Tok → Option (DFml → DFml → DFml)
  | .and => some .and
  | .or => some .or
  | .implies => some .imp
  | _ => none

/-- How `bison` decides between reducing a rule and shifting a token, by precedence and then by
associativity: whether it reduces.  Without a precedence it shifts. -/
def resolve (rule tok : Option (Nat × Assoc)) : Bool :=
  match rule, tok with
  | some r, some t => decide (t.1 < r.1) || (decide (t.1 = r.1) && decide (t.2 = .left))
  | _, _ => false

/-- Whether a rule for `expr` is reduced before the next token: there is a conflict only with a token
that can follow `expr` inside a longer one. -/
def reducesE (rule : Option (Nat × Assoc)) : Option Tok → Bool
  | some t => if (binary t).isSome then resolve rule (declared t) else true
  | none => true

/-- The same for rules for `formula`. -/
def reducesF (rule : Option (Nat × Assoc)) : Option Tok → Bool
  | some t => if (connective t).isSome then resolve rule (declared t) else true
  | none => true

/-- Symbols on the stack. -/
inductive Sym where
  | tok (t : Tok)
  | ex (e : DExpr)
  | fm (f : DFml)

/-- The rule reduced before the next token, if any, on a stack with its top first
(`dreal/dr/parser.yy:168-218`).  Rules with a single number or name are reduced by `shift`.  A rule
`formula: expr TK expr` is not reduced before a token that continues the expression. -/
def reduce (la : Option Tok) : List Sym → Option (List Sym)
  | .ex b :: .tok o :: .ex a :: σ =>
    match binary o with
    | some k => if reducesE (declared o) la then some (.ex (k a b) :: σ) else none
    | none =>
      match relation o with
      | some r =>
        if (la.bind binary).isSome then none else some (.fm (.rel r a b) :: σ)
      | none => none
  | .ex a :: .tok .minus :: σ =>
    if reducesE (some uminus) la then some (.ex (.neg a) :: σ) else none
  | .fm g :: .tok o :: .fm f :: σ =>
    match connective o with
    | some k => if reducesF (declared o) la then some (.fm (k f g) :: σ) else none
    | none => none
  | .fm f :: .tok .not :: σ =>
    if reducesF (declared .not) la then some (.fm (.not f) :: σ) else none
  | .tok .rp :: .ex e :: .tok .lp :: .tok (.fn1 f) :: σ => some (.ex (.fn1 f e) :: σ)
  | .tok .rp :: .ex b :: .tok .comma :: .ex a :: .tok .lp :: .tok (.fn2 f) :: σ =>
    some (.ex (.fn2 f a b) :: σ)
  | .tok .rp :: .ex e :: .tok .lp :: σ => some (.ex e :: σ)
  | .tok .rp :: .fm f :: .tok .lp :: σ => some (.fm f :: σ)
  | _ => none

/-- Whether the token can be shifted, within an expression or a formula. -/
def canShift : List Sym → Tok → Bool
  | .ex _ :: σ, t =>
    (binary t).isSome || (relation t).isSome ||
    match t, σ with
    | .comma, .tok .lp :: .tok (.fn2 _) :: _ => true
    | .rp, .tok .lp :: _ => true
    | .rp, .tok .comma :: _ => true
    | _, _ => false
  | .fm _ :: σ, t =>
    (connective t).isSome ||
    match t, σ with
    | .rp, .tok .lp :: _ => true
    | _, _ => false
  | _, t =>
    match t with
    | .num _ | .id _ | .fn1 _ | .fn2 _ | .lp | .minus | .not => true
    | _ => false

/-- Push a token; numbers and names are reduced at once (`dreal/dr/parser.yy:184-193`). -/
def shift (σ : List Sym) : Tok → List Sym
  | .num q => .ex (.num q) :: σ
  | .id n => .ex (.id n) :: σ
  | t => .tok t :: σ

/-- The stack and the tokens to come. -/
abbrev Config := List Sym × List Tok

/-- One step; none if the parser is at the end of the expression or formula, or at an error. -/
def step : Config → Option Config
  | (σ, ts) =>
    match reduce ts.head? σ with
    | some σ' => some (σ', ts)
    | none =>
      match ts with
      | [] => none
      | t :: ts => if canShift σ t then some (shift σ t, ts) else none

/-- Steps until there are no more. -/
def steps : Nat → Config → Config
  | 0, c => c
  | n + 1, c =>
    match step c with
    | none => c
    | some c' => steps n c'

/-- As many steps as there can be. -/
def run (ts : List Tok) : Config := steps (2 * ts.length) ([], ts)

/-- An expression, and the tokens after it. -/
def parseE (ts : List Tok) : Option (DExpr × List Tok) :=
  match run ts with
  | ([.ex e], rest) => some (e, rest)
  | _ => none

/-- A formula, and the tokens after it. -/
def parseF (ts : List Tok) : Option (DFml × List Tok) :=
  match run ts with
  | ([.fm f], rest) => some (f, rest)
  | _ => none

/-- A declaration (`dreal/dr/parser.yy:122-128`).  `ev` is `Evaluate()` on the bounds, none if it throws
(which ends the program). -/
def parseDecl (ev : DExpr → Option EQ) (ts : List Tok) : Option (DDecl × List Tok) :=
  match ts with
  | .lb :: ts =>
    match parseE ts with
    | some (a, .comma :: ts) =>
      match parseE ts with
      | some (b, .rb :: .id n :: .semi :: ts) =>
        match ev a, ev b with
        | some l, some u => some (⟨n, l, u⟩, ts)
        | _, _ => none
      | _ => none
    | _ => none
  | ts =>
    match parseE ts with
    | some (a, .id n :: .semi :: ts) =>
      match ev a with
      | some l => some (⟨n, l, l⟩, ts)
      | none => none
    | _ => none

/-- A constraint (`dreal/dr/parser.yy:144-147`). -/
def parseCtr (ts : List Tok) : Option (DFml × List Tok) :=
  match parseF ts with
  | some (f, .semi :: ts) => some (f, ts)
  | _ => none

/-- A cost (`dreal/dr/parser.yy:160-163`). -/
def parseCost (ts : List Tok) : Option (DExpr × List Tok) :=
  match parseE ts with
  | some (e, .semi :: ts) => some (e, ts)
  | _ => none

/-- A list with at least one item, up to a token that begins another section or the end
(`dreal/dr/parser.yy:118-120,140-142,156-158`). -/
def parseList {α : Type} (item : List Tok → Option (α × List Tok)) :
    Nat → List Tok → Option (List α × List Tok)
  | 0, _ => none
  | n + 1, ts =>
    match item ts with
    | none => none
    | some (a, rest) =>
      match rest with
      | [] | .ctr :: _ | .cost :: _ => some ([a], rest)
      | _ =>
        match parseList item n rest with
        | some (as, rest) => some (a :: as, rest)
        | none => none

/-- A section that may be missing (`dreal/dr/parser.yy:133-138,152-154`). -/
def parseSection {α : Type} (key : Tok) (item : List Tok → Option (α × List Tok)) (ts : List Tok) :
    Option (List α × List Tok) :=
  match ts with
  | k :: .colon :: ts => if k = key then parseList item ts.length ts else some ([], k :: .colon :: ts)
  | ts => some ([], ts)

/-- A problem (`dreal/dr/parser.yy:104-116`). -/
def parse (ev : DExpr → Option EQ) (ts : List Tok) : Option DProb :=
  match ts with
  | .var :: .colon :: ts =>
    match parseList (parseDecl ev) ts.length ts with
    | some (ds, ts) =>
      match parseSection .ctr parseCtr ts with
      | some (fs, ts) =>
        match parseSection .cost parseCost ts with
        | some (es, []) => some ⟨ds, fs, es⟩
        | _ => none
      | none => none
    | none => none
  | _ => none

end Verif.Model.DrParse
