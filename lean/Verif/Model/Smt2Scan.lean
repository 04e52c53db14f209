import Verif.Model.DrScan
import Verif.Model.Smt2Parse

/-!
# The scanner of SMT-LIB scripts

Models the rules of `dreal/smt2/scanner.ll`.  The scanner that `flex` generates from them is not in the
source; the model has the rules in their order, and takes the longest match and the first of the
rules that match it, as `flex` specifies.  Patterns are those of `DrScan.lean`.
-/

namespace Verif.Model.Smt2Scan
open Verif Verif.Model Verif.Model.Smt2 Verif.Model.Smt2Parse
open Verif.Model.DrScan (Rx digit letter dot natRx decRx pointRx blankRx lineRx)

/-- `special_char` (`dreal/smt2/scanner.ll:73`). -/
def special (c : Char) : Bool := c ∈ "+-/*=%?!.$_~&^<>@".toList

/-- `sym_begin` (`dreal/smt2/scanner.ll:74`). -/
def symBegin (c : Char) : Bool := letter c || special c

/-- `sym_continue` (`dreal/smt2/scanner.ll:75`). -/
def symChar (c : Char) : Bool := symBegin c || digit c

/-- `hex` (`dreal/smt2/scanner.ll:67`). -/
def hexDigit (c : Char) : Bool := digit c || ('a' ≤ c && c ≤ 'f') || ('A' ≤ c && c ≤ 'F')

/-- What a rule does. -/
inductive Act where
  | skip
  | tok (t : Tok)
  | int
  | dbl
  | hex
  | sym
  | key
  | str
  | quoted
  | char
deriving DecidableEq

/-- The rules for fixed strings that the grammar has (`dreal/smt2/scanner.ll:94-171`). -/
def fixed : List (String × Tok) :=
  [("forall", .all), ("let", .let_),
   ("assert", .assert), ("check-sat", .checkSat), ("declare-const", .declareConst),
   ("declare-fun", .declareFun), ("define-fun", .defineFun), ("exit", .exit),
   ("get-model", .getModel), ("get-option", .getOption), ("get-value", .getValue), ("pop", .pop),
   ("push", .push), ("set-info", .setInfo), ("set-logic", .setLogic), ("set-option", .setOption),
   ("+", .plus), ("-", .minus), ("*", .times), ("/", .div), ("=", .eq), ("<=", .rel .le),
   (">=", .rel .ge), ("<", .rel .lt), (">", .rel .gt), ("exp", .fn1 .exp), ("log", .fn1 .log),
   ("abs", .fn1 .abs), ("sin", .fn1 .sin), ("cos", .fn1 .cos), ("tan", .fn1 .tan),
   ("asin", .fn1 .asin), ("arcsin", .fn1 .asin), ("acos", .fn1 .acos), ("arccos", .fn1 .acos),
   ("atan", .fn1 .atan), ("arctan", .fn1 .atan), ("atan2", .fn2 .atan2), ("arctan2", .fn2 .atan2),
   ("sinh", .fn1 .sinh), ("cosh", .fn1 .cosh), ("tanh", .fn1 .tanh), ("min", .fn2 .min),
   ("max", .fn2 .max), ("maximize", .maximize), ("minimize", .minimize), ("sqrt", .fn1 .sqrt),
   ("^", .fn2 .pow), ("pow", .fn2 .pow), ("true", .tru), ("false", .fls), ("and", .and), ("or", .or),
   ("xor", .xor), ("not", .not), ("ite", .ite), ("=>", .implies)]

/-- The other fixed strings (`dreal/smt2/scanner.ll:94-171`). -/
def reserved : List String :=
  ["!", "BINARY", "DECIMAL", "HEXADECIMAL", "NUMERAL", "STRING", "_", "as", "exists", "par",
   "check-sat-assuming", "declare-sort", "define-fun-rec", "define-sort", "echo", "get-assertions",
   "get-assignment", "get-info", "get-proof", "get-unsat-assumptions", "get-unsat-core", "reset",
   "reset-assertions"]

/-- All fixed strings.  They are different, so that their order does not matter. -/
def strings : List (String × Tok) := fixed ++ reserved.map fun s => (s, .unused s)

/-- `";".*[\n\r]+` (`dreal/smt2/scanner.ll:90-92`). -/
def commentRx : Rx :=
  .seq (.chr ';') (.seq (.star (.cls dot)) (.plus (.cls fun c => c == '\n' || c == '\r')))

/-- `[-+]?` and a pattern. -/
def signed (r : Rx) : Rx := .seq (.opt (.cls fun c => c == '-' || c == '+')) r

/-- `0[xX]({hex}+\.?|{hex}*\.{hex}+)([pP][-+]?[0-9]+)?` (`dreal/smt2/scanner.ll:207`). -/
def hexRx : Rx :=
  .seq (.chr '0') (.seq (.cls fun c => c == 'x' || c == 'X') (.seq
    (.alt (.seq (.plus (.cls hexDigit)) (.opt (.chr '.')))
      (.seq (.star (.cls hexDigit)) (.seq (.chr '.') (.plus (.cls hexDigit)))))
    (.opt (.seq (.cls fun c => c == 'p' || c == 'P')
      (.seq (.opt (.cls fun c => c == '-' || c == '+')) (.plus (.cls digit)))))))

/-- `simple_symbol` (`dreal/smt2/scanner.ll:76`). -/
def symRx : Rx := .seq (.cls symBegin) (.star (.cls symChar))

/-- The rules in their order (`dreal/smt2/scanner.ll:90-245`), without those of the conditions `str`
and `quoted`.  The patterns of numbers without signs are those of the `dr` format. -/
def rules : List (Rx × Act) :=
  (commentRx, .skip) :: strings.map (fun p => (.lit p.1.toList, .tok p.2)) ++
  [(blankRx, .skip), (lineRx, .skip), (signed natRx, .int), (signed decRx, .dbl),
   (signed pointRx, .dbl), (signed hexRx, .hex), (symRx, .sym), (.seq (.chr ':') symRx, .key),
   (.chr '"', .str), (.chr '|', .quoted), (.cls dot, .char)]

/-- The first rule that matches. -/
def firstRule (w : List Char) : List (Rx × Act) → Option Act
  | [] => none
  | (r, a) :: rs => if r.matches? w then some a else firstRule w rs

/-- The longest match, of length `n` or less, and its rule. -/
def munch (s : List Char) : Nat → Option (Nat × Act)
  | 0 => none
  | n + 1 =>
    match firstRule (s.take (n + 1)) rules with
    | some a => some (n + 1, a)
    | none => munch s n

/-- The condition `str` (`dreal/smt2/scanner.ll:222-230`): the text up to the end of the string, and the
rest; none at the end of the input. -/
def strEnd : List Char → List Char → Option (List Char × List Char)
  | _, [] => none
  | w, '"' :: '"' :: s => strEnd (w ++ ['"', '"']) s
  | w, '"' :: s => some (w ++ ['"'], s)
  | w, c :: s => strEnd (w ++ [c]) s

/-- The condition `quoted` (`dreal/smt2/scanner.ll:232-240`).  The action of the backslash does not
keep the text before it. -/
def quotedEnd : List Char → List Char → Option (List Char × List Char)
  | _, [] => none
  | w, '|' :: s => some (w ++ ['|'], s)
  | _, '\\' :: s => quotedEnd [] s
  | w, c :: s => quotedEnd (w ++ [c]) s

/-- The action of a rule on the text `w` it matched, and the rest of the input: tokens and what is to
be read next; none at the end of the input.  `hexVal` is `std::stod`, none if it throws.  As to
characters see `DrScan.Act.tokens` (`dreal/smt2/scanner.ll:90-245`). -/
def Act.run (hexVal : List Char → Option ℚ) (w rest : List Char) : Act → Option (List Tok × List Char)
  | .skip => some ([], rest)
  | .tok t => some ([t], rest)
  | .int =>
    match stol w with
    | .ok z => some ([.int z], rest)
    | _ => some ([.raise], [])
  | .dbl => some ([.dbl w], rest)
  | .hex =>
    match hexVal w with
    | some q => some ([.hex q], rest)
    | none => some ([.raise], [])
  | .sym => some ([.sym (String.ofList w)], rest)
  | .key => some ([.key (String.ofList w)], rest)
  | .str => (strEnd w rest).map fun p => ([.str (String.ofList p.1)], p.2)
  | .quoted => (quotedEnd w rest).map fun p => ([.sym (String.ofList p.1)], p.2)
  | .char =>
    match w with
    | ['('] => some ([.lp], rest)
    | [')'] => some ([.rp], rest)
    | ['['] => some ([.lb], rest)
    | [']'] => some ([.rb], rest)
    | [','] => some ([.comma], rest)
    | [c] => if c.toNat = 0 ∨ 128 ≤ c.toNat then none else some ([.other c], rest)
    | _ => none

/-- The tokens of a text, with fuel for its length. -/
def scanN (hexVal : List Char → Option ℚ) : Nat → List Char → List Tok
  | _, [] => []
  | 0, _ :: _ => []
  | n + 1, s@(_ :: _) =>
    match munch s s.length with
    | none => []
    | some (k, a) =>
      match a.run hexVal (s.take k) (s.drop k) with
      | none => []
      | some (ts, rest) => ts ++ scanN hexVal n rest

/-- The tokens of a text. -/
def scan (hexVal : List Char → Option ℚ) (s : List Char) : List Tok := scanN hexVal s.length s

/-- The commands of a text that are executed, and whether it is accepted
(`dreal/smt2/driver.cc:78-88`). -/
def readScript (hexVal : List Char → Option ℚ) (A : Actions) (text : String) : List PCmd × Bool :=
  script A (scan hexVal text.toList)

/-- The reader of scripts for the program.  Simplified: scripts with objectives are not read; the
theorems are about scripts without. -/
def fileReader (hexVal : List Char → Option ℚ) (A : Actions) (text : String) : List Main.FCmd :=
  (toFs (readScript hexVal A text).1).getD []

end Verif.Model.Smt2Scan
