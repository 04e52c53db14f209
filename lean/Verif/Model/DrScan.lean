import Verif.Model.DrParse
import Verif.Model.Literal

/-!
# The scanner of the `dr` format

Models the rules of `dreal/dr/scanner.ll`.  The scanner that `flex` generates from them is not in the
source; the model has the rules in their order, and takes the longest match and the first of the
rules that match it, as `flex` specifies.
-/

namespace Verif.Model.DrScan
open Verif Verif.Model Verif.Model.Dr Verif.Model.DrParse

/-- Patterns of `flex`: characters of a class, and what is built from them. -/
inductive Rx where
  | void
  | eps
  | cls (p : Char → Bool)
  | seq (r s : Rx)
  | alt (r s : Rx)
  | star (r : Rx)

namespace Rx

/-- A pattern followed by itself. -/
def plus (r : Rx) : Rx := .seq r (.star r)

/-- A pattern or nothing. -/
def opt (r : Rx) : Rx := .alt r .eps

/-- A character. -/
def chr (c : Char) : Rx := .cls (· == c)

/-- A string. -/
def lit : List Char → Rx
  | [] => .eps
  | c :: cs => .seq (chr c) (lit cs)

/-- Whether the pattern matches nothing at all. -/
def null : Rx → Bool
  | .void => false
  | .eps => true
  | .cls _ => false
  | .seq r s => r.null && s.null
  | .alt r s => r.null || s.null
  | .star _ => true

/-- What has to follow the character. -/
def deriv (c : Char) : Rx → Rx
  | .void => .void
  | .eps => .void
  | .cls p => if p c then .eps else .void
  | .seq r s => if r.null then .alt (.seq (deriv c r) s) (deriv c s) else .seq (deriv c r) s
  | .alt r s => .alt (deriv c r) (deriv c s)
  | .star r => .seq (deriv c r) (.star r)

/-- Whether the pattern matches the string. -/
def matches? : Rx → List Char → Bool
  | r, [] => r.null
  | r, c :: cs => (deriv c r).matches? cs

end Rx

/-- `[0-9]`. -/
def digit (c : Char) : Bool := '0' ≤ c && c ≤ '9'

/-- `[a-zA-Z]`. -/
def letter (c : Char) : Bool := ('a' ≤ c && c ≤ 'z') || ('A' ≤ c && c ≤ 'Z')

/-- `[a-zA-Z0-9_\.]`. -/
def wordChar (c : Char) : Bool := letter c || digit c || c == '_' || c == '.'

/-- `.` of `flex`: all but the end of a line. -/
def dot (c : Char) : Bool := c != '\n'

/-- What a rule does. -/
inductive Act where
  | skip
  | tok (t : Tok)
  | num
  | name
  | char
deriving DecidableEq

/-- The rules for fixed strings (`dreal/dr/scanner.ll:80-123`), in their order. -/
def fixed : List (String × Tok) :=
  [("var", .var), ("cost", .cost), ("prec", .prec), ("ctr", .ctr),
   ("[", .lb), ("]", .rb), (":", .colon), (",", .comma), (";", .semi),
   ("+", .plus), ("-", .minus), ("*", .times), ("/", .div), ("=", .eq), ("<=", .le), (">=", .ge),
   ("<", .lt), (">", .gt), ("exp", .fn1 .exp), ("log", .fn1 .log), ("abs", .fn1 .abs),
   ("sin", .fn1 .sin), ("cos", .fn1 .cos), ("tan", .fn1 .tan), ("asin", .fn1 .asin),
   ("arcsin", .fn1 .asin), ("acos", .fn1 .acos), ("arccos", .fn1 .acos), ("atan", .fn1 .atan),
   ("arctan", .fn1 .atan), ("atan2", .fn2 .atan2), ("arctan2", .fn2 .atan2), ("sinh", .fn1 .sinh),
   ("cosh", .fn1 .cosh), ("tanh", .fn1 .tanh), ("min", .fn2 .min), ("max", .fn2 .max),
   ("sqrt", .fn1 .sqrt), ("pow", .fn2 .pow), ("^", .caret), ("implies", .implies), ("=>", .implies),
   ("and", .and), ("or", .or), ("not", .not)]

/-- `"#".*[\n\r]+` (`dreal/dr/scanner.ll:76-78`). -/
def commentRx : Rx :=
  .seq (.chr '#') (.seq (.star (.cls dot)) (.plus (.cls fun c => c == '\n' || c == '\r')))

/-- `[ \t\r]+` (`dreal/dr/scanner.ll:126-128`). -/
def blankRx : Rx := .plus (.cls fun c => c == ' ' || c == '\t' || c == '\r')

/-- `\n` (`dreal/dr/scanner.ll:131-133`). -/
def lineRx : Rx := .chr '\n'

/-- `(0|[1-9][0-9]*)` (`dreal/dr/scanner.ll:135-138`). -/
def natRx : Rx := .alt (.chr '0') (.seq (.cls fun c => '1' ≤ c && c ≤ '9') (.star (.cls digit)))

/-- `((([0-9]+)|([0-9]*\.?[0-9]+))([eE][-+]?[0-9]+)?)` (`dreal/dr/scanner.ll:140-143`). -/
def decRx : Rx :=
  .seq
    (.alt (.plus (.cls digit))
      (.seq (.star (.cls digit)) (.seq (.opt (.chr '.')) (.plus (.cls digit)))))
    (.opt (.seq (.cls fun c => c == 'e' || c == 'E')
      (.seq (.opt (.cls fun c => c == '-' || c == '+')) (.plus (.cls digit)))))

/-- `((([0-9]+)|([0-9]+\.)))` (`dreal/dr/scanner.ll:145-148`). -/
def pointRx : Rx := .alt (.plus (.cls digit)) (.seq (.plus (.cls digit)) (.chr '.'))

/-- `[a-zA-Z]([a-zA-Z0-9_\.])*` (`dreal/dr/scanner.ll:150-153`). -/
def nameRx : Rx := .seq (.cls letter) (.star (.cls wordChar))

/-- The rules in their order (`dreal/dr/scanner.ll:76-158`). -/
def rules : List (Rx × Act) :=
  (commentRx, .skip) :: fixed.map (fun p => (.lit p.1.toList, .tok p.2)) ++
  [(blankRx, .skip), (lineRx, .skip), (natRx, .num), (decRx, .num), (pointRx, .num), (nameRx, .name),
   (.cls dot, .char)]

/-- The first rule that matches. -/
def firstRule (w : List Char) : List (Rx × Act) → Option Act
  | [] => none
  | (r, a) :: rs => if r.matches? w then some a else firstRule w rs

/-- The longest match, of length `n` or less, and its rule. -/
def munch (s : List Char) : Nat → Option (Nat × Act)
  | 0 => none
  | n + 1 =>
    match firstRule (s.take (n + 1)) rules with
    | some a => some (n + 1, a)
    | none => munch s n

/-- What a match adds to the tokens: none at the end of the input.  A character that is passed on is
converted to a token by its code; the parser takes codes below one, which are the null character
and, characters being signed, those that are not ASCII, for the end (`dreal/dr/scanner.ll:155-158`). -/
def Act.tokens (num : List Char → Option ℚ) (w : List Char) : Act → Option (Option (List Tok))
  | .skip => some (some [])
  | .tok t => some (some [t])
  | .num => (num w).map fun q => some [.num q]
  | .name => some (some [.id (String.ofList w)])
  | .char =>
    match w with
    | ['('] => some (some [.lp])
    | [')'] => some (some [.rp])
    | [c] => some (if c.toNat = 0 ∨ 128 ≤ c.toNat then none else some [.other c])
    | _ => some (some [])

/-- The tokens of a text.  `num` is `std::stod`, none if it throws.  `fuel` is the length of the
text. -/
def scanN (num : List Char → Option ℚ) : Nat → List Char → Option (List Tok)
  | _, [] => some []
  | 0, _ :: _ => none
  | n + 1, s@(_ :: _) =>
    match munch s s.length with
    | none => none
    | some (k, a) =>
      match a.tokens num (s.take k) with
      | none => none
      | some none => some []
      | some (some ts) => (scanN num n (s.drop k)).map (ts ++ ·)

/-- The tokens of a text. -/
def scan (num : List Char → Option ℚ) (s : List Char) : Option (List Tok) := scanN num s.length s

/-- The problem of a text (`dreal/dr/driver.cc:39-51`), none if it is not one.  Simplified: an
exception of `std::stod` or `Evaluate()` is no problem either, though it would end the program. -/
def readText (num : List Char → Option ℚ) (ev : DExpr → Option EQ) (text : String) : Option DProb :=
  (scan num text.toList).bind (parse ev)

/-- `std::stod` on a literal (`dreal/dr/scanner.ll:136,141,146`). -/
def stodOf (rangeErr : ℚ → Bool) (near : ℚ → ℚ) (w : List Char) : Option ℚ :=
  match stod rangeErr near w with
  | .ok q => some q
  | _ => none

end Verif.Model.DrScan
