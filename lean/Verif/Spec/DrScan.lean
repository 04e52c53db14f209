import Verif.Model.DrScan

/-!
# What the text of a `dr` file is

What patterns match, the longest match, and the layout of tokens in a text.
-/

namespace Verif.Spec.DrScan
open Verif Verif.Model Verif.Model.Dr Verif.Model.DrParse Verif.Model.DrScan

/-- The pattern matches the string. -/
inductive Matches : Rx → List Char → Prop
  | eps : Matches .eps []
  | cls {p c} : p c = true → Matches (.cls p) [c]
  | seq {r s u v} : Matches r u → Matches s v → Matches (.seq r s) (u ++ v)
  | left {r s u} : Matches r u → Matches (.alt r s) u
  | right {r s u} : Matches s u → Matches (.alt r s) u
  | none {r} : Matches (.star r) []
  | more {r u v} : Matches r u → Matches (.star r) v → Matches (.star r) (u ++ v)

/-- The string is the longest beginning of the text that one of the rules matches, and the rule is the
first that matches it. -/
structure Longest (text w : List Char) (a : Act) : Prop where
  nonempty : w ≠ []
  prefix_ : w <+: text
  rule : ∃ pre r post, rules = pre ++ (r, a) :: post ∧ Matches r w ∧ ∀ p ∈ pre, ¬ Matches p.1 w
  longest : ∀ w', w' <+: text → w.length < w'.length → ∀ p ∈ rules, ¬ Matches p.1 w'

/-- The tokens of a text, by longest matches. -/
inductive Scans (num : List Char → Option ℚ) : List Char → List Tok → Prop
  | nil : Scans num [] []
  | next {w rest a ts us} : Longest (w ++ rest) w a → a.tokens num w = some (some ts) →
      Scans num rest us → Scans num (w ++ rest) (ts ++ us)
  | stop {w rest a} : Longest (w ++ rest) w a → a.tokens num w = some none → Scans num (w ++ rest) []

/-- An exponent. -/
def Exponent (ex : List Char) : Prop :=
  ∃ c sg ds, ex = c :: (sg ++ ds) ∧ (c = 'e' ∨ c = 'E') ∧ (sg = [] ∨ sg = ['-'] ∨ sg = ['+']) ∧
    ds ≠ [] ∧ ∀ d ∈ ds, digit d = true

/-- A number: digits, perhaps with a point in front of, between or after them; and an exponent,
unless the point is last. -/
def Numeral (w : List Char) : Prop :=
  ∃ ip fp ex, (∀ d ∈ ip, digit d = true) ∧ (∀ d ∈ fp, digit d = true) ∧ (ex = [] ∨ Exponent ex) ∧
    ((w = ip ++ ex ∧ ip ≠ []) ∨ (w = ip ++ '.' :: (fp ++ ex) ∧ fp ≠ []) ∨
      (w = ip ++ ['.'] ∧ ip ≠ []))

/-- A word: a letter, then letters, digits, points and underscores. -/
def Word (w : List Char) : Prop := ∃ c cs, w = c :: cs ∧ letter c = true ∧ ∀ d ∈ cs, wordChar d = true

/-- The strings that stand for a token: key words, signs, and the names of functions. -/
def words : Tok → List String
  | .var => ["var"]
  | .cost => ["cost"]
  | .prec => ["prec"]
  | .ctr => ["ctr"]
  | .plus => ["+"]
  | .minus => ["-"]
  | .times => ["*"]
  | .div => ["/"]
  | .eq => ["="]
  | .le => ["<="]
  | .ge => [">="]
  | .lt => ["<"]
  | .gt => [">"]
  | .fn1 .exp => ["exp"]
  | .fn1 .log => ["log"]
  | .fn1 .abs => ["abs"]
  | .fn1 .sqrt => ["sqrt"]
  | .fn1 .sin => ["sin"]
  | .fn1 .cos => ["cos"]
  | .fn1 .tan => ["tan"]
  | .fn1 .asin => ["asin", "arcsin"]
  | .fn1 .acos => ["acos", "arccos"]
  | .fn1 .atan => ["atan", "arctan"]
  | .fn1 .sinh => ["sinh"]
  | .fn1 .cosh => ["cosh"]
  | .fn1 .tanh => ["tanh"]
  | .fn2 .atan2 => ["atan2", "arctan2"]
  | .fn2 .min => ["min"]
  | .fn2 .max => ["max"]
  | .fn2 .pow => ["pow"]
  | .caret => ["^"]
  | .and => ["and"]
  | .or => ["or"]
  | .not => ["not"]
  | .implies => ["implies", "=>"]
  | .lb => ["["]
  | .rb => ["]"]
  | .colon => [":"]
  | .comma => [","]
  | .semi => [";"]
  | _ => []

/-- How a token is written. -/
inductive Writes (num : List Char → Option ℚ) : Tok → List Char → Prop
  | fixed {t s} : s ∈ words t → Writes num t s.toList
  | num {w q} : Numeral w → num w = some q → Writes num (.num q) w
  | id {w} : Word w → (∀ t, ∀ s ∈ words t, s.toList ≠ w) → Writes num (.id (String.ofList w)) w
  | lp : Writes num .lp ['(']
  | rp : Writes num .rp [')']

/-- What may follow a token without space between: not what continues a word, a number or a sign. -/
def Apart (w : List Char) : List Char → Prop
  | [] => True
  | c :: _ => (Word w → wordChar c = false) ∧
      (Numeral w → digit c = false ∧ c ≠ '.' ∧ c ≠ 'e' ∧ c ≠ 'E') ∧
      (w = ['<'] ∨ w = ['='] ∨ w = ['>'] → c ≠ '=' ∧ c ≠ '>')

/-- A text with the tokens: blanks and lines with comments in any number, and tokens that can be told
apart. -/
inductive Laid (num : List Char → Option ℚ) : List Char → List Tok → Prop
  | nil : Laid num [] []
  | blank {c s ts} : c = ' ' ∨ c = '\t' ∨ c = '\r' ∨ c = '\n' → Laid num s ts → Laid num (c :: s) ts
  | comment {line s ts} : '\n' ∉ line → Laid num s ts → Laid num ('#' :: (line ++ '\n' :: s)) ts
  | tok {t w s ts} : Writes num t w → Apart w s → Laid num s ts → Laid num (w ++ s) (t :: ts)

/-- A token that can be written. -/
def CanWrite (num : List Char → Option ℚ) (t : Tok) : Prop := ∃ w, Writes num t w

/-- The numbers and names of an expression can be written. -/
def WriteE (num : List Char → Option ℚ) : DExpr → Prop
  | .num q => CanWrite num (.num q)
  | .id n => CanWrite num (.id n)
  | .neg a => WriteE num a
  | .fn1 _ a => WriteE num a
  | .add a b | .sub a b | .mul a b | .fn2 _ a b => WriteE num a ∧ WriteE num b

/-- The numbers and names of a formula can be written. -/
def WriteF (num : List Char → Option ℚ) : DFml → Prop
  | .rel _ a b => WriteE num a ∧ WriteE num b
  | .and f g | .or f g | .imp f g => WriteF num f ∧ WriteF num g
  | .not f => WriteF num f

/-- A declaration that can be written: its name, and bounds with the values. -/
def WriteD (num : List Char → Option ℚ) (ev : DExpr → Option EQ) (d : DDecl) : Prop :=
  CanWrite num (.id d.name) ∧ ∃ a b, WriteE num a ∧ WriteE num b ∧ ev a = some d.lo ∧ ev b = some d.hi

/-- The problem can be written. -/
def CanWriteP (num : List Char → Option ℚ) (ev : DExpr → Option EQ) (p : DProb) : Prop :=
  p.decls ≠ [] ∧ (∀ d ∈ p.decls, WriteD num ev d) ∧ (∀ f ∈ p.ctrs, WriteF num f) ∧
    ∀ e ∈ p.costs, WriteE num e

end Verif.Spec.DrScan
