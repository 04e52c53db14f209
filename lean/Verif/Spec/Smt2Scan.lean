import Verif.Model.Smt2Scan
import Verif.Spec.DrScan

/-!
# What the text of an SMT-LIB script is

The longest match, and the layout of tokens in a text.  What patterns match is in
`Spec/DrScan.lean`.
-/

namespace Verif.Spec.Smt2Scan
open Verif Verif.Model Verif.Model.Smt2 Verif.Model.Smt2Parse Verif.Model.Smt2Scan
open Verif.Model.DrScan (Rx digit)
open Verif.Spec.DrScan (Matches Numeral)

/-- The string is the longest beginning of the text that one of the rules matches, and the rule is the
first that matches it. -/
structure Longest (text w : List Char) (a : Act) : Prop where
  nonempty : w ≠ []
  prefix_ : w <+: text
  rule : ∃ pre r post, rules = pre ++ (r, a) :: post ∧ Matches r w ∧ ∀ p ∈ pre, ¬ Matches p.1 w
  longest : ∀ w', w' <+: text → w.length < w'.length → ∀ p ∈ rules, ¬ Matches p.1 w'

/-- The tokens of a text, by longest matches. -/
inductive Scans (hexVal : List Char → Option ℚ) : List Char → List Tok → Prop
  | nil : Scans hexVal [] []
  | next {w rest a ts rest' us} : Longest (w ++ rest) w a → a.run hexVal w rest = some (ts, rest') →
      Scans hexVal rest' us → Scans hexVal (w ++ rest) (ts ++ us)
  | stop {w rest a} : Longest (w ++ rest) w a → a.run hexVal w rest = none →
      Scans hexVal (w ++ rest) []

/-- A sign, or none, and something. -/
def Signed (P : List Char → Prop) (w : List Char) : Prop :=
  ∃ sg u, w = sg ++ u ∧ (sg = [] ∨ sg = ['-'] ∨ sg = ['+']) ∧ P u

/-- An integer without a sign: zero, or digits of which the first is not zero. -/
def Nat' (w : List Char) : Prop :=
  w = ['0'] ∨ ∃ c cs, w = c :: cs ∧ digit c = true ∧ c ≠ '0' ∧ ∀ d ∈ cs, digit d = true

/-- A hexadecimal number. -/
def Hex (w : List Char) : Prop :=
  ∃ x ip fp ex, (x = 'x' ∨ x = 'X') ∧ (∀ d ∈ ip, hexDigit d = true) ∧ (∀ d ∈ fp, hexDigit d = true) ∧
    (ex = [] ∨ ∃ c sg ds, ex = c :: (sg ++ ds) ∧ (c = 'p' ∨ c = 'P') ∧
      (sg = [] ∨ sg = ['-'] ∨ sg = ['+']) ∧ ds ≠ [] ∧ ∀ d ∈ ds, digit d = true) ∧
    ((w = '0' :: x :: (ip ++ ex) ∧ ip ≠ []) ∨ (w = '0' :: x :: (ip ++ '.' :: ex) ∧ ip ≠ []) ∨
      (w = '0' :: x :: (ip ++ '.' :: (fp ++ ex)) ∧ fp ≠ []))

/-- A simple symbol. -/
def Simple (w : List Char) : Prop :=
  ∃ c cs, w = c :: cs ∧ symBegin c = true ∧ ∀ d ∈ cs, symChar d = true

/-- The inside of a string: quotes are doubled. -/
inductive Body : List Char → Prop
  | nil : Body []
  | char {c s} : c ≠ '"' → Body s → Body (c :: s)
  | quote {s} : Body s → Body ('"' :: '"' :: s)

/-- Words that are reserved, but have no use. -/
def unusedWords : List String :=
  ["!", "_", "as", "exists", "par", "BINARY", "DECIMAL", "HEXADECIMAL", "NUMERAL", "STRING",
   "check-sat-assuming", "declare-sort", "define-fun-rec", "define-sort", "echo", "get-assertions",
   "get-assignment", "get-info", "get-proof", "get-unsat-assumptions", "get-unsat-core", "reset",
   "reset-assertions"]

/-- The words and signs that stand for a token. -/
def words : Tok → List String
  | .tru => ["true"]
  | .fls => ["false"]
  | .eq => ["="]
  | .rel .lt => ["<"]
  | .rel .le => ["<="]
  | .rel .gt => [">"]
  | .rel .ge => [">="]
  | .and => ["and"]
  | .or => ["or"]
  | .xor => ["xor"]
  | .not => ["not"]
  | .implies => ["=>"]
  | .ite => ["ite"]
  | .all => ["forall"]
  | .let_ => ["let"]
  | .plus => ["+"]
  | .minus => ["-"]
  | .times => ["*"]
  | .div => ["/"]
  | .fn1 .exp => ["exp"]
  | .fn1 .log => ["log"]
  | .fn1 .abs => ["abs"]
  | .fn1 .sqrt => ["sqrt"]
  | .fn1 .sin => ["sin"]
  | .fn1 .cos => ["cos"]
  | .fn1 .tan => ["tan"]
  | .fn1 .asin => ["asin", "arcsin"]
  | .fn1 .acos => ["acos", "arccos"]
  | .fn1 .atan => ["atan", "arctan"]
  | .fn1 .sinh => ["sinh"]
  | .fn1 .cosh => ["cosh"]
  | .fn1 .tanh => ["tanh"]
  | .fn2 .atan2 => ["atan2", "arctan2"]
  | .fn2 .min => ["min"]
  | .fn2 .max => ["max"]
  | .fn2 .pow => ["^", "pow"]
  | .assert => ["assert"]
  | .checkSat => ["check-sat"]
  | .declareConst => ["declare-const"]
  | .declareFun => ["declare-fun"]
  | .defineFun => ["define-fun"]
  | .exit => ["exit"]
  | .getModel => ["get-model"]
  | .getValue => ["get-value"]
  | .getOption => ["get-option"]
  | .maximize => ["maximize"]
  | .minimize => ["minimize"]
  | .pop => ["pop"]
  | .push => ["push"]
  | .setInfo => ["set-info"]
  | .setLogic => ["set-logic"]
  | .setOption => ["set-option"]
  | .unused s => if s ∈ unusedWords then [s] else []
  | _ => []

/-- How a token is written. -/
inductive Writes (hexVal : List Char → Option ℚ) : Tok → List Char → Prop
  | fixed {t s} : s ∈ words t → Writes hexVal t s.toList
  | int {w z} : Signed Nat' w → stol w = .ok z → Writes hexVal (.int z) w
  | dbl {w} : Signed Numeral w → ¬ Signed Nat' w → Writes hexVal (.dbl w) w
  | hex {w q} : Signed Hex w → hexVal w = some q → Writes hexVal (.hex q) w
  | sym {w} : Simple w → (∀ t, ∀ s ∈ words t, s.toList ≠ w) → ¬ Signed Numeral w → ¬ Signed Hex w →
      Writes hexVal (.sym (String.ofList w)) w
  | key {w} : Simple w → Writes hexVal (.key (String.ofList (':' :: w))) (':' :: w)
  | str {s} : Body s → Writes hexVal (.str (String.ofList ('"' :: (s ++ ['"'])))) ('"' :: (s ++ ['"']))
  | quoted {s} : (∀ c ∈ s, c ≠ '|' ∧ c ≠ '\\') →
      Writes hexVal (.sym (String.ofList ('|' :: (s ++ ['|'])))) ('|' :: (s ++ ['|']))
  | lp : Writes hexVal .lp ['(']
  | rp : Writes hexVal .rp [')']
  | lb : Writes hexVal .lb ['[']
  | rb : Writes hexVal .rb [']']
  | comma : Writes hexVal .comma [',']

/-- What may follow a token without space between: after symbols, keywords and numbers not what
continues a symbol, after a string not a quote. -/
def Apart (w : List Char) : List Char → Prop
  | [] => True
  | c :: _ => (∀ d ∈ w.head?, symChar d = true ∨ d = ':' → symChar c = false) ∧
      (w.head? = some '"' → c ≠ '"')

/-- A text with the tokens: blanks and lines with comments in any number, and tokens that can be told
apart. -/
inductive Laid (hexVal : List Char → Option ℚ) : List Char → List Tok → Prop
  | nil : Laid hexVal [] []
  | blank {c s ts} : c = ' ' ∨ c = '\t' ∨ c = '\r' ∨ c = '\n' → Laid hexVal s ts →
      Laid hexVal (c :: s) ts
  | comment {line s ts} : '\n' ∉ line → Laid hexVal s ts → Laid hexVal (';' :: (line ++ '\n' :: s)) ts
  | tok {t w s ts} : Writes hexVal t w → Apart w s → Laid hexVal s ts → Laid hexVal (w ++ s) (t :: ts)

/-- The commands of a script that matter for its answers: not those that only print or store
something.  There are no objectives. -/
inductive Runs : List PCmd → List Main.FCmd → Prop
  | nil : Runs [] []
  | core {c pcs fs} : Runs pcs fs → Runs (.core c :: pcs) (.core c :: fs)
  | setNum {k v pcs fs} : Runs pcs fs → Runs (.setNum k v :: pcs) (.setNum k v :: fs)
  | setStr {k v pcs fs} : Runs pcs fs → Runs (.setStr k v :: pcs) (.setStr k v :: fs)
  | exit {pcs fs} : Runs pcs fs → Runs (.exit :: pcs) (.exit :: fs)
  | info {pcs fs} : Runs pcs fs → Runs (.info :: pcs) fs
  | logic {n pcs fs} : Runs pcs fs → Runs (.logic n :: pcs) fs
  | getModel {pcs fs} : Runs pcs fs → Runs (.getModel :: pcs) fs
  | getValue {ts pcs fs} : Runs pcs fs → Runs (.getValue ts :: pcs) fs
  | getOption {k pcs fs} : Runs pcs fs → Runs (.getOption k :: pcs) fs

end Verif.Spec.Smt2Scan
