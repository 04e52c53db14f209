import Mathlib.Data.Int.Log
import Mathlib.Data.Rat.Floor
import Verif.Model.Outcome
import Verif.Model.Itv

/-!
# Numeric literals

Models `dreal/util/string_to_interval.cc`, `dreal/util/math.cc` and the literal actions of
`dreal/smt2/scanner.ll` and `dreal/smt2/parser.yy`.  The C library's conversions are modelled on
the strings they are called with: tokens of the scanner, or such a token with a sign put before or
taken off.
-/

namespace Verif.Model

/-- The number of a string of digits (`strtod`, `strtol`). -/
def digitsVal (ds : List Char) : Nat := ds.foldl (fun n c => 10 * n + (c.toNat - '0'.toNat)) 0

/-- The exponent part of a literal (`dreal/smt2/scanner.ll:197`): nothing, or `e`, an optional sign
and digits. -/
def expVal : List Char → Option Int
  | [] => some 0
  | c :: r =>
    if c = 'e' ∨ c = 'E' then
      match r with
      | '-' :: ds => if ds ≠ [] ∧ ds.all Char.isDigit then some (-(digitsVal ds : Int)) else none
      | '+' :: ds => if ds ≠ [] ∧ ds.all Char.isDigit then some (digitsVal ds) else none
      | ds => if ds ≠ [] ∧ ds.all Char.isDigit then some (digitsVal ds) else none
    else none

/-- The digits after a point, and what follows (`dreal/smt2/scanner.ll:197-205`). -/
def fracPart : List Char → List Char × List Char
  | '.' :: r => (r.takeWhile Char.isDigit, r.dropWhile Char.isDigit)
  | r => ([], r)

/-- The value of a decimal literal without sign (`dreal/smt2/scanner.ll:197-205`), none if the
string is no literal. -/
def unsignedVal (s : List Char) : Option ℚ :=
  let ip := s.takeWhile Char.isDigit
  let (fp, r) := fracPart (s.dropWhile Char.isDigit)
  if ip ++ fp = [] then none
  else (expVal r).map fun (e : Int) =>
    (digitsVal (ip ++ fp) : ℚ) * (10 : ℚ) ^ (e - (fp.length : Int))

/-- The value of a decimal literal (`dreal/smt2/scanner.ll:197-205`). -/
def decVal : List Char → Option ℚ
  | '-' :: s => (unsignedVal s).map Neg.neg
  | '+' :: s => unsignedVal s
  | s => unsignedVal s

/-- Rounding upward to a double, IEEE 754 binary64 with 53 bits and least exponent -1074, as if
there were no largest exponent (`FE_UPWARD`, `dreal/util/rounding_mode_guard.h`). -/
def roundUp (q : ℚ) : ℚ :=
  let e := max (-1074) (Int.log 2 |q| - 52)
  (⌈q / (2 : ℚ) ^ e⌉ : ℚ) * (2 : ℚ) ^ e

/-- The largest double. -/
def maxDouble : ℚ := (2 ^ 53 - 1) * 2 ^ 971

/-- `std::stod` of the C++ library, for the current rounding.  It throws if there is no number, and
on range errors: overflow, and underflow as `rangeErr` tells (the libraries differ). -/
def stod (rangeErr : ℚ → Bool) (round : ℚ → ℚ) (s : List Char) : Outcome ℚ :=
  match decVal s with
  | none => .throw
  | some q => if maxDouble < |round q| ∨ rangeErr q then .throw else .ok (round q)

/-- The string with the sign changed (`dreal/util/string_to_interval.cc:29-33`).  `s[0]` of the
empty string is a null character. -/
def flipSign : List Char → List Char
  | '-' :: r => r
  | s => '-' :: s

/-- `StringToInterval` (`dreal/util/string_to_interval.cc:25-35`). -/
def stringToInterval (rangeErr : ℚ → Bool) (s : List Char) : Outcome (ℚ × ℚ) := do
  let ub ← stod rangeErr roundUp s
  let lb ← stod rangeErr roundUp (flipSign s)
  .ok (-lb, ub)

/-- What a decimal literal becomes: a constant or a real constant. -/
inductive Literal where
  | point (q : ℚ)
  | range (lb ub : ℚ) (useLb : Bool)
deriving DecidableEq, Repr

/-- The action of `DOUBLE` (`dreal/smt2/parser.yy:378-388`).  `near` is the rounding outside of
`StringToInterval`.  `diam() == 0` of an interval of doubles is `lb == ub`, and `mid()` is then that
double. -/
def decLiteral (rangeErr : ℚ → Bool) (near : ℚ → ℚ) (s : List Char) : Outcome Literal := do
  let (lb, ub) ← stringToInterval rangeErr s
  let parsed ← stod rangeErr near s
  if lb = ub then .ok (.point lb) else .ok (.range lb ub (lb = parsed))

/-- `convert_int64_to_int` (`dreal/util/math.cc:39-45`). -/
def convertInt64ToInt (v : Int) : Outcome Int :=
  if -2 ^ 31 ≤ v ∧ v ≤ 2 ^ 31 - 1 then .ok v else .throw

/-- `convert_int64_to_double` (`dreal/util/math.cc:47-56`).  `near` is the rounding of the implicit
conversion. -/
def convertInt64ToDouble (near : ℚ → ℚ) (v : Int) : Outcome ℚ :=
  let m : Int := 2 ^ 53
  if -m ≤ v ∧ v ≤ m then .ok (near v) else .throw

/-- `is_integer` (`dreal/util/math.cc:29-37`), for doubles that are not NaN.  `modf` gives the part
after the point. -/
def isInteger : EQ → Bool
  | .fin q => decide (-2 ^ 31 ≤ q ∧ q ≤ 2 ^ 31 - 1) &&
      decide ((if q < 0 then q - ⌈q⌉ else q - ⌊q⌋ : ℚ) = 0)
  | _ => false

/-- `std::stol` on a token of the scanner (`dreal/smt2/scanner.ll:183-195`). -/
def stol (s : List Char) : Outcome Int :=
  let v : Int := match s with
    | '-' :: ds => -(digitsVal ds : Int)
    | '+' :: ds => digitsVal ds
    | ds => digitsVal ds
  if -2 ^ 63 ≤ v ∧ v < 2 ^ 63 then .ok v else .throw

/-- The action of `INT` in a term (`dreal/smt2/scanner.ll:183-195`, `dreal/smt2/parser.yy:390`). -/
def intLiteral (near : ℚ → ℚ) (s : List Char) : Outcome ℚ := do
  let v ← stol s
  convertInt64ToDouble near v

end Verif.Model
