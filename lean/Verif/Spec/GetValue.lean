import Verif.Model.GetValue
import Verif.Spec.Scopes

/-!
# Reading the values that `get-value` prints

The notation of SMT-LIB for numbers, and `(interval (closed l) (closed u))`.
-/

namespace Verif.Spec.Smt2
open Verif Verif.Model Verif.Model.Prefix

/-- The number at the front, and what follows: a numeral, a negated numeral, or a quotient. -/
def readNum : List Word → Option (ℚ × List Word)
  | .num q :: r => some (q, r)
  | .lp :: .txt "-" :: .num q :: .rp :: r => some (-q, r)
  | .lp :: .txt "/" :: .num a :: .num b :: .rp :: r => some (a / b, r)
  | .lp :: .txt "/" :: .lp :: .txt "-" :: .num a :: .rp :: .num b :: .rp :: r => some (-a / b, r)
  | _ => none

/-- The bounds of the value. -/
def readValue : List Word → Option (ℚ × ℚ)
  | .lp :: .txt "interval" :: .lp :: .txt "closed" :: r =>
    match readNum r with
    | some (l, .rp :: .lp :: .txt "closed" :: r) =>
      match readNum r with
      | some (u, [.rp, .rp]) => some (l, u)
      | _ => none
    | _ => none
  | ws =>
    match readNum ws with
    | some (q, []) => some (q, q)
    | _ => none

/-- The text printed is right about a value: bounds around a number, or a truth value. -/
def Shows (ws : List Word) : SVal → Prop
  | .num x => ∃ l u, readValue ws = some (l, u) ∧ (l : ℝ) ≤ x ∧ x ≤ u
  | .tf p => (ws = [.txt "true"] ∧ p) ∨ (ws = [.txt "false"] ∧ ¬ p)
  | .bad => False

/-- Only names in force at the end of the script are used: the terms could be asserted there if they
were formulas. -/
def InScope (s : List Model.Smt2.SCmd) (ts : List Model.Smt2.STerm) : Prop :=
  Nests ([], []) [] (s ++ ts.map .assert)

end Verif.Spec.Smt2
