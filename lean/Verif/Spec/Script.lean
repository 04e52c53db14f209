import Verif.Spec.Optimum
import Verif.Spec.Problem
import Verif.Spec.Scopes
import Verif.Spec.Weak

/-!
# Calls on a context that the theorems about scripts cover
-/

namespace Verif.Spec.Smt2
open Verif Verif.Model Verif.Spec

/-- What the unsat theorem for scripts needs of the calls: formulas are well formed, with only
comparisons of terms without conditionals under quantifiers; bounds of integer and binary variables
are within the intervals these have without bounds; and if a formula has quantifiers there is no
check. -/
structure Covered (log : List Cmd) : Prop where
  wf : ∀ f, .assert f ∈ log → WfF (fun _ => True) f
  bounds : ∀ v l u, .setInterval v l u ∈ log → ∀ x : ℝ, InItv x ⟨l, u⟩ → InItv x (newItv v.type)
  quant : (∀ f, .assert f ∈ log → QFree f) ∨ .check ∉ log

/-- What the delta-sat theorem needs besides: formulas are plain, and bounds are given before the
first assertion in force and not to Boolean variables; if something is asserted some variable was
declared before. -/
structure PlainLog (d : Dbl) (δ : ℚ) (S : Expr → Expr → Prop) (log : List Cmd) : Prop where
  plain : ∀ f, .assert f ∈ log → PlainF d δ S f
  bounds : ∀ l v x y r, log = l ++ .setInterval v x y :: r →
    v.type ≠ .boolean ∧ ∀ f, .assert f ∉ callsInForce l
  first : ∀ l v m r, log = l ++ .declare v m :: r →
    (∀ f, .assert f ∉ callsInForce l) ∨ ∃ w m', .declare w m' ∈ callsInForce l

/-- What the theorem on optima needs besides: no scopes, asserted formulas without quantifiers and
conditionals and with exact bounds, bounds before the first assertion, and if something is asserted
some variable was declared before. -/
structure ExactLog (d : Dbl) (log : List Cmd) : Prop where
  flat : .push ∉ log ∧ .pop ∉ log
  plain : ∀ f, .assert f ∈ log → QFree f ∧ IteFree f ∧ ExactBound d f
  bounds : ∀ l v x y r, log = l ++ .setInterval v x y :: r → ∀ f, .assert f ∉ l
  first : ∀ l v m r, log = l ++ .declare v m :: r →
    (∀ f, .assert f ∉ l) ∨ ∃ w m', .declare w m' ∈ l

/-- The point fulfils everything said to the context. -/
def Fulfils (I : Interp) (log : List Cmd) (ρ : Valuation) : Prop := ∀ c ∈ log, CmdHolds I ρ c

/-- At the point the terms of the asserted formulas have values and it keeps off the gaps next to
the literals of strict bounds, and integers are in the range of `int` (without the least one). -/
structure Ordinary (D : Dom) (I : Interp) (d : Dbl) (log : List Cmd) (ρ : Valuation) : Prop where
  regular : ∀ f, .assert f ∈ log → RegF D I d ρ f
  small : ∀ v m, .declare v m ∈ log → v.type = .integer → -2147483647 ≤ ρ v ∧ ρ v ≤ 2147483647

end Verif.Spec.Smt2
