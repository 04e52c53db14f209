import Verif.Spec.Weak

/-!
# The weakening of formulas with conditionals

A conditional takes the branch whose condition holds up to `δ`, and its value may be off by `δ`
from the value of that branch.  Without conditionals this is `weakF` (`Verif.Proof.weakC_iff`).
-/

namespace Verif.Spec
open Verif Verif.Model

mutual
/-- `x` is a value of the expression up to `δ` at the point. -/
def ApproxE (I : Interp) (δ : ℝ) (ρ : Valuation) : Expr → ℝ → Prop
  | .const q, x => x = q
  | .rconst r, x => x = r.exact
  | .var v, x => x = ρ v
  | .add a b, x => ∃ y z, ApproxE I δ ρ a y ∧ ApproxE I δ ρ b z ∧ x = y + z
  | .mul a b, x => ∃ y z, ApproxE I δ ρ a y ∧ ApproxE I δ ρ b z ∧ x = y * z
  | .app1 f a, x => ∃ y, ApproxE I δ ρ a y ∧ x = I.f1 f y
  | .app2 f a b, x => ∃ y z, ApproxE I δ ρ a y ∧ ApproxE I δ ρ b z ∧ x = I.f2 f y z
  | .ite c a b, x => (weakC I δ ρ true c ∧ ∃ y, ApproxE I δ ρ a y ∧ |x - y| ≤ δ) ∨
      (weakC I δ ρ false c ∧ ∃ y, ApproxE I δ ρ b y ∧ |x - y| ≤ δ)
/-- The `δ`-weakening of a formula (`pos = true`) or of its negation (`pos = false`) holds at a
point.  Quantified formulas are not covered. -/
def weakC (I : Interp) (δ : ℝ) (ρ : Valuation) (pos : Bool) : Fml → Prop
  | .tt => pos = true
  | .ff => pos = false
  | .bvar v => if pos then ρ v = 1 else ρ v ≠ 1
  | .rel op a b => ∃ x y, ApproxE I δ ρ a x ∧ ApproxE I δ ρ b y ∧
      weakRel δ (if pos then op else op.neg) x y
  | .conj fs => if pos then weakCAll I δ ρ pos fs else weakCAny I δ ρ pos fs
  | .disj fs => if pos then weakCAny I δ ρ pos fs else weakCAll I δ ρ pos fs
  | .neg f => weakC I δ ρ (!pos) f
  | .all _ _ => False
def weakCAll (I : Interp) (δ : ℝ) (ρ : Valuation) (pos : Bool) : List Fml → Prop
  | [] => True
  | f :: fs => weakC I δ ρ pos f ∧ weakCAll I δ ρ pos fs
def weakCAny (I : Interp) (δ : ℝ) (ρ : Valuation) (pos : Bool) : List Fml → Prop
  | [] => False
  | f :: fs => weakC I δ ρ pos f ∨ weakCAny I δ ρ pos fs
end

mutual
/-- The expression has values up to `δ` at the point: no function is applied outside its domain,
whatever values up to `δ` its arguments take.  Of a conditional only branches that may be taken
count. -/
def DefA (D : Dom) (I : Interp) (δ : ℝ) (ρ : Valuation) : Expr → Prop
  | .const _ => True
  | .rconst _ => True
  | .var _ => True
  | .add a b => DefA D I δ ρ a ∧ DefA D I δ ρ b
  | .mul a b => DefA D I δ ρ a ∧ DefA D I δ ρ b
  | .app1 f a => DefA D I δ ρ a ∧ ∀ x, ApproxE I δ ρ a x → D.d1 f x
  | .app2 f a b => DefA D I δ ρ a ∧ DefA D I δ ρ b ∧
      ∀ x y, ApproxE I δ ρ a x → ApproxE I δ ρ b y → D.d2 f x y
  | .ite c a b => DefC D I δ ρ c ∧ (weakC I δ ρ true c → DefA D I δ ρ a) ∧
      (weakC I δ ρ false c → DefA D I δ ρ b)
/-- All expressions of the formula have values up to `δ` at the point. -/
def DefC (D : Dom) (I : Interp) (δ : ℝ) (ρ : Valuation) : Fml → Prop
  | .ff => True
  | .tt => True
  | .bvar _ => True
  | .rel _ a b => DefA D I δ ρ a ∧ DefA D I δ ρ b
  | .conj fs => DefCs D I δ ρ fs
  | .disj fs => DefCs D I δ ρ fs
  | .neg f => DefC D I δ ρ f
  | .all _ _ => True
def DefCs (D : Dom) (I : Interp) (δ : ℝ) (ρ : Valuation) : List Fml → Prop
  | [] => True
  | f :: fs => DefC D I δ ρ f ∧ DefCs D I δ ρ fs
end

/-- Calls as in `Books.PlainUse`, but a formula with conditionals may be asserted as well: it has no
quantifier, and the formula that takes its place (without conditionals, about new variables with
numbers from `next` on) is plain. -/
def Books.CondUse (d : Dbl) (δ : ℚ) (S : Expr → Expr → Prop) (k : Books) (next : Nat) (cmd : Cmd) :
    Prop :=
  k.PlainUse d δ S cmd ∨
    ∃ f, cmd = .assert f ∧ QFree f ∧ ¬ IteFree f ∧ PlainF d δ S (iteProcess next f).1

/-- The contexts that such histories lead to, with the books. -/
inductive PosesCond (cfg : CCfg) (S : Expr → Expr → Prop) : Books → Ctx → Prop
  | init (next : Nat) (made : List Variable) : (∀ v ∈ made, v.id < next) →
      PosesCond cfg S { made := made } (Ctx.init next)
  | step {k c cmd a c'} : PosesCond cfg S k c → k.Uses c.sat.abs.next cmd →
      k.CondUse cfg.th.dbl cfg.env.delta S c.sat.abs.next cmd →
      stepCmd cfg c cmd = .ok (a, c') → PosesCond cfg S (k.step c.sat.abs.next cmd) c'

/-- `k'`, `c'` come from `k`, `c` by such calls, none of which closes the scope that was innermost
at `k`. -/
inductive LaterCond (cfg : CCfg) (S : Expr → Expr → Prop) (k : Books) (c : Ctx) :
    Books → Ctx → Prop
  | refl : LaterCond cfg S k c k c
  | step {k' c' cmd a c''} : LaterCond cfg S k c k' c' → k'.Uses c'.sat.abs.next cmd →
      k'.CondUse cfg.th.dbl cfg.env.delta S c'.sat.abs.next cmd →
      stepCmd cfg c' cmd = .ok (a, c'') →
      (cmd = .pop → k.levels.length < k'.levels.length) →
      LaterCond cfg S k c (k'.step c'.sat.abs.next cmd) c''

end Verif.Spec
