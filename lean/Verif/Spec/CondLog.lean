import Verif.Spec.Script
import Verif.Spec.WeakIte

/-! # Scripts with conditionals -/

namespace Verif.Spec.Smt2
open Verif Verif.Model

/-- As `PlainLog`, but asserted formulas may have conditionals: then the formula that takes its
place, with new variables numbered from where the counter stands, is plain. -/
structure CondLog (cfg : CCfg) (S : Expr → Expr → Prop) (log : List Cmd) : Prop where
  asserts : ∀ l f r, log = l ++ .assert f :: r → PlainF cfg.th.dbl cfg.env.delta S f ∨
    (QFree f ∧ ¬ IteFree f ∧ ∀ as c, runCmds cfg (Ctx.init 0) l = .ok (as, c) →
      PlainF cfg.th.dbl cfg.env.delta S (iteProcess c.sat.abs.next f).1)
  bounds : ∀ l v x y r, log = l ++ .setInterval v x y :: r →
    v.type ≠ .boolean ∧ ∀ f, .assert f ∉ callsInForce l
  first : ∀ l v m r, log = l ++ .declare v m :: r →
    (∀ f, .assert f ∉ callsInForce l) ∨ ∃ w m', .declare w m' ∈ callsInForce l

end Verif.Spec.Smt2
