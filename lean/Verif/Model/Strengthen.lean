import Verif.Model.Outcome
import Verif.Model.Syntax

/-!
# Strengthening and weakening by δ

Models `DeltaStrengthenVisitor` and its entry points (`dreal/symbolic/symbolic.cc:165-410,
518-528`).
-/

namespace Verif.Model
open Verif

/-- `if_then_else` (`symbolic/symbolic_expression.cc:800-811`). -/
def mkIte (c : Fml) (t e : Expr) : Expr := if c = .tt then t else if c = .ff then e else .ite c t e

/-- `e + d` for a double `d` (`symbolic/symbolic_expression.cc:330-374`).  The sum of two
constants is computed in doubles: `rnd` is rounding.  Simplified: of a longer sum only a constant
in front is merged with `d`; elsewhere the sum is left as it is. -/
def addConst (rnd : ℚ → ℚ) (e : Expr) (d : ℚ) : Expr :=
  match e with
  | .const c => .const (rnd (c + d))
  | .add (.const c) t => .add (.const (rnd (c + d))) t
  | e => .add e (.const d)

/-- `is_variable(e)`. -/
def Expr.isVarE : Expr → Bool
  | .var _ => true
  | _ => false

/-- `VisitGreaterThan`, `VisitGreaterThanOrEqualTo`, `VisitLessThan`, `VisitLessThanOrEqualTo`
with the sides already visited (`dreal/symbolic/symbolic.cc:310-378`).  Only called for these
four kinds. -/
def shiftRel (rnd : ℚ → ℚ) (δ : ℚ) (op : RelOp) (l r : Expr) : Fml :=
  match op with
  | .gt | .geq =>
    if r.isVarE then mkRel op (addConst rnd l (-δ)) r else mkRel op l (addConst rnd r δ)
  | _ =>
    if l.isVarE then mkRel op l (addConst rnd r (-δ)) else mkRel op (addConst rnd l δ) r

/-- The visit of a relation made on the spot (`dreal/symbolic/symbolic.cc:294-295, 304-305`): it
may have been folded to a constant, which has no sides. -/
def shiftFresh (rnd : ℚ → ℚ) (δ : ℚ) (f : Fml) : Outcome Fml :=
  match f with
  | .rel op l r => .ok (shiftRel rnd δ op l r)
  | _ => .ub

mutual
/-- `Visit` on expressions (`dreal/symbolic/symbolic.cc:177-275`): only conditions of if-then-else
terms are changed. -/
def strE (rnd : ℚ → ℚ) (δ : ℚ) : Expr → Outcome Expr
  | .const q => .ok (.const q)
  | .rconst r => .ok (.rconst r)
  | .var v => .ok (.var v)
  | .add a b => do
    let a' ← strE rnd δ a
    let b' ← strE rnd δ b
    .ok (.add a' b')
  | .mul a b => do
    let a' ← strE rnd δ a
    let b' ← strE rnd δ b
    .ok (.mul a' b')
  | .app1 f a => do
    let a' ← strE rnd δ a
    .ok (.app1 f a')
  | .app2 f a b => do
    let a' ← strE rnd δ a
    let b' ← strE rnd δ b
    .ok (.app2 f a' b')
  | .ite c a b => do
    let c' ← strF rnd δ c
    let a' ← strE rnd δ a
    let b' ← strE rnd δ b
    .ok (mkIte c' a' b')
/-- `Visit` on formulas (`dreal/symbolic/symbolic.cc:277-399`).  Simplified: the sides of an
equation or disequation that is split into two inequalities are visited once (in the code, the
visit of the two inequalities visits them again, which matters only for if-then-else terms). -/
def strF (rnd : ℚ → ℚ) (δ : ℚ) : Fml → Outcome Fml
  | .ff => .ok .ff
  | .tt => .ok .tt
  | .bvar v => .ok (.bvar v)
  | .rel .eq a b =>
    if 0 < δ then .ok (.rel .eq a b)
    else do
      let l ← strE rnd δ a
      let r ← strE rnd δ b
      let f ← shiftFresh rnd δ (mkRel .geq l r)
      let g ← shiftFresh rnd δ (mkRel .leq l r)
      .ok (andF f g)
  | .rel .neq a b =>
    if 0 < δ then do
      let l ← strE rnd δ a
      let r ← strE rnd δ b
      let f ← shiftFresh rnd δ (mkRel .gt l r)
      let g ← shiftFresh rnd δ (mkRel .lt l r)
      .ok (orF f g)
    else .ok .tt
  | .rel op a b => do
    let l ← strE rnd δ a
    let r ← strE rnd δ b
    .ok (shiftRel rnd δ op l r)
  | .conj fs => strAnd rnd δ .tt fs
  | .disj fs => strOr rnd δ .ff fs
  | .neg f => do
    let g ← strF rnd (-δ) f
    .ok (notF g)
  | .all _ _ => .throw
/-- The loop of `VisitConjunction` (`dreal/symbolic/symbolic.cc:379-385`). -/
def strAnd (rnd : ℚ → ℚ) (δ : ℚ) (ret : Fml) : List Fml → Outcome Fml
  | [] => .ok ret
  | f :: fs => do
    let g ← strF rnd δ f
    strAnd rnd δ (andF ret g) fs
/-- The loop of `VisitDisjunction` (`dreal/symbolic/symbolic.cc:386-392`). -/
def strOr (rnd : ℚ → ℚ) (δ : ℚ) (ret : Fml) : List Fml → Outcome Fml
  | [] => .ok ret
  | f :: fs => do
    let g ← strF rnd δ f
    strOr rnd δ (orF ret g) fs
end

/-- `Strengthen` (`dreal/symbolic/symbolic.cc:169-174`). -/
def strengthen (rnd : ℚ → ℚ) (δ : ℚ) (f : Fml) : Outcome Fml :=
  if δ = 0 then .ok f else strF rnd δ f

/-- `DeltaStrengthen` (`dreal/symbolic/symbolic.cc:519-522`). -/
def deltaStrengthen (rnd : ℚ → ℚ) (δ : ℚ) (f : Fml) : Outcome Fml :=
  if 0 < δ then strengthen rnd δ f else .ub

/-- `DeltaWeaken` (`dreal/symbolic/symbolic.cc:525-528`). -/
def deltaWeaken (rnd : ℚ → ℚ) (δ : ℚ) (f : Fml) : Outcome Fml :=
  if 0 < δ then strengthen rnd (-δ) f else .ub

end Verif.Model
