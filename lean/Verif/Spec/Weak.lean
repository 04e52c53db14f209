import Verif.Model.Theory
import Verif.Spec.Filter
import Verif.Spec.Ite
import Verif.Spec.Problem

/-!
# The weakening of a formula by δ, and the histories the delta-sat theorems are about
-/

namespace Verif.Spec
open Verif Verif.Model

mutual
/-- The `δ`-weakening of a formula (`pos = true`) or of its negation (`pos = false`) holds at a
point: negations are pushed to the relations, and every relation is weakened by `δ`.  A Boolean
variable is true where its value is 1.  Quantified formulas are not covered. -/
def weakF (I : Interp) (δ : ℝ) (ρ : Valuation) (pos : Bool) : Fml → Prop
  | .tt => pos = true
  | .ff => pos = false
  | .bvar v => if pos then ρ v = 1 else ρ v ≠ 1
  | .rel op a b => weakRel δ (if pos then op else op.neg) (eval I ρ a) (eval I ρ b)
  | .conj fs => if pos then weakAll I δ ρ pos fs else weakAny I δ ρ pos fs
  | .disj fs => if pos then weakAny I δ ρ pos fs else weakAll I δ ρ pos fs
  | .neg f => weakF I δ ρ (!pos) f
  | .all _ _ => False
def weakAll (I : Interp) (δ : ℝ) (ρ : Valuation) (pos : Bool) : List Fml → Prop
  | [] => True
  | f :: fs => weakF I δ ρ pos f ∧ weakAll I δ ρ pos fs
def weakAny (I : Interp) (δ : ℝ) (ρ : Valuation) (pos : Bool) : List Fml → Prop
  | [] => False
  | f :: fs => weakF I δ ρ pos f ∨ weakAny I δ ρ pos fs
end

/-- A literal `n` compared with a variable is exact to well within `δ`: the doubles next to its
stored bounds are closer than `δ` to its value. -/
def FineNum (d : Dbl) (δ : ℚ) (e : Expr) : Prop :=
  ∀ lo hi ex, asNum e = some (lo, hi, ex) → d.succ hi < ex + δ ∧ ex - δ < d.pred lo

/-- A relation the `δ`-weakening of which is respected: no if-then-else inside, its sides differ by
more than a constant, it has a variable, and if it compares a variable with a literal the literal
is exact to well within `δ`. -/
structure PlainRel (d : Dbl) (δ : ℚ) (a b : Expr) : Prop where
  free : IteFreeE a ∧ IteFreeE b
  open' : constDiff a b = none
  vars : a.vars ++ b.vars ≠ []
  fine : FineNum d δ a ∧ FineNum d δ b

mutual
/-- A formula without quantifiers made of such relations, all of them in `S`. -/
def PlainF (d : Dbl) (δ : ℚ) (S : Expr → Expr → Prop) : Fml → Prop
  | .ff => True
  | .tt => True
  | .bvar _ => True
  | .rel _ a b => PlainRel d δ a b ∧ S a b
  | .conj fs => PlainFs d δ S fs
  | .disj fs => PlainFs d δ S fs
  | .neg f => PlainF d δ S f
  | .all _ _ => False
def PlainFs (d : Dbl) (δ : ℚ) (S : Expr → Expr → Prop) : List Fml → Prop
  | [] => True
  | f :: fs => PlainF d δ S f ∧ PlainFs d δ S fs
end

/-- Calls that the delta-sat theorems cover besides `Books.Uses`: the first variable is declared
before anything is asserted, intervals are set for variables that are not Boolean and only before
the first assertion, and asserted formulas are plain. -/
def Books.PlainUse (d : Dbl) (δ : ℚ) (S : Expr → Expr → Prop) (k : Books) : Cmd → Prop
  | .declare _ _ => k.top.asserted = [] ∨ k.top.dom ≠ []
  | .setInterval v _ _ => v.type ≠ .boolean ∧ k.top.asserted = []
  | .assert f => PlainF d δ S f
  | _ => True

/-- The contexts that such histories lead to, with the books; the relations of the asserted
formulas are in `S`. -/
inductive PosesPlain (cfg : CCfg) (S : Expr → Expr → Prop) : Books → Ctx → Prop
  | init (next : Nat) (made : List Variable) : (∀ v ∈ made, v.id < next) →
      PosesPlain cfg S { made := made } (Ctx.init next)
  | step {k c cmd a c'} : PosesPlain cfg S k c → k.Uses c.sat.abs.next cmd →
      k.PlainUse cfg.th.dbl cfg.env.delta S cmd →
      stepCmd cfg c cmd = .ok (a, c') → PosesPlain cfg S (k.step c.sat.abs.next cmd) c'

/-- `k'`, `c'` come from `k`, `c` by such calls, none of which closes the scope that was innermost
at `k`. -/
inductive Later (cfg : CCfg) (S : Expr → Expr → Prop) (k : Books) (c : Ctx) : Books → Ctx → Prop
  | refl : Later cfg S k c k c
  | step {k' c' cmd a c''} : Later cfg S k c k' c' → k'.Uses c'.sat.abs.next cmd →
      k'.PlainUse cfg.th.dbl cfg.env.delta S cmd → stepCmd cfg c' cmd = .ok (a, c'') →
      (cmd = .pop → k.levels.length < k'.levels.length) →
      Later cfg S k c (k'.step c'.sat.abs.next cmd) c''

/-- `diam()` of an empty interval and of a point is not positive (it is 0). -/
def DiamZero (fp : Fp) : Prop :=
  ∀ iv : Itv, (iv.isEmpty = true ∨ ∃ q, iv = Itv.point q) → fp.diam iv ≤ .fin 0

theorem exactFp_diamZero : DiamZero exactFp := by
  rintro ⟨l, u⟩ (h | ⟨q, h⟩)
  · cases l <;> cases u <;> simp_all [Itv.isEmpty, exactFp]
    linarith
  · cases h; simp [exactFp]

/-- The search is stuck at the box because of the relation between `a` and `e`: the relation is
undecided there and its enclosure is wider than `δ`, but the brancher gives up although it may
split the box at every variable of the relation. -/
def StuckOn (env : Env) (cfg : TCfg) (b : Box) (a e : Expr) : Prop :=
  ∃ f op iv cand, asRel f = some (op, a, e) ∧ isSimpleRel f = false ∧
    evalRel env.ops b f = .ok (.unknown, iv) ∧ .fin env.delta < env.fp.diam iv ∧
    (∀ v ∈ f.fv, b.index v ∈ cand) ∧
    (if 1 < cfg.jobs then Box.branchLargestFirst env.fp b cand else env.brancher b cand) = .ok none

end Verif.Spec
