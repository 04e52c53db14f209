import Verif.Model.Icp
import Verif.Spec.Contractor

/-!
# What branch and prune has to achieve
-/

namespace Verif.Spec
open Verif Verif.Model

/-- `b1` and `b2` arise from `b` by splitting coordinate `i` into two non-empty parts that
together have all its well-typed points, and no others. -/
structure Splits (b : Box) (i : Nat) (b1 b2 : Box) : Prop where
  vars : b1.vars = b.vars ∧ b2.vars = b.vars
  len : b1.vals.length = b.vals.length ∧ b2.vals.length = b.vals.length
  bot : b1.bot = b.bot ∧ b2.bot = b.bot
  frame : ∀ j, j ≠ i → b1.get j = b.get j ∧ b2.get j = b.get j
  nonempty : (∃ x : ℝ, InItv x (b1.get i)) ∧ ∃ x : ℝ, InItv x (b2.get i)
  cover : ∀ v x, b.vars[i]? = some v → typeOk v.type x → InItv x (b.get i) →
    InItv x (b1.get i) ∨ InItv x (b2.get i)
  sub : ∀ x, InItv x (b1.get i) ∨ InItv x (b2.get i) → InItv x (b.get i)

/-- What is assumed of a brancher: it splits the box it is given.  The default brancher does
(`C23_default_brancher`). -/
def BranchOk (br : Box → List Nat → Outcome (Option (Nat × Box × Box))) : Prop :=
  ∀ b cand i b1 b2, BoxWf b → br b cand = .ok (some (i, b1, b2)) → Splits b i b1 b2

/-- The forall evaluator never answers `UNSAT`
(`dreal/solver/forall_formula_evaluator.cc:127-132` are its only `return`s). -/
def EvalAllNoUnsat (env : Env) : Prop :=
  ∀ n f b r, env.evalAll n f b = .ok r → r.1 ≠ .unsat

/-- A solution: a well-typed point at which all constraints are defined and hold. -/
structure Solution (D : Dom) (I : Interp) (fs : List Fml) (vs : List Variable) (ρ : Valuation) :
    Prop where
  typed : TypedOn ρ vs
  defined : ∀ f ∈ fs, DefF D I ρ f
  holds : ∀ f ∈ fs, holds I ρ f

/-- The constraint set is one the search is built for: its real constants are sound and its
variables are those of the box. -/
structure LitsOk (fs : List Fml) (vs : List Variable) : Prop where
  rc : ∀ f ∈ fs, RcOkF f
  vars : ∀ f ∈ fs, ∀ v ∈ f.fv, v ∈ vs

/-- The contractor is one for the constraints `fs`: its formulas are among them, and they all
hold where `fs` do. -/
structure CtcFor (fs : List Fml) (c : Ctc) : Prop where
  sub : ∀ f ∈ formulasC c, f ∈ fs
  sat : ∀ I ρ, (∀ f ∈ fs, holds I ρ f) → SatC I ρ c

/-- The `δ`-weakening of a possibly negated relation holds at a point. -/
def WeakHolds (I : Interp) (δ : ℝ) (ρ : Valuation) (f : Fml) : Prop :=
  ∃ op lhs rhs, asRel f = some (op, lhs, rhs) ∧ weakRel δ op (eval I ρ lhs) (eval I ρ rhs)

/-- The boxes a worker is responsible for. -/
def pending (w : Worker) : List Box :=
  match w.pc with
  | .top | .chk => if w.needPop then [] else [w.st.box]
  | .pop | .done => []
  | .prune | .eval | .dec | .branch _ | .find => [w.st.box]
  | .inc b1 b2 | .push b1 b2 => [b1, b2]

/-- The share of a worker in `number_of_boxes`. -/
def share (w : Worker) : Int :=
  match w.pc with
  | .top | .chk => if w.needPop then 0 else 1
  | .pop | .done => 0
  | .prune | .eval | .dec | .branch _ | .find | .inc _ _ => 1
  | .push _ _ => 2

end Verif.Spec
