import Verif.Model.Theory
import Verif.Spec.Explain
import Verif.Spec.Filter
import Verif.Spec.Icp

/-!
# What a conflict reported by the theory solver has to be

and what is assumed about the locality of the external operators.
-/

namespace Verif.Spec
open Verif Verif.Model

/-- No interval of a variable of the box is empty. -/
def NoneEmpty (b : Box) : Prop := ∀ i v, b.vars[i]? = some v → ∃ x : ℝ, InItv x (b.get i)

/-- The intervals of the variables satisfying `V` contain their values. -/
def InOn (V : Variable → Prop) (ρ : Valuation) (b : Box) : Prop :=
  ∀ i v, b.vars[i]? = some v → V v → InItv (ρ v) (b.get i)

/-- What is assumed of the external operators for the explanations of conflicts: an operator
that does not empty the box leaves no interval empty and changes only intervals of variables of
its constraints; the polytope operator lets constraints without common variables act
independently. -/
structure IbexLocal (D : Dom) (I : Interp) (ib : Ibex) : Prop where
  bwd_inner : ∀ c b, BoxWf b → (ib.bwd c b).1 = true → (ib.bwd c b).2 = b
  bwd_local : ∀ (c : Ctr) b, BoxWf b → (ib.bwd c b).2.bot = false →
    ∀ i v, b.vars[i]? = some v → v ∉ c.e.vars → (ib.bwd c b).2.get i = b.get i
  bwd_nonempty : ∀ c b, BoxWf b → NoneEmpty b → (ib.bwd c b).2.bot = false →
    NoneEmpty (ib.bwd c b).2
  poly_nonempty : ∀ cs b, BoxWf b → NoneEmpty b → (ib.poly cs b).bot = false →
    NoneEmpty (ib.poly cs b)
  poly_local : ∀ (cs : List Ctr) b (V : Variable → Prop) ρ, BoxWf b →
    (∀ c ∈ cs, ∀ v ∈ c.e.vars, v ∈ b.vars) → (∀ c ∈ cs, RcOkE c.e) →
    (∀ c ∈ cs, (∀ v ∈ c.e.vars, ¬ V v) ∨
      ((∀ v ∈ c.e.vars, V v) ∧ DefE D I ρ c.e ∧ relSem c.op (eval I ρ c.e) 0)) →
    NoneEmpty b → InOn V ρ b → (ib.poly cs b).bot = false → InOn V ρ (ib.poly cs b)

/-- The same for the forall contractor; its soundness needs well-typed values only for the
variables of the formula. -/
structure ForallLocal (D : Dom) (I : Interp) (ib : Ibex) : Prop where
  local' : ∀ n vs f b b' out, BoxWf b → b.vars = vs → ib.forallC n vs f b = .ok (b', out) →
    RcOkF f → NoneEmpty b → b'.bot = false → ∀ i v, b.vars[i]? = some v → v ∉ f.fv →
    ∀ x : ℝ, InItv x (b.get i) → InItv x (b'.get i)
  nonempty : ∀ n vs f b b' out, BoxWf b → b.vars = vs → ib.forallC n vs f b = .ok (b', out) →
    NoneEmpty b → b'.bot = false → NoneEmpty b'
  sound : ∀ n vs f b b' out, BoxWf b → b.vars = vs → ib.forallC n vs f b = .ok (b', out) →
    ∀ ρ, InBox ρ b → TypedOn ρ f.fv → RcOkF f → DefF D I ρ f → holds I ρ f → InBox ρ b'

/-- Everything assumed of the environment of the theory solver. -/
structure EnvOk (D : Dom) (I : Interp) (env : Env) : Prop where
  ops : IOpsOk D I env.ops
  ib : IbexSound D I env.ib
  loc : IbexLocal D I env.ib
  fa : ForallSound D I env.ib
  faLoc : ForallLocal D I env.ib
  br : BranchOk env.brancher
  cut : CutInside env.fp
  noUnsat : EvalAllNoUnsat env

/-- The cache can be used for boxes with the variables `vs` (in this order): every cached
contractor of a formula over these variables was built for that formula and for a box in which
the variables of the formula stand at the same places; for a quantified formula, for a box with
exactly these variables. -/
def CacheOk (vs : List Variable) (cache : Cache) : Prop :=
  ∀ f c, (f, c) ∈ cache → (∀ v ∈ f.fv, v ∈ vs) → ∃ b : Box, litCtc f b = .ok c ∧ b.vars.Nodup ∧
    (f.isAll = true → b.vars = vs) ∧
    (f.isAll = false → ∀ v ∈ f.fv, ∃ i : Nat, b.vars[i]? = some v ∧ vs[i]? = some v)

/-- The constraints `fs` have no common solution in the box: no well-typed point of the box
satisfies them all, among the points at which they are defined and which avoid the gaps next to
the literals of strict bounds (see C20). -/
def Conflict (D : Dom) (I : Interp) (d : Dbl) (b : Box) (fs : List Fml) : Prop :=
  ∀ ρ, InBox ρ b → TypedOn ρ b.vars → (∀ f ∈ fs, DefF D I ρ f) → (∀ f ∈ fs, NoGap d ρ f) →
    ¬ ∀ f ∈ fs, holds I ρ f

end Verif.Spec
