import Verif.Model.Contractor
import Verif.Spec.Eval

/-!
# What pruning has to achieve, and what is assumed of IBEX
-/

namespace Verif.Spec
open Verif Verif.Model

/-- `a` is a sub-box of `b`: it is empty, or every interval of it lies within the one of `b`. -/
def SubBox (a b : Box) : Prop :=
  a.bot = false → b.bot = false ∧ ∀ i x, InItv x (a.get i) → InItv x (b.get i)

/-- What is assumed of the external operators for soundness of pruning: they keep the shape of
the interval vector, add no point, and remove no point satisfying the constraint (where the
constraint is defined). -/
structure IbexSound (D : Dom) (I : Interp) (ib : Ibex) : Prop where
  bwd_shape : ∀ c b, (ib.bwd c b).2.vars = b.vars ∧ (ib.bwd c b).2.vals.length = b.vals.length
  bwd_sub : ∀ c b, BoxWf b → SubBox (ib.bwd c b).2 b
  bwd_sound : ∀ (c : Ctr) b, BoxWf b → (∀ v ∈ c.e.vars, v ∈ b.vars) → RcOkE c.e →
    ∀ ρ, InBox ρ b → DefE D I ρ c.e → relSem c.op (eval I ρ c.e) 0 → InBox ρ (ib.bwd c b).2
  poly_shape : ∀ cs b, (ib.poly cs b).vars = b.vars ∧ (ib.poly cs b).vals.length = b.vals.length
  poly_sub : ∀ cs b, BoxWf b → SubBox (ib.poly cs b) b
  poly_sound : ∀ (cs : List Ctr) b, BoxWf b → (∀ c ∈ cs, ∀ v ∈ c.e.vars, v ∈ b.vars) →
    (∀ c ∈ cs, RcOkE c.e) → ∀ ρ, InBox ρ b → (∀ c ∈ cs, DefE D I ρ c.e) →
    (∀ c ∈ cs, relSem c.op (eval I ρ c.e) 0) → InBox ρ (ib.poly cs b)

/-- What is assumed of the forall contractor for soundness of pruning (the code of that
contractor is the subject of C35). -/
structure ForallSound (D : Dom) (I : Interp) (ib : Ibex) : Prop where
  shape : ∀ n vs f b b' out, ib.forallC n vs f b = .ok (b', out) →
    b'.vars = b.vars ∧ b'.vals.length = b.vals.length
  sub : ∀ n vs f b b' out, BoxWf b → b.vars = vs → ib.forallC n vs f b = .ok (b', out) →
    SubBox b' b
  sound : ∀ n vs f b b' out, BoxWf b → b.vars = vs → ib.forallC n vs f b = .ok (b', out) →
    ∀ ρ, InBox ρ b → TypedOn ρ b.vars → RcOkF f → DefF D I ρ f → holds I ρ f → InBox ρ b'

mutual
/-- The contractor was assembled for boxes with the variables `vs`: its atoms are the ones the
`make_contractor_*` functions build for such a box. -/
def BuiltFor (vs : List Variable) : Ctc → Prop
  | .id => True
  | .integer idxs => ∀ i ∈ idxs, ∃ v, vs[i]? = some v ∧ (v.type = .integer ∨ v.type = .binary)
  | .seq cs => BuiltForAll vs cs
  | .join cs => BuiltForAll vs cs
  | .fixpoint cs => BuiltForAll vs cs
  | .worklist cs => BuiltForAll vs cs
  | .fwdbwd ws f c => ws = vs ∧ ibexConv vs true f = .ok (some c)
  | .polytope ws fs cs => ws = vs ∧ polyCtrs vs fs = .ok cs
  | .forallC ws _ => ws = vs
def BuiltForAll (vs : List Variable) : List Ctc → Prop
  | [] => True
  | c :: cs => BuiltFor vs c ∧ BuiltForAll vs cs
end

mutual
/-- The constraints of a contractor hold at a point: all of them for a sequence or a fixpoint,
one of them for a join. -/
def SatC (I : Interp) (ρ : Valuation) : Ctc → Prop
  | .id => True
  | .integer _ => True
  | .seq cs => SatAllC I ρ cs
  | .join cs => SatAnyC I ρ cs
  | .fixpoint cs => SatAllC I ρ cs
  | .worklist cs => SatAllC I ρ cs
  | .fwdbwd _ f _ => holds I ρ f
  | .polytope _ fs _ => ∀ f ∈ fs, holds I ρ f
  | .forallC _ f => holds I ρ f
def SatAllC (I : Interp) (ρ : Valuation) : List Ctc → Prop
  | [] => True
  | c :: cs => SatC I ρ c ∧ SatAllC I ρ cs
def SatAnyC (I : Interp) (ρ : Valuation) : List Ctc → Prop
  | [] => False
  | c :: cs => SatC I ρ c ∨ SatAnyC I ρ cs
end

mutual
/-- The formulas of the contractor. -/
def formulasC : Ctc → List Fml
  | .id => []
  | .integer _ => []
  | .seq cs => formulasCs cs
  | .join cs => formulasCs cs
  | .fixpoint cs => formulasCs cs
  | .worklist cs => formulasCs cs
  | .fwdbwd _ f _ => [f]
  | .polytope _ fs _ => fs
  | .forallC _ f => [f]
def formulasCs : List Ctc → List Fml
  | [] => []
  | c :: cs => formulasC c ++ formulasCs cs
end

end Verif.Spec
