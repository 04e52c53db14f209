import Verif.Model.Context
import Verif.Model.Strengthen

/-!
# Universally quantified constraints

Models `dreal/contractor/contractor_forall.h` (the pruning operator for a `forall` formula) and
`dreal/solver/forall_formula_evaluator.cc` (its evaluator).  Both run a solver context of their
own.
-/

namespace Verif.Model
open Verif

/-! ### The contractor -/

/-- `ContractorForall::ExtendBox` (`dreal/contractor/contractor_forall.h:239-244`). -/
def extendBox (b : Box) : List Variable → Outcome Box
  | [] => .ok b
  | v :: vs => do
    let b' ← b.add v
    extendBox b' vs

/-- The loops writing the box of the status
(`dreal/contractor/contractor_forall.h:149-151,155-158`).  Simplified: writing a variable the box
does not have is an error here; what the code does then is in `BoxHeap.lean`. -/
def writeVars (F : Variable → Itv) : List Variable → Box → Outcome Box
  | [], dst => .ok dst
  | v :: vs, dst => if v ∈ dst.vars then writeVars F vs (dst.setV v (F v)) else .ub

/-- The box `PruneWithCounterexample` prunes (`dreal/contractor/contractor_forall.h:147-158`): the
current intervals of the free variables, the midpoints of the counterexample for the quantified
ones. -/
def ceBox (fp : Fp) (qs : List Variable) (b ce : Box) : Outcome Box := do
  let d ← writeVars b.getV b.vars ce
  writeVars (fun q => Itv.point (fp.mid (ce.getV q))) qs d

/-- The loop over the components (`dreal/contractor/contractor_forall.h:169-175`): the new box and
the indexes of the components that changed. -/
def copyChanged (src : Box) : List Nat → Box → Box × List Nat
  | [], b => (b, [])
  | i :: is, b =>
    if b.get i ≠ src.get i then
      let r := copyChanged src is (b.set i (src.get i))
      (r.1, i :: r.2)
    else copyChanged src is b

/-- `PruneWithCounterexample` (`dreal/contractor/contractor_forall.h:144-181`): the new box, the
output bits set, and whether the loop ends. -/
def pruneCe (ib : Ibex) (fp : Fp) (fuel : Nat) (ctc : Ctc) (qs : List Variable) (b ce : Box) :
    Run (Box × List Nat × Bool) := do
  let d ← Run.lift (ceBox fp qs b ce)
  let s ← prune ib fuel ctc { box := d }
  if s.box.empty then .ok (b.setEmpty, List.range b.size, true)
  else
    let r := copyChanged s.box (List.range b.size) b
    .ok (r.1, r.2, r.2.isEmpty)

/-- The loop of `ContractorForall::Prune` (`dreal/contractor/contractor_forall.h:187-230`).
`find` is the search for a counterexample in a box: the nested context with its state, and the
refiner of the counterexample (`dreal/contractor/contractor_forall.h:204-219`). -/
def forallLoop {σ : Type} (ib : Ibex) (fp : Fp) (fuel : Nat) (ctc : Ctc) (qs : List Variable)
    (find : σ → Box → Run (Option Box × σ)) : Nat → σ → Box → List Nat → Run (Box × List Nat × σ)
  | 0, _, _, _ => .oof
  | n + 1, st, b, out => do
    let r ← find st b
    match r.1 with
    | none => .ok (b, out, r.2)
    | some ce => do
      let p ← pruneCe ib fp fuel ctc qs b ce
      if p.2.2 then .ok (p.1, p.2.1 ++ out, r.2)
      else forallLoop ib fp fuel ctc qs find n r.2 p.1 (p.2.1 ++ out)

/-- A `ContractorForall` built for a box with the variables `vs`: construction of its inner
contractor (`dreal/contractor/contractor_forall.h:97-99`) and `Prune`.  The inner contractor is
built from the variables of the box only, so the intervals of the box do not matter. -/
def forallPrune {σ : Type} (ib : Ibex) (fp : Fp) (fuel : Nat) (usePoly : Bool)
    (find : σ → Box → Run (Option Box × σ)) (st : σ) (vs : List Variable) (f : Fml) (b : Box) :
    Run (Box × List Nat × σ) :=
  match f with
  | .all qs g => do
    let e ← Run.lift (extendBox ⟨vs, vs.map fun v => Box.initItv v.type, false⟩ qs)
    let ctc ← Run.lift (generate usePoly g e)
    forallLoop ib fp fuel ctc qs find fuel st b []
  | _ => .ub

/-! ### The nested contexts -/

/-- `Context::SetInterval` as the code has it for any variable
(`dreal/solver/context_impl.cc:355-359`, `dreal/util/box.cc:125-127`): an undeclared variable
stands for the first one. -/
def setIntervalRaw (c : Ctx) (v : Variable) (lb ub : EQ) : Ctx :=
  let b := c.box.setV v (mkItv lb ub)
  c.setBox { b with bot := if c.box.index v = 0 then (mkItv lb ub).isEmpty else b.bot }

/-- The loops over the variables of the outer box
(`dreal/contractor/contractor_forall.h:204-208`, `dreal/solver/forall_formula_evaluator.cc:103-105`). -/
def setOuter (b : Box) : List Variable → Ctx → Ctx
  | [], c => c
  | v :: vs, c => setOuter b vs (setIntervalRaw c v (b.getV v).lb (b.getV v).ub)

/-- The loops declaring the variables (`dreal/contractor/contractor_forall.h:101-106`,
`dreal/solver/forall_formula_evaluator.cc:88-93`). -/
def declareAll : List Variable → Ctx → Ctx
  | [], c => c
  | v :: vs, c => declareAll vs (declare c v true)

/-- Asserting the operands of a conjunction one by one
(`dreal/contractor/contractor_forall.h:109-118`). -/
def assertAll (cfg : CCfg) : List Fml → Ctx → Outcome Ctx
  | [], c => .ok c
  | f :: fs, c => do
    let c' ← assertF cfg c f
    assertAll cfg fs c'

/-- The context of a `ContractorForall` built for a box with the variables `vs`
(`dreal/contractor/contractor_forall.h:75-117`); `next` is the counter of variable ids. -/
def ctcContext (cfg : CCfg) (next : Nat) (ε : ℚ) (vs qs : List Variable) (g : Fml) :
    Outcome Ctx := do
  let n ← deltaStrengthen cfg.rnd ε (notF g)
  let n := nnf true n
  if n = .ff then .ub
  else
    let c := declareAll qs (declareAll vs (Ctx.init next))
    match n with
    | .conj fs => assertAll cfg fs c
    | f => assertF cfg c f

/-- The search for a counterexample of a `ContractorForall`
(`dreal/contractor/contractor_forall.h:203-219`); the state is the context and the stacking order.
The refiner is a parameter. -/
def ctcFind (cfg : CCfg) (refine : Box → Run Box) (st : Ctx × Bool) (b : Box) :
    Run (Option Box × (Ctx × Bool)) := do
  let left := !st.2
  let r ← checkSat { cfg with th := { cfg.th with left := left } } (setOuter b b.vars st.1)
  match r.1 with
  | none => .ok (none, (r.2, left))
  | some ce => do
    let ce' ← refine ce
    .ok (some ce', (r.2, left))

/-! ### The evaluator -/

/-- `BuildFormulaEvaluators` (`dreal/solver/forall_formula_evaluator.cc:39-64`): the relations of
the clause under the quantifier. -/
def evalLits : Fml → List Fml
  | .disj fs => fs
  | f => [f]

/-- The context of a `ForallFormulaEvaluator`
(`dreal/solver/forall_formula_evaluator.cc:74-97`).  Simplified: the free variables come in the
order in which they occur, repetitions being declared once. -/
def evalContext (cfg : CCfg) (next : Nat) (ε : ℚ) (qs : List Variable) (g : Fml) : Outcome Ctx := do
  let n ← deltaStrengthen cfg.rnd ε (notF g)
  assertF cfg (declareAll qs (declareAll (Fml.all qs g).fv (Ctx.init next))) n

/-- `Interval::mag`: the largest absolute value. -/
def Itv.mag (i : Itv) : EQ :=
  match i.lb, i.ub with
  | .fin l, .fin u => .fin (max |l| |u|)
  | _, _ => .pinf

/-- The loop over the relations (`dreal/solver/forall_formula_evaluator.cc:114-126`). -/
def maxDiamOf (ops : IOps) (fp : Fp) (ce : Box) : List Fml → EQ → Outcome EQ
  | [], m => .ok m
  | f :: fs, m => do
    let r ← evalRel ops ce f
    let d := if r.1 = .unsat then r.2.mag else fp.diam r.2
    maxDiamOf ops fp ce fs (if m < d then d else m)

/-- The loop writing the outer box into the counterexample
(`dreal/solver/forall_formula_evaluator.cc:110-112`), with the code's look-up of undeclared
variables. -/
def writeRaw (b : Box) : List Variable → Box → Box
  | [], ce => ce
  | v :: vs, ce => writeRaw b vs (ce.setV v (b.getV v))

/-- `ForallFormulaEvaluator::operator()` (`dreal/solver/forall_formula_evaluator.cc:100-134`); `lits`
are the relations of `BuildFormulaEvaluators`. -/
def forallEval (cfg : CCfg) (lits : List Fml) (b : Box) (c : Ctx) :
    Run ((Verdict × Itv) × Ctx) := do
  let r ← checkSat cfg (setOuter b b.vars c)
  match r.1 with
  | none => .ok ((.valid, Itv.point 0), r.2)
  | some ce => do
    let m ← Run.lift (maxDiamOf cfg.env.ops cfg.env.fp (writeRaw b b.vars ce) lits (.fin 0))
    .ok ((.unknown, ⟨.fin 0, m⟩), r.2)

end Verif.Model
