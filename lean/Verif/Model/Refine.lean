import Verif.Model.Filter
import Verif.Model.Forall
import Verif.Model.Nlopt

/-!
# Refining counterexamples by local optimisation

Models `dreal/contractor/counterexample_refiner.cc`.
-/

namespace Verif.Model
open Verif

/-- The problem given to NLopt (`dreal/optimization/nlopt_optimizer.cc:68-108`): the decision
variables with their bounds, the constraints, and the function to minimise. -/
structure NlProblem where
  box : Box
  cons : List NlCon
  obj : Option Expr

/-- The operands looked at (`dreal/contractor/counterexample_refiner.cc:42-57`). -/
def queryOps : Fml → List Fml
  | .conj fs => fs
  | f => [f]

/-- Filtering the bounds (`dreal/contractor/counterexample_refiner.cc:39-57`): the formulas that are
left, and the box.  A formula that is no relation violates the assertions of lines 45 and 52. -/
def filterAll (d : Dbl) : List Fml → Box → Outcome (List Fml × Box)
  | [], b => .ok ([], b)
  | f :: fs, b =>
    if f.isRel then do
      let r ← Filter.filter d f b
      let s ← filterAll d fs r.2
      .ok (if r.1 = .notFiltered then f :: s.1 else s.1, s.2)
    else .ub

/-- What a formula adds to the objective (`dreal/contractor/counterexample_refiner.cc:77-96`). -/
def objTerm (qs : List Variable) : Fml → Option Expr
  | .rel op a b =>
    if ∀ v ∈ (Fml.rel op a b).fv, v ∈ qs then none
    else match op with
      | .gt | .geq => some (b.sub a)
      | .lt | .leq => some (a.sub b)
      | _ => none
  | _ => none

/-- The objective (`dreal/contractor/counterexample_refiner.cc:75-102`).  Simplified: it is left out
if nothing is added, not if the sum simplifies to zero. -/
def objective (qs : List Variable) (fs : List Fml) : Option Expr :=
  match fs.filterMap (objTerm qs) with
  | [] => none
  | e :: es => some (es.foldl .add e)

/-- The constraints (`dreal/contractor/counterexample_refiner.cc:97-98`). -/
def relCons : List Fml → Outcome (List NlCon)
  | [] => .ok []
  | f :: fs => do
    let c ← addRelational f
    let cs ← relCons fs
    .ok (c :: cs)

/-- The box of the quantified variables (`dreal/contractor/counterexample_refiner.cc:32-39`). -/
def quantBox (qs : List Variable) : Box := ⟨qs, qs.map fun v => Box.initItv v.type, false⟩

/-- The constructor of `CounterexampleRefiner`
(`dreal/contractor/counterexample_refiner.cc:29-103`).  `none`: nothing is left to optimise. -/
def refinerNew (d : Dbl) (query : Fml) (qs : List Variable) : Outcome (Option NlProblem) := do
  let r ← filterAll d (queryOps query) (quantBox qs)
  if r.1.isEmpty then .ok none
  else
    let cs ← relCons r.1
    .ok (some ⟨r.2, cs, objective qs r.1⟩)

/-- `box[var] = x` for a double (`dreal/contractor/counterexample_refiner.cc:150`): an infinity is
no element of an interval and makes it empty. -/
def pointOf : EQ → Itv
  | .fin q => Itv.point q
  | _ => Itv.empty

/-- Moving the solution into the box (`dreal/contractor/counterexample_refiner.cc:147-151`).  The
emptiness of an interval vector is that of its first component. -/
def movePoint : List Variable → List EQ → Box → Outcome Box
  | v :: vs, x :: xs, b =>
    if v ∈ b.vars then
      movePoint vs xs { b.setV v (pointOf x) with
        bot := if b.index v = 0 then (pointOf x).isEmpty else b.bot }
    else .ub
  | [], _, b => .ok b
  | _ :: _, [], _ => .ub

/-- `CounterexampleRefiner::Refine` (`dreal/contractor/counterexample_refiner.cc:105-164`).  The
optimiser is a parameter: from the problem, the values of the other variables and the starting point
it finds a point, or fails or throws. -/
def refineBox (fp : Fp) (opt : NlProblem → List (Variable × ℚ) → List ℚ → Option (List EQ))
    (qs : List Variable) (p : Option NlProblem) (b : Box) : Outcome Box :=
  match p with
  | none => .ok b
  | some p =>
    let env := (b.vars.filter fun v => v ∉ qs).map fun v => (v, fp.mid (b.getV v))
    let init := (b.vars.filter fun v => v ∈ qs).map fun v => fp.mid (b.getV v)
    match opt p env init with
    | none => .ok b
    | some x => movePoint qs x b

/-- The refiner of a `ContractorForall` (`dreal/contractor/contractor_forall.h:77-81,125-129,
217-219`): made from the strengthened negation of the quantified formula.  Simplified: the
constructor is run again at each use. -/
def ctcRefine (cfg : CCfg) (fp : Fp) (ε : ℚ)
    (opt : NlProblem → List (Variable × ℚ) → List ℚ → Option (List EQ)) (f : Fml) (b : Box) :
    Run Box :=
  match f with
  | .all qs g => do
    let n ← Run.lift (deltaStrengthen cfg.rnd ε (notF g))
    let p ← Run.lift (refinerNew cfg.th.dbl (nnf true n) qs)
    Run.lift (refineBox fp opt qs p b)
  | _ => .ub

end Verif.Model
