import Verif.Model.Explain
import Verif.Model.Filter
import Verif.Model.Icp

/-!
# The theory solver

Models `dreal/solver/theory_solver.cc`.
-/

namespace Verif.Model
open Verif

/-- `contractor_cache_` (`dreal/solver/theory_solver.h:65`): keyed by the formula alone. -/
abbrev Cache := List (Fml × Ctc)

/-- The configuration the theory solver looks at, and the parameters of the search: `jobs` and
`sched` select the parallel search (`jobs > 1`) and the schedule it runs under; `fuel` bounds the
search. -/
structure TCfg where
  dbl : Dbl
  usePoly : Bool := false
  useWorklist : Bool := false
  left : Bool := false
  jobs : Nat := 1
  sched : List Nat := []
  fuel : Nat

/-- The contractor of one literal (`dreal/solver/theory_solver.cc:184-196`). -/
def litCtc (f : Fml) (b : Box) : Outcome Ctc :=
  if f.isAll then .ok (mkFixpoint [.forallC b.vars f]) else mkFwdbwd f b

/-- The contractor of one literal, from the cache or built and cached
(`dreal/solver/theory_solver.cc:179-202`). -/
def cachedCtc (f : Fml) (b : Box) (cache : Cache) : Outcome (Ctc × Cache) :=
  match cache.find? fun p => decide (p.1 = f) with
  | some p => .ok (p.2, cache)
  | none => do
    let c ← litCtc f b
    .ok (c, (f, c) :: cache)

/-- The loop over the literals (`dreal/solver/theory_solver.cc:151-203`); `none` is the return of
an empty `optional` after the box became empty. -/
def buildLoop (d : Dbl) : List Fml → Cache → CStatus →
    Outcome (Option (List Ctc) × Cache × CStatus)
  | [], cache, s => .ok (some [], cache, s)
  | f :: fs, cache, s => do
    let r ← Filter.filter d f s.box
    match r.1 with
    | .notFiltered => do
      let s' := if s.box ≠ r.2 then { s with box := r.2 }.addUsed f else s
      let c ← cachedCtc f s'.box cache
      let rest ← buildLoop d fs c.2 s'
      .ok (rest.1.map fun cs => c.1 :: cs, rest.2)
    | .withChange =>
      let s' := { s with box := r.2 }.addUsed f
      if s'.box.empty then .ok (none, cache, { s' with witness := f.fv ++ s'.witness })
      else buildLoop d fs cache s'
    | .withoutChange => buildLoop d fs cache { s with box := r.2 }

/-- `TheorySolver::BuildContractor` (`dreal/solver/theory_solver.cc:140-225`). -/
def buildContractor (cfg : TCfg) (fs : List Fml) (cache : Cache) (s : CStatus) :
    Outcome (Option Ctc × Cache × CStatus) :=
  if fs.isEmpty then .ok (some (mkInteger s.box), cache, s)
  else do
    let r ← buildLoop cfg.dbl fs cache s
    match r.1 with
    | none => .ok (none, r.2)
    | some cs =>
      let b := r.2.2.box
      let poly ← if cfg.usePoly then do
          let p ← mkPolytope fs b
          .ok [p]
        else .ok []
      let cs' := cs ++ [mkInteger b] ++ poly
      .ok (some (if cfg.useWorklist then mkWorklist cs' else mkFixpoint cs'), r.2)

/-- `TheorySolver::BuildFormulaEvaluator` (`dreal/solver/theory_solver.cc:227-252`): the evaluator
of a formula that is neither quantified nor a possibly negated relation throws when it is
constructed (`dreal/solver/relational_formula_evaluator.cc:29-83`). -/
def buildEvaluators : List Fml → Outcome Unit
  | [] => .ok ()
  | f :: fs => do
    let _ ← if f.isAll then .ok RelOp.eq else getRelOp f
    buildEvaluators fs

/-- The search (`dreal/solver/theory_solver.cc:45-52`). -/
def icp (env : Env) (cfg : TCfg) (c : Ctc) (fs : List Fml) (s : CStatus) : Run (Bool × CStatus) :=
  if 1 < cfg.jobs then icpPar env cfg.jobs cfg.left c fs cfg.sched s
  else icpSeq env cfg.left c fs cfg.fuel s

/-- The answer of the theory solver. -/
inductive TAnswer where
  | sat (model : Box)
  | unsat (expl : List Fml)

/-- `TheorySolver::CheckSat` (`dreal/solver/theory_solver.cc:254-291`).  `tick` counts the uses of
nested solvers, see `CStatus`. -/
def theoryCheck (env : Env) (cfg : TCfg) (cache : Cache) (tick : Nat) (b : Box) (fs : List Fml) :
    Run (TAnswer × Cache × Nat) := do
  let r ← Run.lift (buildContractor cfg fs cache { box := b, tick := tick })
  let s := r.2.2
  match r.1 with
  | some c => do
    let _ ← Run.lift (buildEvaluators fs)
    let q ← icp env cfg c fs s
    if q.2.box.empty then do
      let e ← explanation (q.2.used.length + 1) q.2.witness q.2.used
      .ok (.unsat e, r.2.1, q.2.tick)
    else .ok (.sat q.2.box, r.2.1, q.2.tick)
  | none =>
    if s.box.empty then do
      let e ← explanation (s.used.length + 1) s.witness s.used
      .ok (.unsat e, r.2.1, s.tick)
    else .ub

end Verif.Model
