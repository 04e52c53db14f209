import Verif.Model.Context
import Verif.Model.Subst

/-!
# Minimize

Models `Context::Impl::Minimize` (`dreal/solver/context_impl.cc:251-328`) and `Minimize`,
`Maximize` (`dreal/solver/context.cc:57-63`).
-/

namespace Verif.Model
open Verif

/-- `Variables::operator+=` (`symbolic/symbolic_variables.cc`).  Simplified: the elements are kept in
the order of insertion, in the code in the order of their ids; only the numbering of the variables
created below depends on it. -/
def addVars (xs new : List Variable) : List Variable :=
  new.foldl (fun acc v => if v ∈ acc then acc else acc ++ [v]) xs

/-- The variables and the constraints collected so far (`x_vars`, `constraints`), and
`keep_going`. -/
structure Related where
  vars : List Variable
  cons : List Fml := []
  keepGoing : Bool := false

/-- One pass over the stack (`dreal/solver/context_impl.cc:284-291`). -/
def relatedPass : List Fml → Related → Related
  | [], r => r
  | f :: fs, r =>
    if f ∉ r.cons ∧ haveIntersection r.vars f.fv = true then
      relatedPass fs ⟨addVars r.vars f.fv, r.cons ++ [f], true⟩
    else relatedPass fs r

/-- The loop that collects the constraints related to the objectives
(`dreal/solver/context_impl.cc:279-292`), with a bound on the number of passes. -/
def relatedLoop (stack : List Fml) : Nat → Related → Run Related
  | 0, _ => .oof
  | n + 1, r =>
    let r' := relatedPass stack { r with keepGoing := false }
    if r'.keepGoing then relatedLoop stack n r' else .ok r'

/-- The variables `y` for the variables `x` (`dreal/solver/context_impl.cc:294-298`). -/
def freshFor : Nat → List Variable → List (Variable × Variable)
  | _, [] => []
  | next, x :: xs => (x, ⟨next, x.type⟩) :: freshFor (next + 1) xs

/-- The negated bounds on `y` (`dreal/solver/context_impl.cc:299-309`). -/
def negBounds (y : Variable) (iv : Itv) : List Fml :=
  (match iv.lb with
    | .fin q => [notF (mkRel .leq (.const q) (.var y))]
    | _ => []) ++
  (match iv.ub with
    | .fin q => [notF (mkRel .leq (.var y) (.const q))]
    | _ => [])

/-- The loop over the objectives (`dreal/solver/context_impl.cc:317-325`): `new_z_block`,
`quantified` and the variables `z`. -/
def objectives (s : Subst) : List Expr → Nat → Fml → Fml → Fml × Fml × List Variable
  | [], _, zb, q => (zb, q, [])
  | f :: fs, next, zb, q =>
    let z : Variable := ⟨next, .continuous⟩
    let r := objectives s fs (next + 1) (andF zb (mkRel .eq (.var z) f))
      (orF q (mkRel .leq (.var z) (f.substitute s)))
    (r.1, r.2.1, z :: r.2.2)

/-- The constraint `psi` that `Minimize` asserts, the variables `z`, and the counter of variable ids
afterwards (`dreal/solver/context_impl.cc:271-326`).  A Boolean variable makes the conversion to
an expression throw (line 298); an undeclared variable is `ub` (what the code does with one is in
`BoxHeap.lean`). -/
def minimizePsi (next : Nat) (b : Box) (stack : List Fml) (objs : List Expr) :
    Run (Fml × List Variable × Nat) := do
  let r ← relatedLoop stack (stack.length + 1) ⟨addVars [] (objs.flatMap Expr.vars), [], false⟩
  if r.vars.any fun v => decide (v.type = .boolean) then .throw
  else if r.vars.any fun v => decide (v ∉ b.vars) then .ub
  else
    let ys := freshFor next r.vars
    let s : Subst := { ex := ys.map fun p => (p.1, .var p.2) }
    let negs := (ys.flatMap fun p => negBounds p.2 (b.getV p.1)) ++
      r.cons.map fun f => notF (f.substitute s)
    let o := objectives s objs (next + r.vars.length) .tt (mkDisj (toSet negs))
    .ok (andF o.1 (forallF (ys.map Prod.snd) o.2.1), o.2.2,
      next + r.vars.length + objs.length)

/-- `Context::Impl::Minimize` (`dreal/solver/context_impl.cc:251-328`). -/
def minimize (cfg : CCfg) (c : Ctx) (objs : List Expr) : Run Ctx := do
  let r ← minimizePsi c.sat.abs.next c.box c.stack.vec objs
  let c := c.setBox (r.2.1.foldl addToBox c.box)
  Run.lift (assertF cfg { c with sat := { c.sat with abs := { c.sat.abs with next := r.2.2 } } } r.1)

/-- `Context::Maximize` (`dreal/solver/context.cc:63`). -/
def maximize (cfg : CCfg) (c : Ctx) (f : Expr) : Run Ctx := minimize cfg c [.mul (.const (-1)) f]

end Verif.Model
