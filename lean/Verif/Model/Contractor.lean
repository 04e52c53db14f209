import Verif.Model.Eval
import Verif.Model.Nnf

/-!
# Contractors

Models `dreal/contractor/contractor*.cc`, `contractor_status.cc`, `generic_contractor_generator.cc`
and the formula part of `dreal/util/ibex_converter.cc`.

Parameters (IBEX and the nested solver of the forall contractor) are the fields of `Ibex`.
Loops whose number of iterations is not known beforehand carry fuel; running out of it is the
separate outcome `oof`, which no C++ execution produces (it stands for "still running").
-/

namespace Verif.Model
open Verif

/-- Result of a loop: `Outcome` and "still running". -/
inductive Run (α : Type) where
  | ok (a : α)
  | throw
  | ub
  | oof
deriving DecidableEq, Repr

namespace Run

def bind {α β : Type} (x : Run α) (f : α → Run β) : Run β :=
  match x with
  | ok a => f a
  | throw => throw
  | ub => ub
  | oof => oof

instance : Monad Run where
  pure := ok
  bind := bind

@[simp] theorem bind_ok {α β : Type} (a : α) (f : α → Run β) : ((ok a : Run α) >>= f) = f a := rfl
@[simp] theorem bind_throw {α β : Type} (f : α → Run β) : ((throw : Run α) >>= f) = throw := rfl
@[simp] theorem bind_ub {α β : Type} (f : α → Run β) : ((ub : Run α) >>= f) = ub := rfl
@[simp] theorem bind_oof {α β : Type} (f : α → Run β) : ((oof : Run α) >>= f) = oof := rfl

def lift {α : Type} : Outcome α → Run α
  | .ok a => ok a
  | .throw => throw
  | .ub => ub

end Run

/-- `ContractorStatus` (`dreal/contractor/contractor_status.h:28-94`,
`dreal/contractor/contractor_status.cc:70-88`).  The bit set `output_` is the list of its set bits, the sets
`unsat_witness_` and `used_constraints_` are lists.  `branch = none` is branching point -1.
`tick` is a ghost counter: the number of calls of stateful sub-solvers so far (see `Ibex`). -/
structure CStatus where
  box : Box
  branch : Option Nat := none
  output : List Nat := []
  witness : List Variable := []
  used : List Fml := []
  tick : Nat := 0

namespace CStatus

/-- `ContractorStatus::AddUnsatWitness` (`dreal/contractor/contractor_status.cc:107-110`). -/
def addWitness (s : CStatus) (v : Variable) : CStatus := { s with witness := v :: s.witness }

/-- `ContractorStatus::AddUsedConstraint(f)` (`dreal/contractor/contractor_status.cc:90-99`). -/
def addUsed (s : CStatus) (f : Fml) : CStatus :=
  { s with witness := if s.box.empty then f.fv ++ s.witness else s.witness
           used := f :: s.used }

/-- `ContractorStatus::AddUsedConstraint(formulas)`
(`dreal/contractor/contractor_status.cc:101-105`). -/
def addUseds (s : CStatus) : List Fml → CStatus
  | [] => s
  | f :: fs => (s.addUsed f).addUseds fs

/-- `ContractorStatus::InplaceJoin` (`dreal/contractor/contractor_status.cc:168-177`). -/
def join (s t : CStatus) : Outcome CStatus := do
  let b ← s.box.union t.box
  .ok { s with box := b, output := s.output ++ t.output, witness := s.witness ++ t.witness
               used := s.used ++ t.used, tick := max s.tick t.tick }

end CStatus

/-- `ibex::ExprCtr`: the constraint `e op 0`. -/
structure Ctr where
  op : RelOp
  e : Expr

/-- Whether `IbexConverter::Visit(Expression)` returns on an expression over the variables `vs`
(`dreal/util/ibex_converter.cc:127-144,318-326`): a foreign variable or an if-then-else
throws. -/
def ibexExprOk (vs : List Variable) : Expr → Bool
  | .const _ => true
  | .rconst _ => true
  | .var v => decide (v ∈ vs)
  | .add a b => ibexExprOk vs a && ibexExprOk vs b
  | .mul a b => ibexExprOk vs a && ibexExprOk vs b
  | .app1 _ a => ibexExprOk vs a
  | .app2 _ a b => ibexExprOk vs a && ibexExprOk vs b
  | .ite _ _ _ => false

/-- `&(*Visit(e) op *zero_)` of `dreal/util/ibex_converter.cc:348-374`. -/
def mkCtr (vs : List Variable) (op : RelOp) (e : Expr) : Outcome (Option Ctr) :=
  if ibexExprOk vs e then .ok (some ⟨op, e⟩) else .throw

/-- `IbexConverter::Visit(Formula, polarity)` (`dreal/util/ibex_converter.cc:329-403`); `none`
is `nullptr`. -/
def ibexConv (vs : List Variable) : Bool → Fml → Outcome (Option Ctr)
  | _, .ff => .throw
  | _, .tt => .ok none
  | _, .bvar _ => .throw
  | pol, .rel .eq a b => if pol then mkCtr vs .eq (a.sub b) else .ok none
  | pol, .rel .neq a b => if !pol then mkCtr vs .eq (a.sub b) else .ok none
  | pol, .rel .gt a b => if pol then mkCtr vs .gt (a.sub b) else mkCtr vs .leq (a.sub b)
  | pol, .rel .geq a b => if pol then mkCtr vs .geq (a.sub b) else mkCtr vs .lt (a.sub b)
  | pol, .rel .lt a b => if !pol then mkCtr vs .geq (a.sub b) else mkCtr vs .lt (a.sub b)
  | pol, .rel .leq a b => if !pol then mkCtr vs .gt (a.sub b) else mkCtr vs .leq (a.sub b)
  | _, .conj _ => .throw
  | _, .disj _ => .throw
  | pol, .neg f => ibexConv vs (!pol) f
  | _, .all _ _ => .throw

/-- The external operators, parameters of the model.
* `bwd`: `num_ctr_->f.backward(rhs, iv)` (HC4-revise) on an interval vector laid out as the given
  box; returns the "inner" flag and the new vector;
* `poly`: `CtcPolytopeHull::contract`;
* `term`: the termination condition on the old and the new interval vector;
* `forallC n vs f b`: the loop of `ContractorForall::Prune`
  (`dreal/contractor/contractor_forall.h:187-230`) of the contractor built for a box with
  variables `vs`, on box `b`, at its `n`-th use (its nested context has state); returns the new
  box and the output bits it sets. -/
structure Ibex where
  bwd : Ctr → Box → Bool × Box
  poly : List Ctr → Box → Box
  term : List Itv → List Itv → Bool
  forallC : Nat → List Variable → Fml → Box → Run (Box × List Nat)

/-- Contractors (`dreal/contractor/contractor_cell.h`, one constructor per `Contractor::Kind`).
The atomic ones remember the variables of the box they were built for.  The `Mt` variants
(`contractor_ibex_fwdbwd_mt.cc`, `contractor_ibex_polytope_mt.cc`), which hold one of the
sequential ones per thread, are the same operators here. -/
inductive Ctc where
  | id
  | integer (idxs : List Nat)
  | seq (cs : List Ctc)
  | join (cs : List Ctc)
  | fixpoint (cs : List Ctc)
  | worklist (cs : List Ctc)
  | fwdbwd (vs : List Variable) (f : Fml) (c : Ctr)
  | polytope (vs : List Variable) (fs : List Fml) (cs : List Ctr)
  | forallC (vs : List Variable) (f : Fml)

/-- `box.index(var)` for the variables of `fv` (`dreal/contractor/contractor_ibex_fwdbwd.cc:80-83`). -/
def indexesIn (vs fv : List Variable) : List Nat := fv.map fun v => if v ∈ vs then vs.idxOf v else 0

mutual
/-- `Contractor::input` (set bits): `dreal/contractor/contractor_integer.cc:30-38`, `dreal/contractor/contractor_seq.cc:34-40` and
the same in `contractor_join.cc`, `contractor_fixpoint.cc`, `contractor_worklist_fixpoint.cc`;
`dreal/contractor/contractor_ibex_fwdbwd.cc:79-83`, `dreal/contractor/contractor_ibex_polytope.cc:74-80`,
`dreal/contractor/contractor_forall.h:120-124`. -/
def Ctc.input : Ctc → List Nat
  | .id => []
  | .integer idxs => idxs
  | .seq cs => Ctc.inputs cs
  | .join cs => Ctc.inputs cs
  | .fixpoint cs => Ctc.inputs cs
  | .worklist cs => Ctc.inputs cs
  | .fwdbwd vs f _ => indexesIn vs f.fv
  | .polytope vs fs _ => fs.flatMap fun f => indexesIn vs f.fv
  | .forallC vs f => indexesIn vs f.fv
def Ctc.inputs : List Ctc → List Nat
  | [] => []
  | c :: cs => c.input ++ Ctc.inputs cs
end

abbrev Pruner := CStatus → Run CStatus

/-- `ContractorSeq::Prune` (`dreal/contractor/contractor_seq.cc:43-50`); also the inner loop of
`ContractorFixpoint::Prune` (`dreal/contractor/contractor_fixpoint.cc:61-66`). -/
def seqRun : List Pruner → Pruner
  | [], s => .ok s
  | p :: ps, s => do
    let s' ← p s
    if s'.box.empty then .ok s' else seqRun ps s'

/-- The loop of `ContractorJoin::Prune` (`dreal/contractor/contractor_join.cc:46-50`); `s` is
the saved original status. -/
def joinLoop (s : CStatus) : List Pruner → CStatus → Run CStatus
  | [], acc => .ok acc
  | p :: ps, acc => do
    let si ← p s
    let acc' ← Run.lift (acc.join si)
    joinLoop s ps acc'

/-- `ContractorJoin::Prune` (`dreal/contractor/contractor_join.cc:43-51`). -/
def joinRun (ps : List Pruner) : Pruner := fun s =>
  joinLoop s ps { s with box := s.box.setEmpty }

/-- `ContractorFixpoint::Prune` (`dreal/contractor/contractor_fixpoint.cc:48-68`). -/
def fixLoop (term : List Itv → List Itv → Bool) (ps : List Pruner) : Nat → Pruner
  | 0, _ => .oof
  | n + 1, s => do
    let s' ← seqRun ps s
    if s'.box.empty then .ok s'
    else if term s.box.vals s'.box.vals then .ok s'
    else fixLoop term ps n s'

/-- `UpdateWorklist` (`dreal/contractor/contractor_worklist_fixpoint.cc:32-40`): `inputs[j]` is
the input of contractor `j`. -/
def wlUpdate (inputs : List (List Nat)) (out : List Nat) (wl : Nat → Bool) : Nat → Bool :=
  fun j => wl j || out.any fun i => (inputs.getD j []).contains i

/-- `find_first`/`find_next` on the work list: the least set bit from `i` on. -/
def wlFind (n : Nat) (wl : Nat → Bool) (i : Nat) : Option Nat :=
  (List.range n).find? fun j => decide (i ≤ j) && wl j

/-- Filling the work list (`dreal/contractor/contractor_worklist_fixpoint.cc:100-130`): run the
contractors `js`; an empty box ends the call (then the returned work list is not looked at). -/
def wlFill (ps : List Pruner) (inputs : List (List Nat)) :
    List Nat → CStatus → (Nat → Bool) → Run (CStatus × (Nat → Bool))
  | [], s, wl => .ok (s, wl)
  | j :: js, s, wl => do
    let s' ← (ps.getD j fun _ => .ub) { s with output := [] }
    if s'.box.empty then .ok (s', wl)
    else wlFill ps inputs js s' (wlUpdate inputs s'.output wl)

/-- The work-list loop (`dreal/contractor/contractor_worklist_fixpoint.cc:136-155`).  The inner
`while (true)` is left only by `return`, so the outer condition is never evaluated. -/
def wlLoop (ps : List Pruner) (inputs : List (List Nat)) :
    Nat → Nat → CStatus → (Nat → Bool) → Run CStatus
  | 0, _, _, _ => .oof
  | n + 1, j, s, wl => do
    let s' ← (ps.getD j fun _ => .ub) { s with output := [] }
    if s'.box.empty then .ok s'
    else
      let wl' := wlUpdate inputs s'.output (fun k => if k = j then false else wl k)
      match wlFind ps.length wl' (j + 1) with
      | some k => wlLoop ps inputs n k s' wl'
      | none =>
        match wlFind ps.length wl' 0 with
        | some k => wlLoop ps inputs n k s' wl'
        | none => .ok s'

/-- `ContractorWorklistFixpoint::Prune`
(`dreal/contractor/contractor_worklist_fixpoint.cc:90-156`). -/
def wlRun (term : List Itv → List Itv → Bool) (ps : List Pruner) (inputs : List (List Nat))
    (n : Nat) : Pruner := fun s => do
  let js := match s.branch with
    | none => List.range ps.length
    | some d => (List.range ps.length).filter fun j => (inputs.getD j []).contains d
  let r ← wlFill ps inputs js s (fun _ => false)
  if r.1.box.empty then .ok r.1
  else match wlFind ps.length r.2 0 with
    | none => .ok r.1
    | some k => if term s.box.vals r.1.box.vals then .ok r.1 else wlLoop ps inputs n k r.1 r.2

/-- `ContractorInteger::Prune` (`dreal/contractor/contractor_integer.cc:42-64`).  All intervals of
an empty box are empty. -/
def integerLoop : List Nat → Pruner
  | [], s => .ok s
  | i :: is, s =>
    let iv := s.box.get i
    if s.box.bot || iv.isEmpty then integerLoop is s
    else if !iv.lb.isInt || !iv.ub.isInt then
      if iv.lb.ceil ≤ iv.ub.floor then
        integerLoop is { s with box := s.box.set i ⟨iv.lb.ceil, iv.ub.floor⟩
                                output := i :: s.output }
      else match s.box.vars[i]? with
        | some v => .ok ({ s with box := s.box.setEmpty
                                  output := List.range s.box.size }.addWitness v)
        | none => .ub
    else integerLoop is s

/-- The first `n` components of an interval vector, unbounded ones beyond its end. -/
def padTo (n : Nat) (vals : List Itv) : List Itv :=
  (vals ++ List.replicate (n - vals.length) Itv.univ).take n

/-- `num_ctr_->f.backward(rhs, iv)` (`dreal/contractor/contractor_ibex_fwdbwd.cc:100-101`) of a
contractor built for the variables `ws`.  IBEX works on the interval vector by position; a vector
of another length arises when variables were declared or popped since the contractor was cached.
IBEX then touches the components of the variables of the constraint and no others; a component
the constraint does not use may be missing. -/
def posBwd (ib : Ibex) (ws : List Variable) (c : Ctr) (b : Box) : Bool × Box :=
  let r := ib.bwd c ⟨ws, padTo ws.length b.vals, b.bot⟩
  (r.1, { b with vals := (r.2.vals ++ b.vals.drop ws.length).take b.vals.length
                 bot := r.2.bot })

/-- `ContractorIbexFwdbwd::Prune` (`dreal/contractor/contractor_ibex_fwdbwd.cc:89-137`), of a
contractor built for a box with the variables `vs`. -/
def fwdbwdRun (ib : Ibex) (vs : List Variable) (f : Fml) (c : Ctr) : Pruner := fun s =>
  let r := posBwd ib vs c s.box
  let s' := { s with box := r.2 }
  if r.1 then .ok s'
  else if s'.box.empty then
    .ok ({ s' with output := List.range s.box.size }.addUsed f)
  else
    let ch := (indexesIn vs f.fv).filter fun i => decide (s.box.get i ≠ s'.box.get i)
    if ch = [] then .ok s'
    else .ok ({ s' with output := ch ++ s.output }.addUsed f)

/-- `ContractorIbexPolytope::Prune` (`dreal/contractor/contractor_ibex_polytope.cc:83-113`). -/
def polytopeRun (ib : Ibex) (vs : List Variable) (fs : List Fml) (cs : List Ctr) : Pruner :=
  fun s =>
    if vs.length ≠ s.box.vals.length then .ub
    else
      let r := ib.poly cs ⟨vs, s.box.vals, s.box.bot⟩
      let s' := { s with box := { s.box with vals := r.vals, bot := r.bot } }
      if s'.box.empty then .ok ({ s' with output := List.range s.box.size }.addUseds fs)
      else
        let ch := (List.range s.box.size).filter fun i => decide (s.box.get i ≠ s'.box.get i)
        if ch = [] then .ok s'
        else .ok ({ s' with output := ch ++ s.output }.addUseds fs)

/-- `ContractorForall::Prune` (`dreal/contractor/contractor_forall.h:187-232`), its loop being a
parameter. -/
def forallRun (ib : Ibex) (vs : List Variable) (f : Fml) : Pruner := fun s => do
  let r ← ib.forallC s.tick vs f s.box
  .ok ({ s with box := r.1, output := r.2 ++ s.output, tick := s.tick + 1 }.addUsed f)

mutual
/-- `Contractor::Prune` (`dreal/contractor/contractor.cc:103-109`, dispatching to the cells). -/
def prune (ib : Ibex) (n : Nat) : Ctc → Pruner
  | .id => fun s => .ok s
  | .integer idxs => integerLoop idxs
  | .seq cs => seqRun (prunes ib n cs)
  | .join cs => joinRun (prunes ib n cs)
  | .fixpoint cs => fixLoop ib.term (prunes ib n cs) n
  | .worklist cs => wlRun ib.term (prunes ib n cs) (cs.map Ctc.input) n
  | .fwdbwd vs f c => fwdbwdRun ib vs f c
  | .polytope vs fs cs => polytopeRun ib vs fs cs
  | .forallC vs f => forallRun ib vs f
def prunes (ib : Ibex) (n : Nat) : List Ctc → List Pruner
  | [] => []
  | c :: cs => prune ib n c :: prunes ib n cs
end

/-- `Flatten` (`dreal/contractor/contractor.cc:48-67`). -/
def flatten : List Ctc → List Ctc
  | [] => []
  | .id :: cs => flatten cs
  | .seq ds :: cs => ds ++ flatten cs
  | c :: cs => c :: flatten cs

/-- `make_contractor_integer` (`dreal/contractor/contractor.cc:121-132`). -/
def mkInteger (b : Box) : Ctc :=
  let idxs := (List.range b.size).filter fun i => match b.vars[i]? with
    | some v => decide (v.type = .integer) || decide (v.type = .binary)
    | none => false
  if idxs = [] then .id else .integer idxs

/-- `make_contractor_seq` (`dreal/contractor/contractor.cc:134-137`, `dreal/contractor/contractor_seq.cc:33`). -/
def mkSeq (cs : List Ctc) : Outcome Ctc :=
  if (flatten cs).isEmpty then .ub else .ok (.seq (flatten cs))

/-- `make_contractor_fixpoint` (`dreal/contractor/contractor.cc:180-190`). -/
def mkFixpoint (cs : List Ctc) : Ctc := if (flatten cs).isEmpty then .id else .fixpoint (flatten cs)

/-- `make_contractor_worklist_fixpoint` (`dreal/contractor/contractor.cc:192-202`). -/
def mkWorklist (cs : List Ctc) : Ctc := if (flatten cs).isEmpty then .id else .worklist (flatten cs)

/-- `make_contractor_join` (`dreal/contractor/contractor.cc:204-206`, `dreal/contractor/contractor_join.cc:33`). -/
def mkJoin (cs : List Ctc) : Outcome Ctc := if cs.isEmpty then .ub else .ok (.join cs)

/-- `make_contractor_ibex_fwdbwd` (`dreal/contractor/contractor.cc:139-158`,
`dreal/contractor/contractor_ibex_fwdbwd.cc:68-87`). -/
def mkFwdbwd (f : Fml) (b : Box) : Outcome Ctc := do
  let c ← ibexConv b.vars true f
  match c with
  | some c => .ok (.fwdbwd b.vars f c)
  | none => .ok .id

/-- The loop of `dreal/contractor/contractor_ibex_polytope.cc:48-59`. -/
def polyCtrs (vs : List Variable) : List Fml → Outcome (List Ctr)
  | [] => .ok []
  | f :: fs =>
    if f.isAll then polyCtrs vs fs
    else do
      let c ← ibexConv vs true f
      let cs ← polyCtrs vs fs
      match c with
      | some c => .ok (c :: cs)
      | none => .ok cs

/-- `make_contractor_ibex_polytope` (`dreal/contractor/contractor.cc:160-178`,
`dreal/contractor/contractor_ibex_polytope.cc:36-81`). -/
def mkPolytope (fs : List Fml) (b : Box) : Outcome Ctc := do
  let cs ← polyCtrs b.vars fs
  if cs.isEmpty then .ok .id else .ok (.polytope b.vars fs cs)

/-- The relation cases of `GenericContractorGenerator`
(`dreal/contractor/generic_contractor_generator.cc:58-114`). -/
def genRel (usePoly : Bool) (b : Box) (f : Fml) : Outcome Ctc :=
  if usePoly then mkPolytope [f] b else mkFwdbwd f b

mutual
/-- `GenericContractorGenerator::Visit`
(`dreal/contractor/generic_contractor_generator.cc:37-156`). -/
def genVisit (usePoly : Bool) (b : Box) : Fml → Outcome Ctc
  | .ff => .throw
  | .tt => .ok .id
  | .bvar _ => .throw
  | .rel op x y => genRel usePoly b (.rel op x y)
  | .conj fs => do
    let cs ← genConj usePoly b fs
    if usePoly then do
      let p ← mkPolytope (fs.filter Fml.isRel) b
      mkSeq (cs ++ [p])
    else mkSeq cs
  | .disj fs => do
    let cs ← genDisj usePoly b fs
    mkJoin cs
  | .neg _ => .throw
  | .all _ _ => .throw
/-- The operand loop of `VisitConjunction`
(`dreal/contractor/generic_contractor_generator.cc:121-127`), without the relations set aside
for the polytope contractor. -/
def genConj (usePoly : Bool) (b : Box) : List Fml → Outcome (List Ctc)
  | [] => .ok []
  | f :: fs =>
    if usePoly && f.isRel then genConj usePoly b fs
    else do
      let c ← genVisit usePoly b f
      let cs ← genConj usePoly b fs
      .ok (c :: cs)
/-- The operand loop of `VisitDisjunction`
(`dreal/contractor/generic_contractor_generator.cc:139-141`). -/
def genDisj (usePoly : Bool) (b : Box) : List Fml → Outcome (List Ctc)
  | [] => .ok []
  | f :: fs => do
    let c ← genVisit usePoly b f
    let cs ← genDisj usePoly b fs
    .ok (c :: cs)
end

/-- `GenericContractorGenerator::Generate`
(`dreal/contractor/generic_contractor_generator.cc:30-35`). -/
def generate (usePoly : Bool) (f : Fml) (b : Box) : Outcome Ctc :=
  genVisit usePoly b (nnf true f)

end Verif.Model
