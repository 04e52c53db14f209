import Verif.Model.Contractor

/-!
# Branch and prune

Models `dreal/solver/icp.cc`, `icp_seq.cc`, `icp_parallel.cc`.
-/

namespace Verif.Model
open Verif

/-- What the search is run with: the external operations, the precision, the brancher
(`Config::brancher`), the fuel given to every pruning, and the forall evaluator
(`dreal/solver/forall_formula_evaluator.cc:100-134`), whose nested context has state: `evalAll n f
b` is the answer at its `n`-th use. -/
structure Env where
  ops : IOps
  fp : Fp
  ib : Ibex
  delta : ℚ
  fuel : Nat
  brancher : Box → List Nat → Outcome (Option (Nat × Box × Box))
  evalAll : Nat → Fml → Box → Run (Verdict × Itv)

/-- `FormulaEvaluator::operator()` (`dreal/solver/formula_evaluator.cc:67-69`), for the evaluator
built for `f` (`dreal/solver/theory_solver.cc:227-251`). -/
def evalLit (env : Env) (tick : Nat) (b : Box) (f : Fml) : Run (Verdict × Itv) :=
  if f.isAll then env.evalAll tick f b else Run.lift (evalRel env.ops b f)

/-- `FormulaEvaluator::variables` (`dreal/solver/relational_formula_evaluator.h:54-56`,
`dreal/solver/forall_formula_evaluator.cc:140-142`).  Simplified: the difference of the two sides is not
simplified, so a variable that cancels is still listed. -/
def evalVars (f : Fml) : List Variable := f.fv

/-- The body of the loop of `EvaluateBox` after the evaluator has answered `UNKNOWN`
(`dreal/solver/icp.cc:55-73`): the variables to branch on. -/
def candidates (env : Env) (b : Box) (f : Fml) (iv : Itv) : List Nat :=
  if .fin env.delta < env.fp.diam iv then
    if isSimpleRel f || isNeq f true then [] else (evalVars f).map b.index
  else []

/-- `EvaluateBox` (`dreal/solver/icp.cc:30-76`); `none` is `nullopt`, otherwise the indexes set
(in any order, with repetitions). -/
def evalBox (env : Env) : List Fml → List Nat → CStatus → Run (CStatus × Option (List Nat))
  | [], cand, s => .ok (s, some cand)
  | f :: fs, cand, s => do
    let r ← evalLit env s.tick s.box f
    let s1 := if f.isAll then { s with tick := s.tick + 1 } else s
    match r.1 with
    | .unsat => .ok ({ s1 with box := s1.box.setEmpty }.addUsed f, none)
    | .valid => evalBox env fs cand s1
    | .unknown => evalBox env fs (candidates env s.box f r.2 ++ cand) s1

/-- The set bits in increasing order. -/
def bits (b : Box) (cand : List Nat) : List Nat := (List.range b.size).filter fun i => i ∈ cand

/-- The loop of `IcpSeq::CheckSat` (`dreal/solver/icp_seq.cc:62-140`).  The head of the list is
the top of the stack; `left` is `stack_left_box_first_`. -/
def icpLoop (env : Env) (c : Ctc) (fs : List Fml) :
    Nat → Bool → List (Box × Option Nat) → CStatus → Run (Bool × CStatus)
  | _, _, [], s => .ok (false, s)
  | 0, _, _ :: _, _ => .oof
  | n + 1, left, (b, d) :: stack, s => do
    let s1 ← prune env.ib env.fuel c { s with box := b, branch := d }
    if s1.box.empty then icpLoop env c fs n left stack s1
    else
      let r ← evalBox env fs [] s1
      match r.2 with
      | none => icpLoop env c fs n left stack r.1
      | some cand =>
        if bits r.1.box cand = [] then .ok (true, r.1)
        else
          let br ← Run.lift (env.brancher r.1.box (bits r.1.box cand))
          match br with
          | none => .ok (true, r.1)
          | some (i, b1, b2) =>
            let stack' := if left then (b2, some i) :: (b1, some i) :: stack
              else (b1, some i) :: (b2, some i) :: stack
            icpLoop env c fs n (!left) stack' r.1

/-- `IcpSeq::CheckSat` (`dreal/solver/icp_seq.cc:34-143`); `left` is the configured
`stack_left_box_first`. -/
def icpSeq (env : Env) (left : Bool) (c : Ctc) (fs : List Fml) (n : Nat) (s : CStatus) :
    Run (Bool × CStatus) :=
  icpLoop env c fs n left [(s.box, none)] s

/-! ## Parallel search -/

/-- Where a worker is (`dreal/solver/icp_parallel.cc:65-167`).  One constructor per access to
shared state; pruning and evaluation touch the worker's own status only. -/
inductive Pc where
  /-- reading `found_delta_sat` at the loop head (line 90) -/
  | top
  /-- reading `number_of_boxes` at the loop head (line 91) -/
  | chk
  /-- `global_stack->pop` (line 103) -/
  | pop
  /-- `contractor.Prune` (line 111) -/
  | prune
  /-- `EvaluateBox` (line 127) -/
  | eval
  /-- `fetch_sub` (lines 119, 130) -/
  | dec
  /-- `ParallelBranch`: choosing and bisecting (lines 41-55) -/
  | branch (cand : List Nat)
  /-- `number_of_boxes->fetch_add` (line 56) -/
  | inc (b1 b2 : Box)
  /-- `global_stack->push` (line 57) -/
  | push (b1 b2 : Box)
  /-- `*found_delta_sat = id` (lines 141, 155) -/
  | find
  /-- returned -/
  | done

/-- A worker: its status (`status_vector_[i]`), position and local variables. -/
structure Worker where
  st : CStatus
  pc : Pc := .top
  needPop : Bool := true
  left : Bool

/-- The shared state and the workers.  Simplified: sequentially consistent memory; the lock-free
stack is a linearizable stack. -/
structure Par where
  stack : List Box
  boxes : Int
  found : Option Nat
  workers : List Worker

namespace Par

/-- One step of worker `i`, whose state is `w`: its new state and the new shared state. -/
def workerStep (env : Env) (c : Ctc) (fs : List Fml) (i : Nat) (p : Par) (w : Worker) :
    Run (Worker × List Box × Int × Option Nat) :=
  match w.pc with
  | .top => .ok (if p.found.isNone then { w with pc := .chk } else { w with pc := .done },
      p.stack, p.boxes, p.found)
  | .chk => .ok (if 0 < p.boxes then { w with pc := if w.needPop then .pop else .prune }
      else { w with pc := .done }, p.stack, p.boxes, p.found)
  | .pop =>
    match p.stack with
    | [] => .ok ({ w with pc := .top }, [], p.boxes, p.found)
    | b :: rest => .ok ({ w with st := { w.st with box := b }, pc := .prune }, rest, p.boxes,
        p.found)
  | .prune => do
    let s ← Verif.Model.prune env.ib env.fuel c w.st
    .ok ({ w with st := s, needPop := true, pc := if s.box.empty then .dec else .eval },
      p.stack, p.boxes, p.found)
  | .eval => do
    let r ← evalBox env fs [] w.st
    match r.2 with
    | none => .ok ({ w with st := r.1, pc := .dec }, p.stack, p.boxes, p.found)
    | some cand =>
      .ok ({ w with st := r.1, pc := if bits r.1.box cand = [] then .find
                                     else .branch (bits r.1.box cand) },
        p.stack, p.boxes, p.found)
  | .dec => .ok ({ w with pc := .top }, p.stack, p.boxes - 1, p.found)
  | .branch cand => do
    let br ← Run.lift (Box.branchLargestFirst env.fp w.st.box cand)
    match br with
    | none => .ok ({ w with pc := .find }, p.stack, p.boxes, p.found)
    | some (_, b1, b2) =>
      .ok ({ w with pc := if w.left then .inc b1 b2 else .inc b2 b1 }, p.stack, p.boxes, p.found)
  | .inc b1 b2 => .ok ({ w with pc := .push b1 b2 }, p.stack, p.boxes + 1, p.found)
  | .push b1 b2 =>
    .ok ({ w with st := { w.st with box := b2 }, needPop := false, left := !w.left, pc := .top },
      b1 :: p.stack, p.boxes, p.found)
  | .find => .ok ({ w with pc := .done }, p.stack, p.boxes, some i)
  | .done => .ok (w, p.stack, p.boxes, p.found)

/-- The scheduler lets worker `i` make a step. -/
def step (env : Env) (c : Ctc) (fs : List Fml) (p : Par) (i : Nat) : Run Par :=
  match p.workers[i]? with
  | none => .ok p
  | some w => do
    let r ← p.workerStep env c fs i w
    .ok ⟨r.2.1, r.2.2.1, r.2.2.2, p.workers.set i r.1⟩

/-- A schedule: which worker moves next. -/
def steps (env : Env) (c : Ctc) (fs : List Fml) : List Nat → Par → Run Par
  | [], p => .ok p
  | i :: is, p => do
    let p' ← p.step env c fs i
    steps env c fs is p'

/-- The state in which the workers are started (`dreal/solver/icp_parallel.cc:188-219`). -/
def start (jobs : Nat) (left : Bool) (s : CStatus) : Par :=
  ⟨[s.box], 1, none, List.replicate jobs ⟨s, .top, true, left⟩⟩

/-- All workers have returned. -/
def allDone (p : Par) : Bool := p.workers.all fun w => match w.pc with | .done => true | _ => false

/-- `cs->InplaceJoin(cs_i)` for all statuses (`dreal/solver/icp_parallel.cc:226-229`). -/
def joinAll : List Worker → CStatus → Outcome CStatus
  | [], s => .ok s
  | w :: ws, s => do
    let s' ← s.join w.st
    joinAll ws s'

end Par

/-- `IcpParallel::CheckSat` (`dreal/solver/icp_parallel.cc:176-239`) under a schedule; a schedule
at whose end some worker is still running is `oof`. -/
def icpPar (env : Env) (jobs : Nat) (left : Bool) (c : Ctc) (fs : List Fml) (sched : List Nat)
    (s : CStatus) : Run (Bool × CStatus) := do
  let s0 ← prune env.ib env.fuel c s
  if s0.box.empty then .ok (false, s0)
  else
    let p ← Par.steps env c fs sched (Par.start jobs left s0)
    if p.allDone then
      let s1 ← Run.lift (Par.joinAll p.workers s0)
      match p.found with
      | some i => match p.workers[i]? with
        | some w => .ok (true, { s1 with box := w.st.box })
        | none => .ub
      | none => .ok (false, { s1 with box := s1.box.setEmpty })
    else .oof

end Verif.Model
