import Verif.Model.Icp

/-!
# Exceptions in the parallel search

`Model/Icp.lean` ends the parallel search when a worker throws.  Here is what the code does
(`dreal/solver/icp_parallel.cc:176-239`,
`third_party/com_github_progschj_threadpool/ThreadPool/ThreadPool.h`): an exception of a worker of the
pool is kept in its future; one of the main thread, or one that the barrier finds in a future, leaves
`CheckSat`, whose local variables the workers use by pointers.
-/

namespace Verif.Model

/-- The workers, `g_interrupted` (`dreal/util/interrupt.cc:19`), the workers that have thrown, and
whether an exception has left `CheckSat`.  The last worker is the main thread
(`dreal/solver/icp_parallel.cc:216-219`). -/
structure ParX where
  par : Par
  interrupted : Bool := false
  dead : List Nat := []
  gone : Bool := false

/-- The next step of a worker uses `found_delta_sat`, `number_of_boxes` or `global_stack`, which are
local variables of `CheckSat` (`dreal/solver/icp_parallel.cc:190-201`).  The contractor, the
evaluators and the configuration are copies, the status is a member. -/
def Pc.shared : Pc → Bool
  | .prune => false
  | .eval => false
  | .branch _ => false
  | .done => false
  | _ => true

/-- The worker is about to read `number_of_boxes` and, if that is positive, to look for an interrupt
(`dreal/solver/icp_parallel.cc:91-99`). -/
def Pc.atTest : Pc → Bool
  | .chk => true
  | _ => false

/-- The worker `i` throws.  Nothing in `Worker` catches (`dreal/solver/icp_parallel.cc:65-167`): in
particular `number_of_boxes` stays. -/
def ParX.throws (x : ParX) (i : Nat) : ParX :=
  { x with dead := i :: x.dead, gone := x.gone || i + 1 == x.par.workers.length }

/-- A worker makes a step.  An interrupt is looked for behind the loop head (lines 92-99, Python
package only); that pruning looks for it as well (`dreal/contractor/contractor_fixpoint.cc:55`) is
left out. -/
def ParX.go (env : Env) (c : Ctc) (fs : List Fml) (x : ParX) (i : Nat) : Run ParX :=
  match x.par.workers[i]? with
  | none => .ok x
  | some w =>
    if i ∈ x.dead then .ok x
    else if x.gone && w.pc.shared then .ub
    else if x.interrupted && 0 < x.par.boxes && w.pc.atTest then
      .ok (x.throws i)
    else match x.par.step env c fs i with
      | .ok p => .ok { x with par := p }
      | .throw => .ok (x.throws i)
      | .ub => .ub
      | .oof => .oof

/-- A worker has returned (`dreal/solver/icp_parallel.cc:142`, `156`, `167`). -/
def Worker.returned (w : Worker) : Bool := match w.pc with | .done => true | _ => false

/-- The worker `i` has returned (its future has a value). -/
def ParX.back (x : ParX) (i : Nat) : Bool :=
  match x.par.workers[i]? with | some w => w.returned | none => true

/-- The barrier of the main thread (`dreal/solver/icp_parallel.cc:221-224`), once that has returned
from its own `Worker`: the results are taken in order; the first that has not returned is waited
for, or its exception is thrown again. -/
def ParX.wait (x : ParX) : ParX :=
  let m := x.par.workers.length - 1
  if x.gone || !x.back m then x
  else match (List.range m).find? fun i => !x.back i with
    | none => x
    | some i => if i ∈ x.dead then { x with gone := true } else x

/-- What may happen: a step of a worker, the barrier, or a signal (`dreal/dreal_py.cc:71`). -/
inductive ThrowEv where
  | go (i : Nat)
  | wait
  | signal

/-- A schedule with exceptions. -/
def ParX.run (env : Env) (c : Ctc) (fs : List Fml) : List ThrowEv → ParX → Run ParX
  | [], x => .ok x
  | .go i :: es, x => do
    let x' ← x.go env c fs i
    ParX.run env c fs es x'
  | .wait :: es, x => ParX.run env c fs es x.wait
  | .signal :: es, x => ParX.run env c fs es { x with interrupted := true }

end Verif.Model
