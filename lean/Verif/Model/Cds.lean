import Verif.Model.Outcome
import Mathlib.Logic.Function.Basic

/-!
# Threads known to the library of lock-free containers

`dreal/util/cds.h` and its use in `dreal/solver/icp_parallel.cc:78,103,191`.  The library wants every
thread that pops from a container to be attached at that time; otherwise the behaviour is undefined.
-/

namespace Verif.Model

/-- `cds_init` (a static variable, `dreal/solver/icp_parallel.cc:191-192`) is constructed; the threads
that are attached; the `cds_scope_guard` of each thread (line 78), with its `use_`. -/
structure CdsState (T : Type) where
  ready : Bool
  attached : T → Bool
  guard : T → Option Bool

/-- Before the first search. -/
def cdsStart {T : Type} : CdsState T := ⟨false, fun _ => false, fun _ => none⟩

/-- What a thread does. -/
inductive CdsEv (T : Type) where
  /-- it enters `IcpParallel::CheckSat` (`dreal/solver/icp_parallel.cc:176`) -/
  | call (t : T)
  /-- it runs `Worker`, as the main thread or in the pool (line 65) -/
  | work (t : T) (main : Bool)
  /-- it ends; its `thread_local` variables are destroyed -/
  | exit (t : T)

/-- The `thread_local` guard is made at the first use in a thread (`dreal/solver/icp_parallel.cc:78`;
the constructor is in `dreal/util/cds.h:40-44`). -/
def CdsState.enter {T : Type} [DecidableEq T] (s : CdsState T) (t : T) (main : Bool) : CdsState T :=
  match s.guard t with
  | some _ => s
  | none =>
    { s with guard := Function.update s.guard t (some !main),
             attached := if main then s.attached else Function.update s.attached t true }

/-- The effect.  `call`: the constructor of `CdsInit` (`dreal/util/cds.h:62-69`), once in the life of
the program.  `work`: the guard of the thread is made unless there is one; then boxes
are popped.  `exit`: its destructor (lines 50-54). -/
def CdsState.step {T : Type} [DecidableEq T] (s : CdsState T) : CdsEv T → Outcome (CdsState T)
  | .call t =>
    if s.ready then .ok s
    else .ok { s with ready := true, attached := Function.update s.attached t true }
  | .work t main =>
    if (s.enter t main).attached t then .ok (s.enter t main) else .ub
  | .exit t =>
    .ok { s with guard := Function.update s.guard t none,
                 attached := if s.guard t = some true then Function.update s.attached t false
                             else s.attached }

/-- A history. -/
def CdsState.run {T : Type} [DecidableEq T] : List (CdsEv T) → CdsState T → Outcome (CdsState T)
  | [], s => .ok s
  | e :: es, s =>
    match s.step e with
    | .ok s' => CdsState.run es s'
    | .throw => .throw
    | .ub => .ub

end Verif.Model
