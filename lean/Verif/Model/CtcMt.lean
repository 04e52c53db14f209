import Verif.Model.Contractor

/-!
# Contractors shared between threads

Models `dreal/contractor/contractor_ibex_fwdbwd_mt.cc`,
`dreal/contractor/contractor_ibex_polytope_mt.cc` and `ContractorForallMt` of
`dreal/contractor/contractor_forall.h`, which are alike: with more than one job, one contractor object is
shared by all threads and holds one sequential contractor per thread, built at the first use by
that thread.  There is no lock.  An execution is an interleaving of the memory accesses of
`GetCtcOrCreate`; building a sequential contractor and pruning with it touch only data of the
thread and are single steps.  Statistics and logging are left out.
-/

namespace Verif.Model

/-- What the sequential contractors are built from: `f_`
(`dreal/contractor/contractor_ibex_fwdbwd_mt.cc:34`) or `formulas_`
(`dreal/contractor/contractor_ibex_polytope_mt.cc:36`), or the quantified formula
(`dreal/contractor/contractor_forall.h:269`). -/
inductive MtKind where
  | fwdbwd (f : Fml)
  | polytope (fs : List Fml)
  | quantified (f : Fml)

/-- `make_unique<ContractorIbexFwdbwd>(f_, box, config_)`
(`dreal/contractor/contractor_ibex_fwdbwd_mt.cc:53`) and
`make_unique<ContractorIbexPolytope>(formulas_, box, config_)`
(`dreal/contractor/contractor_ibex_polytope_mt.cc:54-55`).  A dummy is `.id`.  The contractor of a
quantified formula (`dreal/contractor/contractor_forall.h:313-316`) has a nested context of its own,
whose state is in the status (`CStatus.tick`), as each worker has its own status. -/
def MtKind.make : MtKind → Box → Outcome Ctc
  | .fwdbwd f, b => mkFwdbwd f b
  | .polytope fs, b => mkPolytope fs b
  | .quantified f, b => .ok (.forallC b.vars f)

/-- `is_dummy()` of a sequential contractor (`dreal/contractor/contractor_ibex_fwdbwd.cc:144`,
`dreal/contractor/contractor_ibex_polytope.cc:124`). -/
def Ctc.isDummy : Ctc → Bool
  | .id => true
  | _ => false

/-- Where a thread is in `Prune` (`dreal/contractor/contractor_ibex_fwdbwd_mt.cc:61-66`): outside;
in `GetCtcOrCreate` with a new object, before `:56` (`made`) and before `:57` (`stored`); or back
with a pointer, before `:65` (`holds`).  `p` is the object, `s` the status to prune. -/
inductive MtPc where
  | idle
  | made (p : Nat) (s : CStatus)
  | stored (p : Nat) (s : CStatus)
  | holds (p : Nat) (s : CStatus)

/-- The shared object: `ctc_ready_`, `ctcs_` (both of `jobs` entries,
`dreal/contractor/contractor_ibex_fwdbwd_mt.cc:36-37`), the sequential contractors created so far
(`none` once destroyed), the threads `T`, and the finished calls of `Prune` with their results. -/
structure MtState (T : Type) where
  ready : Nat → Bool
  slots : Nat → Option Nat
  objs : Nat → Option Ctc
  next : Nat
  pc : T → MtPc
  log : List (T × CStatus × Run CStatus)

/-- An update of a table. -/
def mtUpd {ι α : Type} [DecidableEq ι] (f : ι → α) (i : ι) (a : α) : ι → α :=
  fun j => if j = i then a else f j

/-- A thread calls `Prune`, or makes its next step. -/
inductive MtEvent (T : Type) where
  | call (t : T) (s : CStatus)
  | go (t : T)

/-- `ctc->Prune(cs)` (`dreal/contractor/contractor_ibex_fwdbwd_mt.cc:65`); a dummy fails the
assertion of `dreal/contractor/contractor_ibex_fwdbwd.cc:91`. -/
def mtPrune (ib : Ibex) (n : Nat) (c : Ctc) (s : CStatus) : Run CStatus :=
  if c.isDummy then .ub else prune ib n c s

/-- `ctcs_[kThreadId] = std::move(ctc_unique_ptr)`
(`dreal/contractor/contractor_ibex_fwdbwd_mt.cc:56`) destroys the contractor held before. -/
def MtState.destroyed {T : Type} (m : MtState T) (i : Nat) : Nat → Option Ctc :=
  match m.slots i with
  | none => m.objs
  | some q => mtUpd m.objs q none

/-- One event; `tid` is `kThreadId` of a thread
(`dreal/contractor/contractor_ibex_fwdbwd_mt.cc:49`), `jobs` the length of the vectors.  The call
reads `ctc_ready_` and either `ctcs_` (`:50-52`) or builds a contractor (`:53-55`), whose exception
leaves `Prune`.  An event that cannot happen changes nothing.  Reading outside the vectors, a null
pointer and a destroyed contractor are undefined behaviour. -/
def MtState.step {T : Type} [DecidableEq T] (ib : Ibex) (n : Nat) (k : MtKind) (jobs : Nat)
    (tid : T → Nat) (m : MtState T) : MtEvent T → Outcome (MtState T)
  | .call t s => match m.pc t with
    | .idle =>
      if jobs ≤ tid t then .ub
      else if m.ready (tid t) then match m.slots (tid t) with
        | some p => .ok { m with pc := mtUpd m.pc t (.holds p s) }
        | none => .ub
      else match k.make s.box with
        | .ok c => .ok { m with objs := mtUpd m.objs m.next (some c), next := m.next + 1
                                pc := mtUpd m.pc t (.made m.next s) }
        | .throw => .ok { m with log := (t, s, .throw) :: m.log }
        | .ub => .ub
    | _ => .ok m
  | .go t => match m.pc t with
    | .idle => .ok m
    | .made p s => .ok { m with objs := m.destroyed (tid t)
                                slots := mtUpd m.slots (tid t) (some p)
                                pc := mtUpd m.pc t (.stored p s) }
    | .stored p s => .ok { m with ready := mtUpd m.ready (tid t) true
                                  pc := mtUpd m.pc t (.holds p s) }
    | .holds p s => match m.objs p with
      | some c => .ok { m with pc := mtUpd m.pc t .idle, log := (t, s, mtPrune ib n c s) :: m.log }
      | none => .ub

/-- An interleaving. -/
def MtState.run {T : Type} [DecidableEq T] (ib : Ibex) (n : Nat) (k : MtKind) (jobs : Nat)
    (tid : T → Nat) : List (MtEvent T) → MtState T → Outcome (MtState T)
  | [], m => .ok m
  | e :: es, m => do
    let m' ← m.step ib n k jobs tid e
    MtState.run ib n k jobs tid es m'

/-- The constructor (`dreal/contractor/contractor_ibex_fwdbwd_mt.cc:30-45`) in the thread `t`, on
the box `b`; the object is not shared yet.  `none` if it is a dummy, for which
`make_contractor_ibex_fwdbwd` returns the identity (`dreal/contractor/contractor.cc:144-146`). -/
def mtStart {T : Type} (k : MtKind) (jobs : Nat) (tid : T → Nat) (t : T) (b : Box) :
    Outcome (Option (MtState T)) :=
  if jobs ≤ tid t then .ub
  else do
    let c ← k.make b
    if c.isDummy then .ok none
    else .ok (some { ready := mtUpd (fun _ => false) (tid t) true
                     slots := mtUpd (fun _ => none) (tid t) (some 0)
                     objs := mtUpd (fun _ => none) 0 (some c)
                     next := 1
                     pc := fun _ => .idle
                     log := [] })

end Verif.Model
