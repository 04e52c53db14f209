import Verif.Proof.IcpThrow
import Verif.Props.Icp

/-!
# C77: exceptions in the parallel search
-/

namespace Verif.Props
open Verif Verif.Model Verif.Spec

/-- As long as nothing throws and nobody interrupts, the search is that of `Model/Icp.lean`: whatever
the schedule, no worker is lost and `CheckSat` is not left. -/
theorem C77_no_exception_partial {env c fs} : ∀ {sched : List Nat} {p p' : Par},
    Par.steps env c fs sched p = .ok p' →
    ParX.run env c fs (sched.map .go) { par := p } = .ok { par := p' }
  | [], p, p', h => by
    simp only [Par.steps, Run.ok.injEq] at h
    subst h; rfl
  | i :: is, p, p', h => by
    simp only [Par.steps] at h
    obtain ⟨q, h1, h2⟩ := Proof.bindR_ok h
    have hgo : ParX.go env c fs { par := p } i = .ok { par := q } := by
      unfold ParX.go
      cases hw : p.workers[i]? with
      | none =>
        simp only [Par.step, hw, Run.ok.injEq] at h1
        subst h1; simp
      | some w => simp [h1]
    simp only [List.map_cons, ParX.run, hgo]
    exact C77_no_exception_partial h2

/-- The search of the example of C25 ends. -/
example : (do let c ← Run.lift (mkFwdbwd demoHump demoUnit)
              let x ← ParX.run demoEnv c [demoHump]
                (((List.replicate 40 [0, 1]).flatten).map ThrowEv.go ++ [ThrowEv.wait])
                { par := Par.start 2 true ⟨demoUnit, none, [], [], [], 0⟩ }
              Run.ok (x.par.allDone, x.gone, x.dead, x.par.found)) = .ok (true, false, [], none) := by
  decide +kernel

/-- **The search does not end.**  A worker throws in a step of its own, at any time of any search.
From then on, whatever the schedule and as long as no other worker finds a solution, the box it had
is counted and no worker returns.  Unless the main thread throws as well, the exception does not
leave `CheckSat` either: the caller waits for ever. -/
theorem C77_hang {env c fs jobs left s es es' i} {x x' : ParX}
    (h : ParX.run env c fs es { par := Par.start jobs left s } = .ok x)
    (hg : x.gone = false) (hd : i ∉ x.dead) (hpool : i + 1 < jobs)
    (ht : x.par.step env c fs i = .throw)
    (h' : ParX.run env c fs (.go i :: es') x = .ok x') (hf : x'.par.found = none) :
    0 < x'.par.boxes ∧ (∀ w ∈ x'.par.workers, w.pc ≠ .done) ∧
      (jobs - 1 ∉ x'.dead → x'.gone = false) := by
  simp only [ParX.run] at h'
  obtain ⟨y, h1, h2⟩ := Proof.bindR_ok h'
  obtain ⟨rfl, w, hw⟩ := Proof.go_of_throw hd ht h1
  have hsh := Proof.throw_share hw ht
  have hlen : x.par.workers.length = jobs := by
    rw [Proof.run_length h]; simp [Par.start]
  have hc : Proof.CountInv x.par := Proof.run_count h (Proof.count_start jobs left s)
  have hh : Proof.Hung jobs i w (x.throws i) := by
    refine ⟨⟨hc, by simp [ParX.throws], hw⟩, hlen, fun _ _ => ?_⟩
    simp only [ParX.throws, hg, hlen, Bool.false_or, beq_eq_false_iff_ne, ne_eq]
    omega
  have hx := Proof.run_hung (by omega) hsh h2 hh
  obtain ⟨k1, k2⟩ := Proof.frozen_none hx.1 hsh hf
  exact ⟨k1, k2, hx.2.2 hf⟩

/-- The evaluation of a quantified formula throws. -/
def throwEnv : Env := { demoEnv with evalAll := fun _ _ _ => .throw }
def throwFml : Fml := .all [⟨7, .continuous⟩] (.rel .geq (.var demoX) (.var ⟨7, .continuous⟩))
def throwStart : ParX := { par := Par.start 2 true ⟨demoUnit, none, [], [], [], 0⟩ }

/-- A search that meets the hypotheses of `C77_hang`: the worker 0 takes the only box and throws. -/
example : (do let x ← ParX.run throwEnv .id [throwFml] [.go 0, .go 0, .go 0, .go 0] throwStart
              Run.ok (x.dead, x.gone, match x.par.step throwEnv .id [throwFml] 0 with
                | .throw => true | _ => false)) = .ok ([], false, true) := by decide +kernel

/-- After it the main thread goes round. -/
example : (do let x ← ParX.run throwEnv .id [throwFml] (List.replicate 5 (ThrowEv.go 0) ++
                List.replicate 30 (ThrowEv.go 1) ++ [ThrowEv.wait]) throwStart
              Run.ok (x.dead, x.gone, x.par.stack, x.par.boxes, x.par.found)) =
    .ok ([0], false, [], 1, none) := by decide +kernel

/-- **An interrupt is undefined behaviour.**  For every problem and any number of jobs greater than
one: the user interrupts, the main thread sees it first and leaves `CheckSat`; another worker then
reads a variable that has gone. -/
theorem C77_dangling (env : Env) (c : Ctc) (fs : List Fml) (jobs : Nat) (left : Bool) (s : CStatus)
    (hj : 2 ≤ jobs) :
    ParX.run env c fs [.signal, .go (jobs - 1), .go (jobs - 1), .go 0]
      { par := Par.start jobs left s } = .ub := by
  obtain ⟨n, rfl⟩ : ∃ n, jobs = n + 2 := ⟨jobs - 2, by omega⟩
  have e1 : ParX.go env c fs { par := Par.start (n + 2) left s, interrupted := true } (n + 1) =
      .ok { par := { Par.start (n + 2) left s with
        workers := (List.replicate (n + 2) (⟨s, .top, true, left⟩ : Worker)).set (n + 1)
          ⟨s, .chk, true, left⟩ }, interrupted := true } := by
    simp [ParX.go, Par.start, Par.step, Par.workerStep, Pc.atTest, bind, Run.bind]
  simp only [ParX.run, show n + 2 - 1 = n + 1 from rfl, e1]
  simp [ParX.go, Par.start, Pc.atTest, Pc.shared, ParX.throws, bind, Run.bind]

/-- The exception has left `CheckSat`, and the worker 0 is in the loop. -/
example : (do let x ← ParX.run demoEnv .id [demoHump] [.go 0, .signal, .go 1, .go 1] throwStart
              Run.ok (x.dead, x.gone)) = .ok ([1], true) := by decide +kernel

/-- What a worker does with its own box is not harmed: it may finish to prune, to evaluate or to
bisect it after the exception has left `CheckSat`. -/
theorem C77_own_data_partial {env c fs i w p} {x : ParX} (hd : i ∉ x.dead)
    (hw : x.par.workers[i]? = some w)
    (hpc : w.pc = .prune ∨ w.pc = .eval ∨ ∃ cand, w.pc = .branch cand)
    (hs : x.par.step env c fs i = .ok p) : x.go env c fs i = .ok { x with par := p } := by
  unfold ParX.go
  rcases hpc with h | h | ⟨cand, h⟩ <;> simp [hw, hd, h, Pc.shared, Pc.atTest, hs]

/-- The worker 0 has a box, the main thread is interrupted, the worker 0 prunes. -/
example : (do let x ← ParX.run demoEnv .id [demoHump]
                [.go 0, .go 0, .go 0, .signal, .go 1, .go 1, .go 0] throwStart
              Run.ok (x.dead, x.gone)) = .ok ([1], true) := by decide +kernel

/-- With two jobs there is no harm in an exception of the other worker: when the barrier throws it
again, nobody runs, and nothing that happens later touches the variables of `CheckSat`. -/
theorem C77_two_jobs_partial {env c fs left s es} {x : ParX}
    (h : ParX.run env c fs es { par := Par.start 2 left s } = .ok x)
    (hmain : 1 ∉ x.dead) (hg : x.gone = true) (es' : List ThrowEv) :
    ∃ x', ParX.run env c fs es' x = .ok x' ∧ x'.par = x.par ∧ x'.gone = true :=
  Proof.settled_run ((Proof.run_two h ⟨rfl, fun _ h => by cases h⟩).2 hmain hg) hg

/-- The worker 0 sees the interrupt, the main thread finds a solution, and the barrier throws. -/
example : (do let x ← ParX.run demoEnv .id [throwFml] [.go 1, .go 1, .go 0, .signal, .go 0,
                .go 1, .go 1, .go 1, .go 1, .wait] throwStart
              Run.ok (x.dead, x.gone, x.par.found)) = .ok ([0], true, some 1) := by decide +kernel

/-- **Two jobs are needed there.**  With three, the main thread finds a solution, the barrier throws
the exception of the worker 0 again, and the worker 1, which still runs, reads a variable that has
gone.  The main thread has not thrown before. -/
theorem C77_barrier :
    ∃ es x, ParX.run demoEnv .id [throwFml] es
        { par := Par.start 3 true ⟨demoUnit, none, [], [], [], 0⟩ } = .ok x ∧
      2 ∉ x.dead ∧ x.gone = true ∧ ParX.run demoEnv .id [throwFml] [.go 1] x = .ub := by
  let es : List ThrowEv := [.go 2, .go 2, .go 0, .signal, .go 0, .go 2, .go 2, .go 2, .go 2, .wait]
  have h : (do let x ← ParX.run demoEnv .id [throwFml] es
                 { par := Par.start 3 true ⟨demoUnit, none, [], [], [], 0⟩ }
               Run.ok (x.dead, x.gone, match ParX.run demoEnv .id [throwFml] [.go 1] x with
                 | .ub => true | _ => false)) = .ok ([0], true, true) := by decide +kernel
  obtain ⟨x, h1, h2⟩ := Proof.bindR_ok h
  simp only [Run.ok.injEq, Prod.mk.injEq] at h2
  refine ⟨es, x, h1, by rw [h2.1]; decide, h2.2.1, ?_⟩
  have h3 := h2.2.2
  split at h3
  · assumption
  · cases h3

end Verif.Props
