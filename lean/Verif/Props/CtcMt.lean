import Verif.Proof.CtcMt
import Verif.Proof.Generate
import Verif.Props.ThreadPool
import Verif.Props.Contractor
import Verif.Spec.ContractorDemo

/-! # C75: a contractor shared between threads prunes as the sequential one does -/

namespace Verif.Props
open Verif.Model Verif.Proof Verif.Spec

/-- The constraints of a shared contractor. -/
def _root_.Verif.Model.MtKind.constraints : MtKind → List Fml
  | .fwdbwd f => [f]
  | .polytope fs => fs
  | .quantified f => [f]

/-- C75 when no two threads have the same number and the numbers are below the number of jobs: for
every interleaving of calls of `Prune` on boxes over the variables the contractor was built for,
there is no undefined behaviour, and every finished call gave what the sequential contractor
(`MtKind.make`), built once, gives.  Missing: threads that share a number
(`C75_shared`) or have one out of range (`C75_out_of_range`), when the code is wrong; and boxes
over other variables, for which a thread that comes late builds its contractor anew. -/
theorem C75_threads_partial {T : Type} [DecidableEq T] (ib : Ibex) (n : Nat) (k : MtKind)
    (jobs : Nat) (tid : T → Nat) (hinj : ∀ t u, tid t = tid u → t = u) (hj : ∀ t, tid t < jobs)
    (t0 : T) (b0 : Box) (m : MtState T) (hs : mtStart k jobs tid t0 b0 = .ok (some m))
    (es : List (MtEvent T)) (hv : ∀ t s, .call t s ∈ es → s.box.vars = b0.vars) :
    ∃ c m', k.make b0 = .ok c ∧ m.run ib n k jobs tid es = .ok m' ∧
      ∀ t s r, (t, s, r) ∈ m'.log → r = prune ib n c s := by
  obtain ⟨hi, c, hc, hd⟩ := mtInv_start (ib := ib) (n := n)
    (Own := fun _ b => b.vars = b0.vars) hinj rfl hs
  have hmk : ∀ b : Box, b.vars = b0.vars → k.make b = .ok c := fun b hb => by
    rw [make_vars k hb, hc]
  obtain ⟨m', hr⟩ := mtRun_defined hinj hj es hv
    (fun t s he hu => by rw [hmk _ (hv t s he)] at hu; cases hu) hi
  have hi' := mtInv_run hinj es hv hi hr
  refine ⟨c, m', hc, hr, fun t s r hl => ?_⟩
  obtain ⟨c', b, hb, hm, rfl⟩ | ⟨hb, hm, -⟩ := hi'.log t s r hl
  · rw [hmk b hb] at hm
    cases hm
    simp [mtPrune, hd]
  · rw [hmk _ hb] at hm
    cases hm

/-- Also for boxes over any variables: every finished call gave what the sequential contractor gives
that was built for a box this thread has pruned, or for the one the contractor was made for if it
is the thread that made it (a failure of the assertion if that is a dummy), or the exception of
building it. -/
theorem C75_own_partial {T : Type} [DecidableEq T] (ib : Ibex) (n : Nat) (k : MtKind)
    (jobs : Nat) (tid : T → Nat) (hinj : ∀ t u, tid t = tid u → t = u)
    (t0 : T) (b0 : Box) (m m' : MtState T) (hs : mtStart k jobs tid t0 b0 = .ok (some m))
    (es : List (MtEvent T)) (hr : m.run ib n k jobs tid es = .ok m') (t : T) (s : CStatus)
    (r : Run CStatus) (hl : (t, s, r) ∈ m'.log) :
    ∃ b, ((t = t0 ∧ b = b0) ∨ ∃ s1, .call t s1 ∈ es ∧ b = s1.box) ∧
      ((∃ c, k.make b = .ok c ∧ c ≠ .id ∧ r = prune ib n c s) ∨
        (k.make b = .ok .id ∧ r = .ub) ∨ (k.make b = .throw ∧ r = .throw)) := by
  obtain ⟨hi, -⟩ := mtInv_start (ib := ib) (n := n)
    (Own := fun t b => (t = t0 ∧ b = b0) ∨ ∃ s1, .call t s1 ∈ es ∧ b = s1.box) hinj
    (.inl ⟨rfl, rfl⟩) hs
  have hi' := mtInv_run hinj es (fun t s h => .inr ⟨s, h, rfl⟩) hi hr
  obtain ⟨c, b, hb, hm, rfl⟩ | ⟨hb, hm, hrt⟩ := hi'.log t s r hl
  · refine ⟨b, hb, ?_⟩
    by_cases hc : c = .id
    · subst hc; exact .inr (.inl ⟨hm, rfl⟩)
    · refine .inl ⟨c, hm, hc, ?_⟩
      cases c <;> first | exact absurd rfl hc | rfl
  · exact ⟨s.box, hb, .inr (.inr ⟨hm, hrt⟩)⟩

/-- No thread loses a solution: in every interleaving the box a call returns is inside the box it
was given and has all points of it at which the constraints are defined and hold.  With the limits
of `C75_threads_partial`, and the assumptions of C21 on the numeric library. -/
theorem C75_sound_partial {T : Type} [DecidableEq T] (D : Dom) (I : Interp) (ib : Ibex)
    (hib : IbexSound D I ib) (hfa : ForallSound D I ib) (n : Nat) (k : MtKind)
    (jobs : Nat) (tid : T → Nat) (hinj : ∀ t u, tid t = tid u → t = u) (hj : ∀ t, tid t < jobs)
    (t0 : T) (b0 : Box) (m m' : MtState T) (hs : mtStart k jobs tid t0 b0 = .ok (some m))
    (es : List (MtEvent T)) (hv : ∀ t s, .call t s ∈ es → s.box.vars = b0.vars)
    (hr : m.run ib n k jobs tid es = .ok m') (t : T) (s s' : CStatus)
    (hl : (t, s, .ok s') ∈ m'.log) (hwf : BoxWf s.box) (hsv : s.box.vars = b0.vars) :
    SubBox s'.box s.box ∧ ∀ ρ : Valuation, InBox ρ s.box → TypedOn ρ s.box.vars →
      (∀ f ∈ k.constraints, RcOkF f ∧ DefF D I ρ f ∧ holds I ρ f) → InBox ρ s'.box := by
  obtain ⟨c, m1, hc, hr1, hall⟩ := C75_threads_partial ib n k jobs tid hinj hj t0 b0 m hs es hv
  rw [hr] at hr1
  cases hr1
  have h := (hall t s _ hl).symm
  have hb : BuiltFor s.box.vars c ∧ (∀ ρ, (∀ f ∈ k.constraints, holds I ρ f) → SatC I ρ c) ∧
      ∀ g ∈ formulasC c, g ∈ k.constraints := by
    cases k with
    | fwdbwd f =>
      obtain ⟨h1, h2, h3, -⟩ := mkFwdbwd_ok (show mkFwdbwd f b0 = .ok c from hc)
      exact ⟨hsv ▸ h1, fun ρ hρ => h2 I ρ (hρ f (by simp [MtKind.constraints])),
        fun g hg => by simp [MtKind.constraints, h3 g hg]⟩
    | polytope fs =>
      obtain ⟨h1, h2, h3, -⟩ := mkPolytope_ok (show mkPolytope fs b0 = .ok c from hc)
      exact ⟨hsv ▸ h1, fun ρ hρ => h2 I ρ hρ, h3⟩
    | quantified f =>
      simp only [MtKind.make, Outcome.ok.injEq] at hc
      subst hc
      refine ⟨?_, fun ρ hρ => ?_, fun g hg => ?_⟩
      · simp [BuiltFor, hsv]
      · simpa [SatC] using hρ f (by simp [MtKind.constraints])
      · simpa [formulasC, MtKind.constraints] using hg
  obtain ⟨-, -, h3, h4⟩ := C21_prune_sound D I ib hib hfa n c s s' hwf hb.1 h
  refine ⟨h3, fun ρ hin hty hf => h4 ρ hin hty ?_ ?_ (hb.2.1 ρ fun f hf' => (hf f hf').2.2)⟩
  · exact fun f hf' => (hf f (hb.2.2 f hf')).1
  · exact fun f hf' => (hf f (hb.2.2 f hf')).2.1

/-- Whatever the other threads have done, a thread that calls `Prune` needs three more steps of its
own to finish. -/
theorem C75_waits_for_none {T : Type} [DecidableEq T] (ib : Ibex) (n : Nat) (k : MtKind)
    (jobs : Nat) (tid : T → Nat) (hinj : ∀ t u, tid t = tid u → t = u) (hj : ∀ t, tid t < jobs)
    (t0 : T) (b0 : Box) (m : MtState T) (hs : mtStart k jobs tid t0 b0 = .ok (some m))
    (es : List (MtEvent T)) (hv : ∀ t s, .call t s ∈ es → s.box.vars = b0.vars) (m' : MtState T)
    (hr : m.run ib n k jobs tid es = .ok m') (t : T) (hp : m'.pc t = .idle) (s : CStatus)
    (hsv : s.box.vars = b0.vars) :
    ∃ c m'', k.make b0 = .ok c ∧
      m'.run ib n k jobs tid [.call t s, .go t, .go t, .go t] = .ok m'' ∧
      m''.log = (t, s, prune ib n c s) :: m'.log ∧ m''.pc t = .idle := by
  obtain ⟨hi, c, hc, hd⟩ := mtInv_start (ib := ib) (n := n)
    (Own := fun _ b => b.vars = b0.vars) hinj rfl hs
  have hmk : ∀ b : Box, b.vars = b0.vars → k.make b = .ok c := fun b hb => by
    rw [make_vars k hb, hc]
  have hi' := mtInv_run hinj es hv hi hr
  have hjt : ¬ jobs ≤ tid t := by have := hj t; omega
  refine ⟨c, ?_⟩
  cases hrd : m'.ready (tid t) with
  | true =>
    obtain ⟨p, hsl, -, c', b, ho, hb, hm⟩ := hi'.ready t hrd
    rw [hmk b hb] at hm
    cases hm
    refine ⟨{ m' with pc := mtUpd (mtUpd m'.pc t (.holds p s)) t .idle
                      log := (t, s, mtPrune ib n c s) :: m'.log }, hc, ?_, by simp [mtPrune, hd],
      mtUpd_same _ _ _⟩
    simp [MtState.run, MtState.step, hp, hjt, hrd, hsl, mtUpd_same, ho, bind, Outcome.bind]
  | false =>
    have hsl := hi'.empty t hrd fun p s' h => by rw [hp] at h; cases h
    refine ⟨{ ready := mtUpd m'.ready (tid t) true
              slots := mtUpd m'.slots (tid t) (some m'.next)
              objs := mtUpd m'.objs m'.next (some c)
              next := m'.next + 1
              pc := mtUpd (mtUpd (mtUpd (mtUpd m'.pc t (.made m'.next s)) t (.stored m'.next s)) t
                (.holds m'.next s)) t .idle
              log := (t, s, mtPrune ib n c s) :: m'.log }, hc, ?_, by simp [mtPrune, hd],
      mtUpd_same _ _ _⟩
    simp [MtState.run, MtState.step, hp, hjt, hrd, hsl, mtUpd_same, hmk _ hsv, bind, Outcome.bind,
      MtState.destroyed]

/-- C75 with the numbers the thread pool gives out (C45), for histories with one pool at a time:
the threads that take part in a search with the pool `p` of `w` workers, of which each has asked
for its number, share a contractor made for `w + 1` jobs. -/
theorem C75_pool_partial (ib : Ibex) (n : Nat) (k : MtKind) (ps : List PoolEvent) (th : Threads)
    (hth : Threads.run ps {} = some th) (ho : OnePool false ps) (p w : Nat)
    (hp : (p, w) ∈ th.alive) (tid : {t // Takes p w (.program 0) t ∧ th.tid t ≠ none} → Nat)
    (htid : ∀ t, th.tid t.1 = some (tid t))
    (t0 : {t // Takes p w (.program 0) t ∧ th.tid t ≠ none}) (b0 : Box) (m : MtState _)
    (hs : mtStart k (w + 1) tid t0 b0 = .ok (some m)) (es : List (MtEvent _))
    (hv : ∀ t s, .call t s ∈ es → s.box.vars = b0.vars) :
    ∃ c m', k.make b0 = .ok c ∧ m.run ib n k (w + 1) tid es = .ok m' ∧
      ∀ t s r, (t, s, r) ∈ m'.log → r = prune ib n c s := by
  have hsep := C45_one_pool_partial ps th hth ho
  refine C75_threads_partial ib n k (w + 1) tid ?_ ?_ t0 b0 m hs es hv
  · intro t u htu
    by_contra hne
    exact (hsep p w hp t.1 u.1 _ _ t.2.1 u.2.1 (htid t) (htid u)).2
      (fun h => hne (Subtype.ext h)) htu
  · intro t
    exact (hsep p w hp t.1 t.1 _ _ t.2.1 t.2.1 (htid t) (htid t)).1

/-- The status in which a thread prunes the box of the concrete cases. -/
def mtS : CStatus := ⟨demoBox, none, [], [], [], 0⟩

/-- Two workers and the main thread, which made the contractor of `x ≤ 3`; the workers build theirs
at the same time. -/
def mtEs : List (MtEvent (Fin 3)) :=
  [.call 1 mtS, .call 2 mtS, .go 2, .call 0 mtS, .go 1, .go 1, .go 2, .go 0, .go 1, .go 2,
   .call 1 mtS, .go 1]

/-- Concrete case: the interleaving ends with four finished calls, each of which has reduced
`[0,10] × [0,10]` to `[0,3] × [0,10]`. -/
example : (do
      let m ← mtStart (.fwdbwd demoXle) 3 (fun t : Fin 3 => t.1) 0 demoBox
      match m with
      | none => .throw
      | some m => do
        let m' ← m.run demoIbex 10 (.fwdbwd demoXle) 3 (fun t : Fin 3 => t.1) mtEs
        .ok (m'.log.map fun e => (e.1, match e.2.2 with | .ok s => some s.box | _ => none))) =
    (.ok ([1, 2, 1, 0].map fun t =>
      (t, some ⟨[demoX, demoN], [⟨.fin 0, .fin 3⟩, ⟨.fin 0, .fin 10⟩], false⟩)) :
      Outcome (List (Fin 3 × Option Box))) := by decide +kernel
example : (∀ t u : Fin 3, t.1 = u.1 → t = u) ∧ (∀ t : Fin 3, t.1 < 3) ∧
    (∀ t s, .call t s ∈ mtEs → s.box.vars = demoBox.vars) := by
  refine ⟨fun t u h => Fin.ext h, fun t => t.2, fun t s h => ?_⟩
  simp only [mtEs, List.mem_cons, MtEvent.call.injEq, reduceCtorEq, List.not_mem_nil, or_false,
    false_or] at h
  rcases h with ⟨-, rfl⟩ | ⟨-, rfl⟩ | ⟨-, rfl⟩ | ⟨-, rfl⟩ <;> rfl

/-- Concrete case of `C75_own_partial`: when the worker comes, the box has another variable in front;
the worker builds its contractor for that. -/
example : (do
      let m ← mtStart (.fwdbwd demoXle) 2 (fun t : Fin 2 => t.1) 0 demoBox
      match m with
      | none => .throw
      | some m => do
        let m' ← m.run demoIbex 10 (.fwdbwd demoXle) 2 (fun t : Fin 2 => t.1)
          [.call 1 { mtS with box := ⟨[demoN, demoX], [⟨.fin 0, .fin 10⟩, ⟨.fin 0, .fin 10⟩], false⟩ },
            .go 1, .go 1, .go 1]
        .ok (m'.log.map fun e => (e.1, match e.2.2 with | .ok s => some s.box | _ => none))) =
    (.ok [(1, some ⟨[demoN, demoX], [⟨.fin 0, .fin 10⟩, ⟨.fin 0, .fin 3⟩], false⟩)] :
      Outcome (List (Fin 2 × Option Box))) := by decide +kernel
example (D : Dom) (I : Interp) : IbexSound D I demoIbex ∧ ForallSound D I demoIbex ∧
    BoxWf mtS.box ∧ mtS.box.vars = demoBox.vars :=
  ⟨demoIbex_sound D I, demoIbex_forall D I, ⟨rfl, by decide⟩, rfl⟩

/-- Concrete case: a pool of two workers, of which the second asks for its number first. -/
example : ∃ th, Threads.run [.create (.program 0) 2, .use (.worker 0 1), .use (.worker 0 0)] {} =
      some th ∧ OnePool false [.create (.program 0) 2, .use (.worker 0 1), .use (.worker 0 0)] ∧
    (0, 2) ∈ th.alive ∧
    ∃ (tid : {t // Takes 0 2 (.program 0) t ∧ th.tid t ≠ none} → Nat) (t0 : _) (m : MtState _),
      (∀ t, th.tid t.1 = some (tid t)) ∧ (∃ t, tid t = 2) ∧
      mtStart (.fwdbwd demoXle) (2 + 1) tid t0 demoBox = .ok (some m) := by
  refine ⟨_, rfl, by simp [OnePool], by decide, fun t => Option.get _ (Option.isSome_iff_ne_none.2
    t.2.2), ⟨.program 0, .inl rfl, by decide⟩, _, fun t => by simp,
    ⟨⟨.worker 0 0, .inr ⟨0, by decide, rfl⟩, by decide⟩, rfl⟩, rfl⟩

/-- When two workers have the same number, as `C45_shared` shows can happen, the second to build its
contractor destroys the one the first is about to use. -/
theorem C75_shared : ∃ (m : MtState (Fin 3)) (es : List (MtEvent (Fin 3))),
    mtStart (.fwdbwd demoXle) 3 (fun t => if t = 0 then 0 else 1) 0 demoBox = .ok (some m) ∧
    (∀ t s, .call t s ∈ es → s.box.vars = demoBox.vars) ∧
    m.run demoIbex 10 (.fwdbwd demoXle) 3 (fun t => if t = 0 then 0 else 1) es = .ub := by
  refine ⟨_, [.call 1 mtS, .call 2 mtS, .go 1, .go 1, .go 2, .go 1], rfl, fun t s h => ?_, rfl⟩
  simp only [List.mem_cons, MtEvent.call.injEq, reduceCtorEq, List.not_mem_nil, or_false] at h
  rcases h with ⟨-, rfl⟩ | ⟨-, rfl⟩ <;> rfl

/-- When a worker has a number out of range, as `C45_out_of_range` shows can happen, its first call
reads outside the vectors. -/
theorem C75_out_of_range : ∃ m : MtState (Fin 2),
    mtStart (.fwdbwd demoXle) 2 (fun t => if t = 0 then 0 else 2) 0 demoBox = .ok (some m) ∧
    m.run demoIbex 10 (.fwdbwd demoXle) 2 (fun t => if t = 0 then 0 else 2) [.call 1 mtS] = .ub :=
  ⟨_, rfl, rfl⟩

end Verif.Props
