import Verif.Proof.Accept
import Verif.Proof.IcpPar
import Verif.Props.Box
import Verif.Props.Contractor
import Mathlib.Analysis.Complex.Exponential

/-!
# Branch and prune: C23, C24, C25
-/

namespace Verif.Props
open Verif Verif.Model Verif.Spec

/-! ## C23: branch-and-prune never misses a solution -/

/-- C23.  If the sequential search answers "no", the final box is empty and no point of the
initial box is a solution of the constraints — for every sound pruning operator, every brancher
that splits boxes, every order of the stack and every length of the search. -/
theorem C23_unsat_sound (D : Dom) (I : Interp) (env : Env) (hib : IbexSound D I env.ib)
    (hfa : ForallSound D I env.ib) (hops : IOpsOk D I env.ops) (hna : EvalAllNoUnsat env)
    (hbr : BranchOk env.brancher) (left : Bool) (c : Ctc) (fs : List Fml) (n : Nat)
    (s s' : CStatus) (hwf : BoxWf s.box) (hb : BuiltFor s.box.vars c) (hc : CtcFor fs c)
    (hl : LitsOk fs s.box.vars) (h : icpSeq env left c fs n s = .ok (false, s')) :
    s'.box.empty = true ∧ ¬ ∃ ρ, InBox ρ s.box ∧ Solution D I fs s.box.vars ρ := by
  refine ⟨(Proof.icpLoop_empty h).2 rfl (Or.inl (by simp)), ?_⟩
  rintro ⟨ρ, hρ, hsol⟩
  refine (Proof.icpLoop_unsat (Proof.tracks_point s.box.vars ρ)
    (Proof.pruneTracks_point hib hfa hsol.typed hb (fun f hf => hl.rc f (hc.sub f hf))
      (fun f hf => hsol.defined f (hc.sub f hf)) (hc.sat I ρ hsol.holds))
    (Proof.evalTracks_point hops hna hl hsol) (Proof.branchTracks_point hsol.typed hbr) h).2 rfl
    trivial (s.box, none) (by simp) ⟨⟨rfl, hwf⟩, hρ⟩

/-- The default brancher splits boxes. -/
theorem C23_default_brancher (fp : Fp) (hc : CutInside fp) :
    BranchOk (fun b cand => Box.branchLargestFirst fp b cand) := Proof.branchOk_default hc

/-- The environment of the concrete cases. -/
def demoEnv : Env where
  ops := demoOps
  fp := exactFp
  ib := demoIbex
  delta := 1 / 1000
  fuel := 20
  brancher := fun b cand => b.branchLargestFirst exactFp cand
  evalAll := fun _ _ _ => .ok (.unknown, ⟨.fin 0, .fin 0⟩)

/-- `x * (1 - x) ≥ 1`, refuted on `[0, 1]` only after a split. -/
def demoHump : Fml := .rel .geq
  (.mul (.var demoX) (.add (.const 1) (.mul (.const (-1)) (.var demoX)))) (.const 1)
def demoUnit : Box := ⟨[demoX], [⟨.fin 0, .fin 1⟩], false⟩

example : (do let c ← Run.lift (mkFwdbwd demoHump demoUnit)
              let r ← icpSeq demoEnv true c [demoHump] 10 ⟨demoUnit, none, [], [], [], 0⟩
              Run.ok r.1) = .ok false := by decide +kernel
/-- One round is not enough: there is a split. -/
example : (do let c ← Run.lift (mkFwdbwd demoHump demoUnit)
              let r ← icpSeq demoEnv true c [demoHump] 1 ⟨demoUnit, none, [], [], [], 0⟩
              Run.ok r.1) = .oof := by decide +kernel
theorem demoHump_ctc {b : Box} {c : Ctc} (h : mkFwdbwd demoHump b = .ok c) :
    BuiltFor b.vars c ∧ CtcFor [demoHump] c := by
  obtain ⟨h1, h2, h3⟩ := Proof.mkFwdbwd_ok h
  refine ⟨h1, ?_, ?_⟩
  · intro f hf; simp [h3.1 f hf]
  · intro I ρ hs
    exact h2 I ρ (hs _ (by simp))
example (D : Dom) (I : Interp) : IbexSound D I demoEnv.ib ∧ ForallSound D I demoEnv.ib ∧
    IOpsOk D I demoEnv.ops ∧ EvalAllNoUnsat demoEnv ∧ BranchOk demoEnv.brancher ∧
    BoxWf demoUnit ∧ LitsOk [demoHump] demoUnit.vars := by
  refine ⟨demoIbex_sound D I, demoIbex_forall D I, demoOps_ok D I, ?_,
    C23_default_brancher _ exactFp_cutInside, ⟨rfl, by decide⟩, ⟨?_, ?_⟩⟩
  · intro n f b r h
    simp only [demoEnv, Run.ok.injEq] at h; subst h; simp
  · intro f hf; simp at hf; subst hf; simp [demoHump, RcOkF, RcOkE]
  · intro f hf v hv; simp at hf; subst hf
    simp [demoHump, Fml.fv, Expr.vars] at hv; simp [demoUnit, hv]

/-! ## C24: what a delta-sat answer says about the returned box -/

/-- C24, as far as it holds.  If the search answers "yes", the returned box is a non-empty
sub-box of the initial one with the same variables, and either the brancher gave up on it, or
every point of it satisfies the `δ`-weakening of every constraint that is a (negated) relation
with at least one variable and is not a bound on a variable; the weakening of a bound holds if it
holds on the initial box.  For a universally quantified constraint all that is known is the
answer of its evaluator.  Missing: the excluded cases, in which the claim is wrong
(`C24_stuck_box`, `C24_no_variable`). -/
theorem C24_delta_sat_partial (D : Dom) (I : Interp) (env : Env) (hib : IbexSound D I env.ib)
    (hfa : ForallSound D I env.ib) (hops : IOpsOk D I env.ops) (hfp : DiamOk env.fp)
    (hδ : 0 ≤ env.delta) (hbr : BranchOk env.brancher) (left : Bool) (c : Ctc) (fs : List Fml)
    (n : Nat) (s s' : CStatus) (hwf : BoxWf s.box) (hb : BuiltFor s.box.vars c)
    (hl : LitsOk fs s.box.vars) (h : icpSeq env left c fs n s = .ok (true, s')) :
    (s'.box.empty = false ∧ s'.box.vars = s.box.vars ∧ SubBox s'.box s.box) ∧
    ((∃ cand, cand ≠ [] ∧ env.brancher s'.box cand = .ok none) ∨
      (∀ f ∈ fs, f.isAll = false → f.fv ≠ [] →
        (isSimpleRel f = true → ∀ ρ, InBox ρ s.box → WeakHolds I env.delta ρ f) →
        ∀ ρ, InBox ρ s'.box → DefF D I ρ f → WeakHolds I env.delta ρ f) ∧
      (∀ f ∈ fs, f.isAll = true → f.fv ≠ [] → ∃ k v iv, env.evalAll k f s'.box = .ok (v, iv) ∧
        (v = .valid ∨ env.fp.diam iv ≤ .fin env.delta))) := by
  obtain ⟨h1, ⟨t, t', cand, e1, e2, e3, e4, e5⟩, p, hp, h3⟩ :=
    Proof.icpLoop_sat (Proof.prune_sub hib hfa c hb) hbr h (by
      intro p hp; simp at hp; subst hp; exact ⟨rfl, hwf⟩)
  simp at hp; subst hp
  refine ⟨⟨e3, h1.1, h3⟩, ?_⟩
  by_cases e5' : bits s'.box cand = []
  · right
    refine ⟨fun f hf hall hfv hsimple ρ hρ hd => ?_, fun f hf hall hfv => ?_⟩
    · cases hs : isSimpleRel f with
      | true => exact hsimple hs ρ (C21_sub_points _ _ h3 h1.1 ρ hρ)
      | false =>
        exact Proof.accepted_weak hops hfp hδ hl (e1 ▸ h1.1) e4 (by rw [e1]; exact e5') hf hall hs
          hfv (e1 ▸ hρ) hd
    · obtain ⟨k, v, iv, g1, g2, g3⟩ := (Proof.evalBox_some e4).2 f hf
      refine ⟨k, v, iv, ?_, ?_⟩
      · simpa [evalLit, hall, e1] using g1
      · cases v with
        | valid => exact Or.inl rfl
        | unsat => exact absurd rfl g2
        | unknown =>
          right
          rcases Proof.candidates_cases (g3 rfl) (by rw [e1]; exact e5') (fun w hw => by
            rw [e1, h1.1]; exact hl.vars f hf w hw) with hc | hc | hc | hc
          · exact hc
          · cases f <;> simp [Fml.isAll, isSimpleRel] at hall hc
          · cases f <;> simp [Fml.isAll, isNeq] at hall hc
          · exact absurd hc hfv
  · exact Or.inl ⟨_, e5', e5.resolve_left e5'⟩

/-- When the default brancher gives up: no candidate coordinate is bisectable with a positive
diameter. -/
theorem C24_default_gives_up (fp : Fp) (b : Box) (cand : List Nat) (hne : cand ≠ [])
    (h : Box.branchLargestFirst fp b cand = .ok none) :
    ¬ ∃ j ∈ cand, fp.bisectable (b.get j) = true ∧ .fin 0 < fp.diam (b.get j) := by
  obtain ⟨d, r, h1, -, h3⟩ := C06_find_max_diam fp b cand hne
  simp only [Box.branchLargestFirst, h1, Outcome.bind_ok] at h
  cases r with
  | none => exact h3 rfl
  | some i =>
    simp only at h
    obtain ⟨p, -, h2⟩ := Proof.bindO_ok h
    simp at h2

/-- `exp x ≤ -1`. -/
def demoExp : Fml := .rel .leq (.app1 .exp (.var demoX)) (.const (-1))

/-- C24 is wrong for a box that cannot be split: with sound interval operations that do not
bound `exp` well enough the search accepts the point box `x = 1` for `exp x ≤ -1`, although the
constraint is violated by more than `1`. -/
theorem C24_stuck_box :
    ∃ (c : Ctc) (s s' : CStatus), mkFwdbwd demoExp s.box = .ok c ∧
      icpSeq demoEnv true c [demoExp] 10 s = .ok (true, s') ∧
      InBox (fun _ => 1) s'.box ∧
      ∀ I : Interp, I.f1 .exp 1 = Real.exp 1 → ¬ WeakHolds I 1 (fun _ => 1) demoExp := by
  have h : (do let c ← Run.lift (mkFwdbwd demoExp ⟨[demoX], [⟨.fin 1, .fin 1⟩], false⟩)
               let r ← icpSeq demoEnv true c [demoExp] 10
                 ⟨⟨[demoX], [⟨.fin 1, .fin 1⟩], false⟩, none, [], [], [], 0⟩
               Run.ok (r.1, r.2.box)) =
      .ok (true, ⟨[demoX], [⟨.fin 1, .fin 1⟩], false⟩) := by decide +kernel
  obtain ⟨c, hc, h⟩ := Proof.bindR_ok h
  have hc := Proof.lift_ok hc
  obtain ⟨⟨r, s'⟩, h1, h2⟩ := Proof.bindR_ok h
  simp only [Run.ok.injEq, Prod.mk.injEq] at h2
  obtain ⟨rfl, h2⟩ := h2
  refine ⟨c, ⟨⟨[demoX], [⟨.fin 1, .fin 1⟩], false⟩, none, [], [], [], 0⟩, s', hc, h1, ?_, ?_⟩
  · rw [h2]
    refine ⟨rfl, fun i v hv => ?_⟩
    rcases i with _ | i
    · simp [Box.get, InItv, below, above]
    · simp at hv
  · rintro I hI ⟨op, l, r, h1, h2⟩
    simp only [demoExp, asRel, Option.some.injEq, Prod.mk.injEq] at h1
    obtain ⟨rfl, rfl, rfl⟩ := h1
    simp only [weakRel, eval, hI] at h2
    have := Real.exp_pos 1
    push_cast at h2
    linarith

/-- The decimal literal `0.1` with its two enclosing doubles. -/
def demoTenth : RConst := ⟨3602879701896396 / 2 ^ 55, 3602879701896397 / 2 ^ 55, false, 1 / 10⟩
/-- `0.1 * 10^20 > 10^19 + 100`. -/
def demoClosed : Fml :=
  .rel .gt (.mul (.const (10 ^ 20)) (.rconst demoTenth)) (.const (10 ^ 19 + 100))

/-- C24 is wrong for a constraint without variables: there is nothing to branch on, whatever the
error is.  `0.1 * 10^20 > 10^19 + 100` is accepted with `δ = 1/1000`. -/
theorem C24_no_variable :
    RcOkF demoClosed ∧
    ∃ (c : Ctc) (s s' : CStatus), mkFwdbwd demoClosed s.box = .ok c ∧
      icpSeq demoEnv true c [demoClosed] 10 s = .ok (true, s') ∧
      InBox (fun _ => 1) s'.box ∧
      ∀ I : Interp, ¬ WeakHolds I 1 (fun _ => 1) demoClosed := by
  refine ⟨by norm_num [demoClosed, RcOkF, RcOkE, demoTenth], ?_⟩
  have h : (do let c ← Run.lift (mkFwdbwd demoClosed demoUnit)
               let r ← icpSeq demoEnv true c [demoClosed] 10 ⟨demoUnit, none, [], [], [], 0⟩
               Run.ok (r.1, r.2.box)) = .ok (true, demoUnit) := by decide +kernel
  obtain ⟨c, hc, h⟩ := Proof.bindR_ok h
  have hc := Proof.lift_ok hc
  obtain ⟨⟨r, s'⟩, h1, h2⟩ := Proof.bindR_ok h
  simp only [Run.ok.injEq, Prod.mk.injEq] at h2
  obtain ⟨rfl, h2⟩ := h2
  refine ⟨c, ⟨demoUnit, none, [], [], [], 0⟩, s', hc, h1, ?_, ?_⟩
  · rw [h2]
    refine ⟨rfl, fun i v hv => ?_⟩
    rcases i with _ | i
    · simp [demoUnit, Box.get, InItv, below, above]
    · simp [demoUnit] at hv
  · rintro I ⟨op, l, r, h1, h2⟩
    simp only [demoClosed, asRel, Option.some.injEq, Prod.mk.injEq] at h1
    obtain ⟨rfl, rfl, rfl⟩ := h1
    simp only [weakRel, eval, demoTenth] at h2
    push_cast at h2
    norm_num at h2

/-- Concrete case of `C24_delta_sat_partial`: `x * (1 - x) ≥ 0.2` on `[0, 1]`, with splits. -/
def demoHill : Fml := .rel .geq
  (.mul (.var demoX) (.add (.const 1) (.mul (.const (-1)) (.var demoX)))) (.const (1 / 5))
example : (do let c ← Run.lift (mkFwdbwd demoHill demoUnit)
              let r ← icpSeq demoEnv true c [demoHill] 10 ⟨demoUnit, none, [], [], [], 0⟩
              Run.ok (r.1, r.2.box)) =
    .ok (true, ⟨[demoX], [⟨.fin (21 / 32), .fin (11 / 16)⟩], false⟩) := by decide +kernel
example : DiamOk demoEnv.fp ∧ 0 ≤ demoEnv.delta := ⟨exactFp_diamOk, by decide +kernel⟩

/-! ## C25: the parallel search -/

/-- C25, answer "no": under every schedule, for every number of workers, the final box is empty
and no point of the initial box is a solution. -/
theorem C25_unsat_sound (D : Dom) (I : Interp) (env : Env) (hib : IbexSound D I env.ib)
    (hfa : ForallSound D I env.ib) (hops : IOpsOk D I env.ops) (hna : EvalAllNoUnsat env)
    (hcut : CutInside env.fp) (jobs : Nat) (hj : 0 < jobs) (left : Bool) (c : Ctc)
    (fs : List Fml) (sched : List Nat) (s s' : CStatus) (hwf : BoxWf s.box)
    (hb : BuiltFor s.box.vars c) (hc : CtcFor fs c) (hl : LitsOk fs s.box.vars)
    (h : icpPar env jobs left c fs sched s = .ok (false, s')) :
    s'.box.empty = true ∧ ¬ ∃ ρ, InBox ρ s.box ∧ Solution D I fs s.box.vars ρ := by
  constructor
  · exact (Proof.icpPar_unsat (Proof.tracks_false) (Proof.pruneTracks_false c)
      Proof.evalTracks_false Proof.branchTracks_false hj h).2.1
  · rintro ⟨ρ, hρ, hsol⟩
    refine (Proof.icpPar_unsat (Proof.tracks_point s.box.vars ρ)
      (Proof.pruneTracks_point hib hfa hsol.typed hb (fun f hf => hl.rc f (hc.sub f hf))
        (fun f hf => hsol.defined f (hc.sub f hf)) (hc.sat I ρ hsol.holds))
      (Proof.evalTracks_point hops hna hl hsol)
      (Proof.branchTracks_point hsol.typed (Proof.branchOk_default hcut)) hj h).2.2 trivial
      ⟨⟨rfl, hwf⟩, hρ⟩

/-- C25, answer "yes": the returned box is a non-empty sub-box of the initial one, and it was
accepted by a worker: all constraints were evaluated on it, none was refuted, and nothing is left
to branch on or the brancher gave up. -/
theorem C25_sat_accepted (D : Dom) (I : Interp) (env : Env) (hib : IbexSound D I env.ib)
    (hfa : ForallSound D I env.ib) (hcut : CutInside env.fp) (jobs : Nat) (left : Bool) (c : Ctc)
    (fs : List Fml) (sched : List Nat) (s s' : CStatus) (hwf : BoxWf s.box)
    (hb : BuiltFor s.box.vars c) (h : icpPar env jobs left c fs sched s = .ok (true, s')) :
    s'.box.empty = false ∧ s'.box.vars = s.box.vars ∧ SubBox s'.box s.box ∧
    ∃ (t t' : CStatus) (cand : List Nat), t.box = s'.box ∧
      evalBox env fs [] t = .ok (t', some cand) ∧
      (bits s'.box cand = [] ∨
        Box.branchLargestFirst env.fp s'.box (bits s'.box cand) = .ok none) := by
  obtain ⟨h1, h2, t, t', cand, e1, -, e3, e4, e5⟩ :=
    Proof.icpPar_sat (Proof.prune_sub hib hfa c hb) hcut ⟨rfl, hwf⟩ h
  exact ⟨e3, h1.1, h2, t, t', cand, e1, e4, e5⟩

/-- C25, at every moment of every schedule, as long as nothing was found: `number_of_boxes` is
the number of boxes on the stack plus the shares of the workers, and when a worker has returned
the stack is empty and no worker has a box left. -/
theorem C25_no_early_stop (env : Env) (jobs : Nat) (left : Bool) (c : Ctc) (fs : List Fml)
    (sched : List Nat) (s : CStatus) (p : Par)
    (h : Par.steps env c fs sched (Par.start jobs left s) = .ok p) (hf : p.found = none) :
    p.boxes = p.stack.length + (p.workers.map share).sum ∧
    ∀ w ∈ p.workers, w.pc = .done → p.stack = [] ∧ ∀ w' ∈ p.workers, pending w' = [] := by
  have hinv := Proof.steps_inv (P := Proof.CountInv)
    (fun _ _ _ hq hi => Proof.count_step hq hi) h (Proof.count_start jobs left s)
  exact ⟨hinv.count hf, fun w hw hd => Proof.quiet_nothing hinv hf hw hd⟩

/-- Concrete case: two workers, strictly alternating, refute `x * (1 - x) ≥ 1` on `[0, 1]`. -/
example : (do let c ← Run.lift (mkFwdbwd demoHump demoUnit)
              let r ← icpPar demoEnv 2 true c [demoHump]
                ((List.replicate 40 [0, 1]).flatten) ⟨demoUnit, none, [], [], [], 0⟩
              Run.ok (r.1, r.2.box.empty)) = .ok (false, true) := by decide +kernel
/-- The same with a third worker that runs at the end only, and two others in turns. -/
example : (do let c ← Run.lift (mkFwdbwd demoHump demoUnit)
              let r ← icpPar demoEnv 3 true c [demoHump]
                ((List.replicate 20 [0, 0, 0, 1, 1]).flatten ++ [2, 2, 2, 2])
                ⟨demoUnit, none, [], [], [], 0⟩
              Run.ok (r.1, r.2.box.empty)) = .ok (false, true) := by decide +kernel
example : (do let c ← Run.lift (mkFwdbwd demoHill demoUnit)
              let r ← icpPar demoEnv 2 true c [demoHill]
                ((List.replicate 100 [0, 1]).flatten) ⟨demoUnit, none, [], [], [], 0⟩
              Run.ok (r.1, r.2.box.empty)) = .ok (true, false) := by decide +kernel

end Verif.Props
