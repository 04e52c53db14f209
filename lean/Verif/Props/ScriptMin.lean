import Verif.Model.ScriptMin
import Verif.Props.GetValue
import Verif.Props.Optimum
import Verif.Spec.ScriptMin

/-!
# C60: optima of the problem a script states
-/

namespace Verif.Props
open Verif Verif.Model Verif.Model.Smt2 Verif.Spec Verif.Spec.Smt2 Verif.Proof Verif.Proof.Smt2

theorem exact_newVars {cfg : CCfg} : ∀ {l : List Cmd} {k : Books} {c c' : Ctx} {as},
    (∀ x ∈ l, ∃ t, x = Cmd.newVar t) → PosesExact cfg k c → runCmds cfg c l = .ok (as, c') →
    ∃ k', PosesExact cfg k' c' ∧ k'.top = k.top
  | [], k, c, c', as, _, hk, h => by
    simp only [runCmds, Run.ok.injEq, Prod.mk.injEq] at h
    rw [← h.2]
    exact ⟨k, hk, rfl⟩
  | x :: l, k, c, c', as, hl, hk, h => by
    obtain ⟨t, rfl⟩ := hl x (by simp)
    obtain ⟨a, c1, q, h1, h2, h3⟩ := runCmds_cons h
    obtain ⟨k', e1, e2⟩ := exact_newVars (as := q.1) (c' := q.2) (fun x hx => hl x (by simp [hx]))
      (.step (cmd := .newVar t) hk trivial trivial h1) h2
    simp only [Prod.mk.injEq] at h3
    rw [h3.2]
    exact ⟨k', e1, e2⟩

/-- Solutions of the problem in the books fulfil the calls in force. -/
theorem track_fulfils {I : Interp} {L l n k ρ} (ht : Track L l n k) (h : SolvedBy I k.top ρ) :
    Fulfils I l ρ := by
  intro c hc
  cases c with
  | assert f => exact h.holds f ((ht.asserted f).mpr hc)
  | setInterval v x y =>
    obtain ⟨iv, hiv⟩ := (ht.declared v).mpr (ht.setd v x y hc)
    have := h.dom _ hiv
    rw [ht.set v x y hc iv hiv] at this
    obtain ⟨a, b⟩ := this
    refine ⟨fun q e => ?_, fun e => ?_, fun q e => ?_, fun e => ?_⟩ <;> subst e <;>
      simp_all [below, above]
  | declare v m =>
    obtain ⟨iv, hiv⟩ := (ht.declared v).mpr ⟨m, hc⟩
    exact h.typed _ hiv
  | _ => trivial

/-- What is known of the context when the objective is given. -/
theorem opt_facts {cfg : CCfg} {s : List SCmd} {d : Drv} (hr : run (idsTaken cfg) s {} = .ok d)
    (ht : TidyScript s) (hc : Covered d.log) (hx : ExactLog cfg.th.dbl d.log) {max : Bool}
    {t : STerm} (hl : LetFree t) (htm : Tame t) (hn : InScope s [t]) {r : Option Box}
    (h : solveOpt cfg s max t [.check] = .ok [r]) :
    ∃ e d' k k' c c1 c2 n, tr (idsTaken cfg) t d = .ok (.expr e, d') ∧ PosesExact cfg k' c ∧
      k'.top = k.top ∧ Track d.log d.log n k ∧ optimise cfg max c e = .ok c1 ∧
      checkSat cfg c1 = .ok (r, c2) ∧ (∀ v ∈ e.vars, DeclIn d.log v) ∧
      ∀ I ρ, valueAfter I (inForce s) ((modelVars d.log).map ρ) t = .num (eval I ρ e) := by
  unfold solveOpt at h
  obtain ⟨d1, h1, h⟩ := bindR_ok h
  have h1 := lift_ok h1
  rw [hr] at h1
  simp only [Outcome.ok.injEq] at h1
  subst h1
  obtain ⟨⟨x, d2⟩, h2, h⟩ := bindR_ok h
  have h2 := lift_ok h2
  cases x with
  | fml f => simp at h
  | expr e =>
    simp only at h
    obtain ⟨⟨as, c⟩, h3, h⟩ := bindR_ok h
    obtain ⟨c1, h4, h⟩ := bindR_ok h
    simp only [run, step, Outcome.bind_ok, Run.lift, Run.bind_ok, Drv.call, List.nil_append, runCmds,
      stepCmd] at h
    obtain ⟨⟨as', c2'⟩, h5', h⟩ := bindR_ok h
    obtain ⟨⟨as2, c2⟩, h6, h7⟩ := bindR_ok h5'
    obtain ⟨⟨a, c3⟩, h5, h8⟩ := bindR_ok h6
    simp only [Run.ok.injEq, Prod.mk.injEq, List.append_nil] at h h7 h8
    obtain ⟨rfl, rfl⟩ := h8
    obtain ⟨rfl, rfl⟩ := h7
    obtain rfl : a = r := by simpa using h
    obtain ⟨f, fs, k1, k2, k3, -⟩ := nest_run s (rest := [t].map .assert) nest_init hn ht.1 hr
    have hD := nests_asserts k3
    have h2' : trs (idsTaken cfg) [t] d = .ok ([.expr e], d2) := by
      simp only [trs, h2, Outcome.bind_ok]
    obtain ⟨g', e3, t3⟩ := trs_sim [t] k1.tied ⟨htm, trivial⟩
      (fun n hm => by
        obtain ⟨t, h1, h2⟩ := mem_freeNamess hm
        exact (hD t h1).1 n h2)
      (fun n hm => by
        obtain ⟨t, h1, h2⟩ := mem_callNamess hm
        exact uses_calls (hD t h1) n h2) h2'
    obtain ⟨B, hi⟩ := k1.ok.inv
    obtain ⟨new, p⟩ := trs_post [t] hi e3
    obtain ⟨p1, p2⟩ := p.pure ⟨hl, trivial⟩ ⟨htm, trivial⟩
    have hf : callsInForce d.log = f.l := by rw [callsInForce, k1.log]
    rw [flat_inForce hx.flat] at hf
    have hs : inForce s = f.s := by
      rw [inForce]
      exact congrArg Prod.fst k2
    have hlog : d2.log = d.log ++ new := by
      rw [← t3.log, p.log, k1.tied.log]
    rw [hlog] at h3
    obtain ⟨q1, q2, j1, j2, j3⟩ := runCmds_append h3
    obtain ⟨k, u, b1, -, b2⟩ := script_books cfg (script_nest hr ht).1 (as := q1.1) (c := q1.2) j1 hc
    obtain ⟨k', b3, b4⟩ := exact_newVars (as := q2.1) (c' := q2.2) p1 (b2 hx) j2
    have e5 : c = q2.2 := congrArg Prod.snd j3
    have b5 := b1.track
    rw [flat_inForce hx.flat] at b5
    subst e5
    refine ⟨e, d2, k, k', _, c1, _, _, h2, b3, b4, b5, h4, h5, fun v hv => ?_, fun I ρ => ?_⟩
    · rw [hf]
      exact ⟨true, k1.ok.glob v (p2 (.expr e) (by simp) v hv)⟩
    · obtain ⟨E, F, mt, k⟩ := k1.ok.means.env I ρ
      have := p.sem ⟨htm, trivial⟩ I ρ E F mt fun c hc => by
        obtain ⟨t, rfl⟩ := p1 c hc
        trivial
      simp only [dens_eq_map, List.map_cons, List.map_nil, List.cons.injEq, and_true, valT] at this
      rw [this, hf, hs]
      have k0 := k [] []
      simp only [List.append_nil] at k0
      simp only [valueAfter, k0, namesOf]

/-- **C60.**  What is minimised is an expression; a formula is refused, no answer is given. -/
theorem C60_formula (cfg : CCfg) (s s2 : List SCmd) (d : Drv) (max : Bool) (t : STerm)
    (hr : run (idsTaken cfg) s {} = .ok d) (a : List (Option Box))
    (h : solveOpt cfg s max t s2 = .ok a) :
    ∃ e d', tr (idsTaken cfg) t d = .ok (.expr e, d') := by
  unfold solveOpt at h
  obtain ⟨d1, h1, h⟩ := bindR_ok h
  have h1 := lift_ok h1
  rw [hr] at h1
  cases h1
  obtain ⟨x, h2, h⟩ := bindR_ok h
  obtain ⟨y, d'⟩ := x
  cases y with
  | fml f => cases h
  | expr e => exact ⟨e, d', lift_ok h2⟩

/-- C60, as far as it holds: if the check after `(minimize t)` or `(maximize t)` answers `unsat`, the
problem stated by the script has no solution at which the value of `t` is best, unless one that is
not ordinary (in the gap next to the literal of a strict bound, or with an integer out of range).
Missing: scopes, quantifiers and conditionals in the assertions, conditionals and `let` in the
objective, literals of bounds that are not doubles, terms without values somewhere, and bounds given
after assertions; and commands between the objective and the check, for which the claim is wrong
(`C60_late`). -/
theorem C60_unsat_partial (D : Dom) (I : Interp) (cfg : CCfg) (he : EnvOk D I cfg.env)
    (hd : DblOk cfg.th.dbl) (hp : PicosatOk cfg.ps) (s : List SCmd) (d : Drv) (max : Bool)
    (t : STerm) (hr : run (idsTaken cfg) s {} = .ok d) (ht : TidyScript s) (hc : Covered d.log)
    (hx : ExactLog cfg.th.dbl d.log) (hl : LetFree t) (htm : Tame t) (hn : InScope s [t])
    (hobj : ∀ e d', tr (idsTaken cfg) t d = .ok (.expr e, d') →
      ExactObj e ∧ EverywhereLog D I d.log e)
    (h : solveOpt cfg s max t [.check] = .ok [none]) (xs : List ℝ) (ho : OptimumOf I (inForce s) max t xs) :
    (∃ ρ, Fulfils I d.log ρ ∧ xs = (modelVars d.log).map ρ) ∧
    ∀ ρ, Fulfils I d.log ρ → xs = (modelVars d.log).map ρ →
      ¬ Ordinary D I cfg.th.dbl d.log ρ := by
  have C := C39_scopes_partial _ s d hr ht I
  rw [flat_inForce hx.flat] at C
  refine ⟨(C xs).mp ho.1, fun ρ hf hxs hor => ?_⟩
  obtain ⟨e, d', k, k', c, c1, c2, n, e1, e2, e3, e4, e5, e6, e7, e8⟩ :=
    opt_facts hr ht hc hx hl htm hn h
  obtain ⟨⟨w1, w2, w3⟩, w4⟩ := hobj e d' e1
  have hdec : ∀ v ∈ e.vars, k'.top.Declared v := fun v hv => by
    rw [e3]; exact (e4.declared v).mpr (e7 v hv)
  have wf := wfE_of e hdec w1
  have hev : ∀ σ : Valuation, (∀ p ∈ k'.top.dom, typeOk p.1.type (σ p.1)) →
      (∀ f ∈ k'.top.asserted, DefF D I σ f) ∧ DefE D I σ e := by
    rw [e3]
    intro σ hσ
    obtain ⟨a, b⟩ := w4 σ fun v m hv => by
      obtain ⟨iv, hiv⟩ := (e4.declared v).mpr ⟨m, hv⟩
      exact hσ _ hiv
    exact ⟨fun f hf => a f ((e4.asserted f).mp hf), b⟩
  have sol := track_solved e4 hf hor
  rw [← e3] at sol
  obtain ⟨-, x, v1, v2⟩ := ho
  rw [hxs, e8, SVal.num.injEq] at v1
  have best : ∀ σ, SolvedBy I k'.top σ → if max then eval I σ e ≤ eval I ρ e
      else eval I ρ e ≤ eval I σ e := by
    intro σ hσ
    rw [e3] at hσ
    obtain ⟨y, y1, y2⟩ := v2 _ ((C _).mpr ⟨σ, track_fulfils e4 hσ, rfl⟩)
    rw [e8, SVal.num.injEq] at y1
    rw [y1, v1]; exact y2
  cases max with
  | false =>
    refine C55_unsat_partial D I cfg he hd hp k' c c1 c2 [e] e2 ?_ ?_ e5 e6 ⟨ρ, ⟨sol.1, ?_⟩, sol.2⟩
    · simp [w2, wf, w3]
    · intro σ hσ
      simpa using hev σ hσ
    · intro σ hσ
      exact ⟨e, by simp, by simpa using best σ hσ⟩
  | true =>
    refine C55_unsat_partial D I cfg he hd hp k' c c1 c2 [.mul (.const (-1)) e] e2 ?_ ?_ e5 e6
      ⟨ρ, ⟨sol.1, ?_⟩, sol.2⟩
    · simp [IteFreeE, w2, WfE, wf, ExactNum, asNum]
    · intro σ hσ
      simpa [DefE] using hev σ hσ
    · intro σ hσ
      exact ⟨_, List.mem_singleton.mpr rfl, by simpa [eval] using best σ hσ⟩


/-! ### Concrete cases -/

/-- The variables in what follows: `x`, and those that the objective brings. -/
def omX : Variable := ⟨0, .continuous⟩
def omY : Variable := ⟨1, .continuous⟩
def omZ : Variable := ⟨2, .continuous⟩

/-- `∀ y, y > 5 ∨ z ≤ y`. -/
def omNone : Fml := .all [omY] (.disj [.rel .gt (.var omY) (.const 5), .rel .leq (.var omZ) (.var omY)])

theorem omNone_false {I : Interp} {ρ : Valuation} : ¬ holds I ρ omNone := by
  intro h
  have := h (fun v => if v = omY then min 5 (ρ omZ) - 1 else ρ v)
    (fun v hv => by
      rw [List.mem_singleton] at hv
      rw [if_neg hv]) (by simp [typeOk, omY])
  have h1 := min_le_left 5 (ρ omZ)
  have h2 := min_le_right 5 (ρ omZ)
  simp only [holds, holdsAny, relSem, eval, or_false, if_true,
    if_neg (show omZ ≠ omY by decide)] at this
  rcases this with h3 | h3
  · push_cast at h3; linarith
  · linarith

/-- Contractors that see it. -/
def omCfg : CCfg := keenCfgOf omNone

/-- `x ≤ 5`. -/
def omScript : List SCmd := [.declare "x" .real none, .assert (.rel .le (.sym "x") (.num 5))]
def omFive : Fml := .rel .leq (.var omX) (.const 5)
def omLog : List Cmd := [.newVar .continuous, .declare omX true, .assert omFive]


/-- The contexts before the objective. -/
def om0 : Ctx := declare { Ctx.init 0 with sat := { (Ctx.init 0).sat with
  abs := { (Ctx.init 0).sat.abs with next := 1 } } } omX true
def om1 : Ctx := om0.setBox ⟨[omX], [⟨.ninf, .fin 5⟩], false⟩

theorem om_assert : assertF omCfg om0 omFive = .ok om1 := by
  have h1 : Filter.filter omCfg.th.dbl omFive om0.box =
      .ok (.withChange, ⟨[omX], [⟨.ninf, .fin 5⟩], false⟩) := by decide +kernel
  have h2 : om0.box.empty = false := by decide +kernel
  unfold assertF
  rw [if_neg (by decide), h2, if_neg (by decide), if_neg (by decide), h1]
  rfl

/-- What the objective adds: `z = x ∧ ∀ y, ¬ y ≤ 5 ∨ z ≤ y`. -/
def omQ : Fml := .disj [.neg (.rel .leq (.var omY) (.const 5)), .rel .leq (.var omZ) (.var omY)]
def omPsi : Fml := .conj [.rel .eq (.var omZ) (.var omX), .all [omY] omQ]

theorem om_tseitin : tseitin 3 omPsi = .ok ([.rel .eq (.var omZ) (.var omX), omNone], 4) ∧
    tseitinKeys 3 omPsi = [3] := by
  let n : Fml := .disj [.rel .gt (.var omY) (.const 5), .rel .leq (.var omZ) (.var omY)]
  have h2 : naiveCnf omQ = .ok n := by
    have : nnf true omQ = n := by decide +kernel
    rw [naiveCnf, this]
    simp only [naiveVisit, naiveVisitList, n, Outcome.bind_ok]
    decide +kernel
  constructor
  · simp only [tseitin, tsVisit, tsVisitList, omPsi, h2, Outcome.bind_ok]
    decide +kernel
  · simp only [tseitinKeys, tsVisit, tsVisitList, omPsi, h2, Outcome.bind_ok]
    decide +kernel

/-- The context with the variable of the objective. -/
def om2 : Ctx :=
  let c := om1.setBox (addToBox om1.box omZ)
  { c with sat := { c.sat with abs := { c.sat.abs with next := 3 } } }

/-- The SAT solver with the clauses of the objective. -/
def omSat : Outcome SatState :=
  let a := absVisitList [.rel .eq (.var omZ) (.var omX), omNone] { om2.sat.abs with next := 4 }
  addClauses { om2.sat with abs := a.2, tseitinVars := om2.sat.tseitinVars.insert 3 } a.1

def om3 (s : SatState) : Ctx :=
  { (om2.setBox om2.box).setBox (om2.setBox om2.box).box with
    stack := om2.stack.pushBack omPsi, sat := s }

theorem om_minimize {s} (hs : omSat = .ok s) : minimize omCfg om1 [.var omX] = .ok (om3 s) := by
  have h1 : minimizePsi om1.sat.abs.next om1.box om1.stack.vec [.var omX] =
      .ok (omPsi, [omZ], 3) := by decide +kernel
  have h2 : Filter.filter omCfg.th.dbl omPsi om2.box = .ok (.notFiltered, om2.box) := by
    decide +kernel
  have h3 : om2.box.empty = false ∧ om2.box.bot = false := by decide +kernel
  have h4 : iteProcess (om2.setBox om2.box).sat.abs.next omPsi = (omPsi, [], 3) := by
    decide +kernel
  have h5 : addFormula om2.sat omPsi = .ok s := by
    rw [addFormula, show om2.sat.abs.next = 3 from rfl, om_tseitin.1, om_tseitin.2, ← hs]
    rfl
  have h6 : assertF omCfg om2 omPsi = .ok (om3 s) := by
    unfold assertF
    rw [if_neg (by simp [omPsi]), h3.1, if_neg (by decide), if_neg (by simp [omPsi]), h2,
      Outcome.bind_ok]
    simp only [h3.2, Bool.false_eq_true, if_false, h4, List.foldl_nil]
    have : addFormula { ((om2.setBox om2.box).setBox (om2.setBox om2.box).box).sat with
        abs := { ((om2.setBox om2.box).setBox (om2.setBox om2.box).box).sat.abs with
          next := 3 } } omPsi = .ok s := h5
    rw [this, Outcome.bind_ok]
    rfl
  rw [minimize, h1, Run.bind_ok]
  exact congrArg Run.lift h6

theorem om_run : runCmds omCfg (Ctx.init 0) omLog = .ok ([], om1) := by
  have : stepCmd omCfg om0 (.assert omFive) = .ok ([], om1) := by
    simp only [stepCmd, om_assert]; rfl
  have h : runCmds omCfg om0 [.assert omFive] = .ok ([], om1) := by
    simp only [runCmds, this, Run.bind_ok, List.append_nil]
  show (do
    let q ← (do
      let q ← runCmds omCfg om0 [.assert omFive]
      Run.ok ([] ++ q.1, q.2))
    Run.ok ([] ++ q.1, q.2)) = _
  rw [h]
  rfl

/-- The expression and the calls for a script and its objective, and the calls for the commands
after it. -/
def objOf (cfg : CCfg) (s : List SCmd) (t : STerm) (use : List Cmd → Nat) (n : Nat)
    (s2 : List SCmd) : Option (Expr × List Cmd × List Cmd) :=
  match run (idsTaken cfg) s {} with
  | .ok d => match tr (idsTaken cfg) t d with
    | .ok (.expr e, d') => match run use s2 { d' with next := n, log := [] } with
      | .ok d2 => some (e, d'.log, d2.log)
      | _ => none
    | _ => none
  | _ => none

theorem solveOpt_of {cfg s t s2 max e l l2 as c c1 r} (hr : runCmds cfg (Ctx.init 0) l = .ok (as, c))
    (ho : optimise cfg max c e = .ok c1)
    (h : objOf cfg s t (idsTakenFrom cfg c1) c1.sat.abs.next s2 = some (e, l, l2))
    (h2 : runCmds cfg c1 l2 = .ok r) : solveOpt cfg s max t s2 = .ok r.1 := by
  unfold objOf at h
  split at h
  · rename_i d hd
    split at h
    · rename_i e' d' he
      split at h
      · rename_i d2 hd2
        simp only [Option.some.injEq, Prod.mk.injEq] at h
        obtain ⟨rfl, rfl, rfl⟩ := h
        simp only [solveOpt, hd, Run.lift, Run.bind_ok, he, hr, ho, hd2, h2]
      · cases h
    · cases h
  · cases h

theorem objOf_expr {cfg s t use n e e' l l2 d d'} (h : objOf cfg s t use n [] = some (e, l, l2))
    (hd : run (idsTaken cfg) s {} = .ok d) (ht : tr (idsTaken cfg) t d = .ok (.expr e', d')) :
    e' = e := by
  unfold objOf at h
  simp only [hd, ht, run, Option.some.injEq, Prod.mk.injEq] at h
  exact h.1

theorem om_sat : ∃ s, omSat = .ok s ∧ answerOf omCfg (om3 s) = some false ∧
    ∃ c, assertF omCfg (om3 s) (.rel .geq (.var omX) (.const 0)) = .ok c ∧
      answerOf omCfg c = some false := by
  have : (match omSat with
      | .ok s => decide (answerOf omCfg (om3 s) = some false) &&
        (match assertF omCfg (om3 s) (.rel .geq (.var omX) (.const 0)) with
        | .ok c => decide (answerOf omCfg c = some false)
        | _ => false)
      | _ => false) = true := by decide +kernel
  split at this
  · rename_i s hs
    rw [Bool.and_eq_true] at this
    refine ⟨s, hs, of_decide_eq_true this.1, ?_⟩
    have h2 := this.2
    split at h2
    · exact ⟨_, by assumption, of_decide_eq_true h2⟩
    · cases h2
  · cases this

theorem om_answer : solveOpt omCfg omScript false (.sym "x") [.check] = .ok [none] := by
  obtain ⟨s, hs, h, -⟩ := om_sat
  obtain ⟨c, hc⟩ := answerOf_unsat h
  refine solveOpt_of (r := ([none], c)) om_run (om_minimize hs) (e := .var omX) (l := omLog) (l2 := [.check])
    (by rfl) ?_
  simp only [runCmds, stepCmd, hc, Run.bind_ok, List.append_nil]

/-- The objective speaks of what was asserted before it only: with `(declare-fun x () Real)
(assert (<= x 5)) (minimize x) (assert (>= x 0)) (check-sat)` the answer is `unsat`, since there is
no least real number below 5, while the least solution of the stated problem is 0. -/
theorem C60_late (D : Dom) (I : Interp) : EnvOk D I omCfg.env ∧ DblOk omCfg.th.dbl ∧
    PicosatOk omCfg.ps ∧
    solveOpt omCfg omScript false (.sym "x") [.assert (.rel .ge (.sym "x") (.num 0)), .check] =
      .ok [none] ∧
    OptimumOf I (omScript ++ [.assert (.rel .ge (.sym "x") (.num 0))]) false (.sym "x") [0] := by
  refine ⟨keenCfgOf_ok D I fun _ => omNone_false, quarterDbl_ok, demoSat_ok, ?_, ?_⟩
  · obtain ⟨s, hs, -, c, h1, h2⟩ := om_sat
    obtain ⟨c', hc⟩ := answerOf_unsat h2
    refine solveOpt_of (r := ([none], c')) om_run (om_minimize hs) (e := .var omX) (l := omLog)
      (l2 := [.assert (.rel .geq (.var omX) (.const 0)), .check]) (by rfl) ?_
    simp only [runCmds, stepCmd, h1, Run.lift, hc, Run.bind_ok, List.append_nil, List.nil_append]
  · refine ⟨?_, 0, ?_, ?_⟩
    · refine ⟨0, [], rfl, ?_⟩
      simp [holdsScript, den, Names.set, toVal, sortType, liftR, relOf, SVal.asProp, inBounds, typeOk]
    · simp [valueAfter, omScript, namesOf, den, Names.set, toVal, sortType]
    · rintro ys ⟨y, zs, rfl, -, -, -, h, -⟩
      simp [den, Names.set, toVal, sortType, liftR, relOf, SVal.asProp] at h
      exact ⟨y, by simp [valueAfter, omScript, namesOf, den, Names.set, toVal, sortType], by simpa⟩

/-- The hypotheses are met: `(assert (<= x 5)) (minimize x)` is answered `unsat`, although the script
states a problem with solutions, all of which are ordinary except those in the gap above 5. -/
theorem om_meets (D : Dom) (I : Interp) : EnvOk D I omCfg.env ∧ DblOk omCfg.th.dbl ∧ PicosatOk omCfg.ps ∧
    TidyScript omScript ∧ LetFree (.sym "x") ∧ Tame (.sym "x") ∧ InScope omScript [.sym "x"] ∧
    solveOpt omCfg omScript false (.sym "x") [.check] = .ok [none] ∧
    stated I (inForce omScript) [0] ∧
    ∃ d, run (idsTaken omCfg) omScript {} = .ok d ∧ Covered d.log ∧ ExactLog omCfg.th.dbl d.log ∧
      (∀ e d', tr (idsTaken omCfg) (.sym "x") d = .ok (.expr e, d') →
        ExactObj e ∧ EverywhereLog D I d.log e) ∧
      ∀ ρ : Valuation, ρ omX ≤ 5 → Ordinary D I omCfg.th.dbl d.log ρ := by
  obtain ⟨d, hd, hl⟩ := logOf_some (cfg := omCfg) (s := omScript) (l := omLog) (by decide +kernel)
  refine ⟨keenCfgOf_ok D I fun _ => omNone_false, quarterDbl_ok, demoSat_ok,
    (tidy_of_tame (by simp [omScript, TameScript, Tame]) hd).1, trivial, trivial, ?_, om_answer, ?_,
    d, hd, ?_, ?_, ?_, ?_⟩
  · simp [InScope, omScript, Nests, CmdUsesOnly, UsesOnly, Decls.add, Decls.Has, freeNames, callNames]
  · refine ⟨0, [], rfl, ?_⟩
    simp [holdsScript, den, Names.set, toVal, sortType, liftR, relOf, SVal.asProp, inBounds, typeOk]
  · rw [hl]
    refine ⟨?_, ?_, .inr (by simp [omLog])⟩
    · simp [omLog, omFive, WfF, WfE, omX]
    · intro v l u h
      simp [omLog] at h
  · rw [hl]
    refine ⟨by simp [omLog], ?_, ?_, ?_⟩
    · intro f hf
      simp only [omLog, List.mem_cons, reduceCtorEq, Cmd.assert.injEq, List.not_mem_nil, or_false,
        false_or] at hf
      subst hf
      refine ⟨by simp [omFive, QFree, QFreeE], by simp [omFive, IteFree, IteFreeE],
        fun v op lo hi ex h => ?_⟩
      simp [omFive, asBound, asRel, asNum] at h
      obtain ⟨rfl, rfl, rfl, rfl, rfl⟩ := h
      simp
    · intro l v x y r e
      have : Cmd.setInterval v x y ∈ omLog := by rw [e]; simp
      simp [omLog] at this
    · intro l v m r e
      left
      intro f hf
      obtain ⟨a, b, rfl⟩ := List.append_of_mem hf
      have h1 : omLog.getLast? = some (.assert omFive) := rfl
      have h2 : ∀ (p : List Cmd) g q, omLog = p ++ .assert g :: q → q = [] := by
        intro p g q h
        match p, h with
        | [], h => simp [omLog] at h
        | [_], h => simp [omLog] at h
        | [_, _], h => simp [omLog] at h; exact h.2.2.2
        | _ :: _ :: _ :: p, h => simp [omLog] at h
      have := h2 a f (b ++ .declare v m :: r) (by rw [e]; simp)
      simp at this
  · intro e d' h
    obtain rfl := objOf_expr (use := fun _ => 0) (n := 0) (e := .var omX) (l := omLog) (l2 := [])
      (by rfl) hd h
    refine ⟨⟨⟨by decide, trivial⟩, trivial, fun lo hi ex h => by simp [asNum] at h⟩, ?_⟩
    rw [hl]
    intro σ _
    simp [omLog, omFive, DefF, DefE]
  · rw [hl]
    intro ρ hρ
    refine ⟨?_, ?_⟩
    · intro f hf
      simp only [omLog, List.mem_cons, reduceCtorEq, Cmd.assert.injEq, List.not_mem_nil, or_false,
        false_or] at hf
      subst hf
      refine ⟨trivial, trivial, fun lo hi ex h _ => ?_, fun lo hi ex h => by simp [asNum] at h⟩
      simp only [asNum, Option.some.injEq, Prod.mk.injEq] at h
      obtain ⟨rfl, rfl, rfl⟩ := h
      refine ⟨fun _ hc => ?_, fun hc => by simp at hc⟩
      have := hc.1
      simp only [eval] at this
      push_cast at this
      linarith
    · intro v m hv ht
      simp [omLog] at hv
      rw [hv.1] at ht
      cases ht

end Verif.Props
