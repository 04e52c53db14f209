import Verif.Proof.ScriptCond
import Verif.Props.Api
import Verif.Props.DeltaCond
import Verif.Props.Script

/-!
# C28, C53, C54: delta-sat answers with conditionals and variables that are not reported
-/

namespace Verif.Props
open Verif Verif.Model Verif.Spec Verif.Proof

/-- C28 for histories with variables that the model leaves out (declared with `false`, as those of
`let`, or introduced for conditionals), as far as it holds: every point of the model extends to one
within the stated bounds at which the `δ`-weakening of every asserted formula holds whose terms have
values there. -/
theorem C28_hidden_partial (D : Dom) (I : Interp) (cfg : CCfg) (he : EnvOk D I cfg.env)
    (hd : DblOk cfg.th.dbl) (hp : PicosatOk cfg.ps) (hfp : DiamOk cfg.env.fp)
    (hz : DiamZero cfg.env.fp) (hδ : 0 ≤ cfg.env.delta) (S : Expr → Expr → Prop)
    (k : Books) (c c' : Ctx) (m : Box) (hk : PosesCond cfg S k c)
    (h : checkSat cfg c = .ok (some m, c'))
    (ht : ∀ p ∈ k.top.dom, p.1.type = .continuous ∨ p.1.type = .boolean)
    (hst : ∀ b r, checkCore cfg c = .ok (some b, r) →
      (∀ a e, S a e → ¬ StuckOn cfg.env cfg.th b a e) ∧
      ∀ v ∈ b.vars, v ∉ m.vars → ∃ x : ℝ, InItv x (b.getV v)) (ρ : Valuation) (hρ : InBox ρ m) :
    ∃ ρ1 : Valuation, (∀ v ∈ m.vars, ρ1 v = ρ v) ∧ (∀ p ∈ k.top.dom, InItv (ρ1 p.1) p.2) ∧
    ∀ f ∈ k.top.asserted, DefC D I cfg.env.delta ρ1 f → weakC I cfg.env.delta ρ1 true f := by
  obtain ⟨H, h1, h2⟩ := kd_posesCond hd hp he hfp hδ hk
  obtain ⟨b, r, t, e1, e2, e3⟩ := checkSat_some h
  obtain ⟨-, -, -, -, -, h3⟩ := kd_core hd hp he hfp hδ h1 h2 e1
  obtain ⟨hs1, hs2⟩ := hst b r e1
  obtain ⟨h4, h5, h6⟩ := h3 b rfl hs1
  obtain ⟨P, Ps, l1, l2, hl, -⟩ := h1.cons
  rw [l2] at ht
  obtain ⟨ρ1, ρ', ha, hn⟩ := near_model_part hz hδ h4.2 h5 e2 e3 (fun v hv => by
    rcases (hl.kinds v (by rw [← h4.1]; exact hv)).2 with ⟨iv, hiv⟩ | hv
    · exact ht _ hiv
    · exact .inl hv.2) hs2 hρ
  obtain ⟨h7, h8⟩ := h6 ρ1 ρ' hn
  exact ⟨ρ1, fun v hv => ha v (.inl hv), fun p hp => h7 p.1 p.2 hp, h8⟩

/-- C53 for formulas with conditionals, as far as it holds: every point of a box that
`CheckSatisfiability` returns satisfies the `δ`-weakening of the formula if its terms have values
there, provided that the search did not end with a box that it could not split and left values for
the variables introduced for conditionals (`C53_delta_sat_partial` is for formulas without).  Missing: quantifiers, integer and binary variables, and
the provisos (see C28). -/
theorem C53_conditional_partial (D : Dom) (I : Interp) (cfg : CCfg) (he : EnvOk D I cfg.env)
    (hd : DblOk cfg.th.dbl) (hp : PicosatOk cfg.ps) (hfp : DiamOk cfg.env.fp)
    (hz : DiamZero cfg.env.fp) (hδ : 0 ≤ cfg.env.delta) (S : Expr → Expr → Prop) (next : Nat)
    (f : Fml) (h1 : OneId f.fv) (hw : WfF (· ∈ f.fv) f) (ho : Old next f)
    (hq : QFree f) (hi : ¬ IteFree f) (hf : PlainF cfg.th.dbl cfg.env.delta S (iteProcess next f).1)
    (ht : ∀ v ∈ f.fv, v.type = .continuous ∨ v.type = .boolean) (m : Box)
    (h : apiCheck cfg next f = .ok (some m))
    (hst : ∀ c b r, assertF cfg (declareAll (varSet f.fv) (Ctx.init next)) f = .ok c →
      checkCore cfg c = .ok (some b, r) → (∀ a e, S a e → ¬ StuckOn cfg.env cfg.th b a e) ∧
      ∀ v ∈ b.vars, v ∉ f.fv → ∃ x : ℝ, InItv x (b.getV v))
    (ρ : Valuation) (hρ : InBox ρ m) (hdf : DefC D I cfg.env.delta ρ f) :
    weakC I cfg.env.delta ρ true f := by
  obtain ⟨-, hv⟩ := C53_variables D I cfg he next f h1 ho m h
  unfold apiCheck at h
  obtain ⟨c, hc, h⟩ := bindR_ok h
  obtain ⟨⟨m, c'⟩, hm, h⟩ := bindR_ok h
  simp only [Run.ok.injEq] at h
  subst h
  have hn : (declareAll (varSet f.fv) (Ctx.init next)).sat.abs.next = next := by
    rw [declareAll_sat]; rfl
  have hP := PosesCond.step (cmd := .assert f) (a := []) (c' := c)
    (posesPlain_cond (api_plain cfg S ho h1)) (by rw [hn]; exact api_uses next hw ho) (by
      rw [hn]
      exact .inr ⟨f, rfl, hq, hi, hf⟩) (by simp only [stepCmd, hc]; rfl)
  have hdom : ∀ p ∈ ((booksOf (varSet f.fv) (varSet f.fv).reverse).step
      (declareAll (varSet f.fv) (Ctx.init next)).sat.abs.next (.assert f)).top.dom, p.1 ∈ f.fv := by
    intro p hp
    have hp : p ∈ (varSet f.fv).reverse.map fun v => (v, newItv v.type) := hp
    obtain ⟨v, hv, rfl⟩ := List.mem_map.mp hp
    exact mem_varSet.mp (List.mem_reverse.mp hv)
  exact (C28_conditional_model_partial D I cfg he hd hp hfp hz hδ S _ c c' m hP hm
    (fun p hp => ht _ (hdom p hp)) (fun p hp => (hv _).mpr (hdom p hp))
    (fun b r hb => by
      obtain ⟨g1, g2⟩ := hst c b r (lift_ok hc) hb
      exact ⟨g1, fun v hv' hm' => g2 v hv' fun hf' => hm' ((hv v).mpr hf')⟩) ρ hρ).2 f (.head _) hdf

open Smt2 Verif.Model.Smt2 Verif.Spec.Smt2 Verif.Proof.Smt2

/-- C54 for `delta-sat` with conditionals, `let` and functions, as far as it holds: every point of
the model extends to a point (with values for the variables that are not reported) in the stated
bounds that satisfies the `δ`-weakening of every asserted formula in force whose terms have values
there, provided that the search did not end with a box that it could not split and left values for
the variables not reported.  Missing besides: quantifiers, integer and binary variables, and the
provisos (see C28). -/
theorem C54_conditional_partial (D : Dom) (I : Interp) (cfg : CCfg) (he : EnvOk D I cfg.env)
    (hd : DblOk cfg.th.dbl) (hp : PicosatOk cfg.ps) (hfp : DiamOk cfg.env.fp)
    (hz : DiamZero cfg.env.fp) (hδ : 0 ≤ cfg.env.delta) (S : Expr → Expr → Prop)
    (s : List SCmd) (d : Drv) (as : List (Option Box)) (m : Box)
    (hr : run (idsTaken cfg) s {} = .ok d) (ht : TidyScript s) (hc : Covered d.log)
    (hS : CondLog cfg S d.log)
    (hm : ∀ v b, .declare v b ∈ callsInForce d.log → v.type = .continuous ∨ v.type = .boolean)
    (h : solve cfg (s ++ [.check]) = .ok (as ++ [some m]))
    (hst : ∀ c b r, runCmds cfg (Ctx.init 0) d.log = .ok (as, c) →
      checkCore cfg c = .ok (some b, r) → (∀ a e, S a e → ¬ StuckOn cfg.env cfg.th b a e) ∧
      ∀ v ∈ b.vars, v ∉ m.vars → ∃ x : ℝ, InItv x (b.getV v))
    (ρ : Valuation) (hρ : InBox ρ m) :
    ∃ ρ1 : Valuation, (∀ v ∈ m.vars, ρ1 v = ρ v) ∧
      (∀ v l u, .setInterval v l u ∈ callsInForce d.log → InItv (ρ1 v) ⟨l, u⟩) ∧
      ∀ f, .assert f ∈ callsInForce d.log → DefC D I cfg.env.delta ρ1 f →
        weakC I cfg.env.delta ρ1 true f := by
  obtain ⟨d', c, c', e1, e2, e3⟩ := solve_check h
  rw [hr] at e1
  simp only [Outcome.ok.injEq] at e1
  subst e1
  obtain ⟨k, u, hk, hP⟩ := script_cond cfg (script_nest hr ht).1 e2 hc
  have hT := hk.track
  obtain ⟨ρ1, a0, a1, a2⟩ := C28_hidden_partial D I cfg he hd hp hfp hz hδ S k c c' m (hP S hS) e3
    (fun p hp => by
      obtain ⟨b, hb⟩ := (hT.declared p.1).mp ⟨p.2, hp⟩
      exact hm _ b hb) (hst c · · e2) ρ hρ
  refine ⟨ρ1, a0, fun v l u hl => ?_, fun f hf => a2 f ((hT.asserted f).mpr hf)⟩
  obtain ⟨iv, hiv⟩ := (hT.declared v).mpr (hT.setd v l u hl)
  have := a1 _ hiv
  rwa [hT.set v l u hl iv hiv] at this

/-! ### Concrete cases -/

open Verif.Model.Smt2 in
/-- `x ∈ [2, 11/4]`, `b`, `x ≥ (if b then 1 else 3)`, `let y = 1 in x ≥ y`. -/
def hiddenScript : List SCmd :=
  [.declare "x" .real (some (.fin 2, .fin (11 / 4))), .declare "b" .bool none,
   .assert (.rel .ge (.sym "x") (.ite (.sym "b") (.num 1) (.num 3))),
   .assert (.let_ ["y"] [.num 1] (.rel .ge (.sym "x") (.sym "y")))]

/-- The variable of the conditional, and that of `let`. -/
def scT : Variable := ⟨2, .continuous⟩
def scY : Variable := ⟨9, .continuous⟩
def scCond : Fml := .rel .geq (.var scX) (.ite (.bvar scB) (.const 1) (.const 3))
def hiddenLog : List Cmd :=
  [.newVar .continuous, .declare scX true, .setInterval scX (.fin 2) (.fin (11 / 4)),
   .newVar .boolean, .declare scB true, .assert scCond, .newVar .continuous, .declare scY false,
   .assert (.rel .eq (.var scY) (.const 1)), .assert (.rel .geq (.var scX) (.var scY))]
/-- The relations after the replacement. -/
def hiddenS (a e : Expr) : Prop := (a = .var scX ∧ e = .var scT) ∨ (a = .var scT ∧ e = .const 1) ∨
  (a = .var scT ∧ e = .const 3) ∨ (a = .var scY ∧ e = .const 1) ∨ (a = .var scX ∧ e = .var scY)
def hiddenFound : Box := ⟨[scX, scB, scT, scY], [⟨.fin 2, .fin (11 / 4)⟩, ⟨.fin 1, .fin 1⟩,
  ⟨.fin 1, .fin 1⟩, ⟨.fin 1, .fin 1⟩], false⟩
def hiddenModel : Box := ⟨[scX, scB], [⟨.fin 2, .fin (11 / 4)⟩, ⟨.fin 1, .fin 1⟩], false⟩

theorem not_stuck {b a e iv} (he : evalI demoCfg.env.ops b (Expr.sub a e) = .ok iv)
    (hn : ¬ (.fin demoCfg.env.delta < demoCfg.env.fp.diam iv)) :
    ¬ StuckOn demoCfg.env demoCfg.th b a e := by
  rintro ⟨f, op, iv', cand, h1, -, h2, h3, -⟩
  unfold evalRel at h2
  obtain ⟨o, -, h2⟩ := bindO_ok h2
  obtain ⟨x, h4, h2⟩ := bindO_ok h2
  obtain ⟨j, h5, h2⟩ := bindO_ok h2
  rw [extractExpr_asRel h1] at h4
  simp only [Outcome.ok.injEq] at h4; subst h4
  rw [he] at h5
  simp only [Outcome.ok.injEq] at h5
  subst h5
  injection h2 with h2
  rw [← (Prod.mk.inj h2).2] at h3
  exact hn h3

theorem hidden_not_stuck : ∀ a e, hiddenS a e → ¬ StuckOn demoCfg.env demoCfg.th hiddenFound a e := by
  rintro a e (⟨rfl, rfl⟩ | ⟨rfl, rfl⟩ | ⟨rfl, rfl⟩ | ⟨rfl, rfl⟩ | ⟨rfl, rfl⟩)
  · exact not_stuck (iv := ⟨.fin 1, .fin (7 / 4)⟩) (by decide +kernel) (by decide +kernel)
  · exact not_stuck (iv := ⟨.fin 0, .fin 0⟩) (by decide +kernel) (by decide +kernel)
  · exact not_stuck (iv := ⟨.fin (-2), .fin (-2)⟩) (by decide +kernel) (by decide +kernel)
  · exact not_stuck (iv := ⟨.fin 0, .fin 0⟩) (by decide +kernel) (by decide +kernel)
  · exact not_stuck (iv := ⟨.fin 1, .fin (7 / 4)⟩) (by decide +kernel) (by decide +kernel)

theorem scCond_plain :
    PlainF demoCfg.th.dbl demoCfg.env.delta hiddenS (iteProcess 2 scCond).1 := by
  have : (iteProcess 2 scCond).1 = .conj [
      .disj [.neg (.bvar scB), .rel .eq (.var scT) (.const 1)],
      .disj [.bvar scB, .rel .eq (.var scT) (.const 3)],
      .rel .geq (.var scX) (.var scT)] := by decide +kernel
  rw [this]
  refine ⟨⟨trivial, ⟨⟨⟨trivial, trivial⟩, by decide +kernel, by decide, fine_var, fine_const⟩,
      .inr (.inl ⟨rfl, rfl⟩)⟩, trivial⟩,
    ⟨trivial, ⟨⟨⟨trivial, trivial⟩, by decide +kernel, by decide, fine_var, fine_const⟩,
      .inr (.inr (.inl ⟨rfl, rfl⟩))⟩, trivial⟩,
    ⟨⟨⟨trivial, trivial⟩, by decide +kernel, by decide, fine_var, fine_var⟩, .inl ⟨rfl, rfl⟩⟩,
    trivial⟩

theorem hiddenLog_cond : CondLog demoCfg hiddenS hiddenLog where
  asserts := by
    intro l f r h
    match l, h with
    | [_, _, _, _, _], h =>
      simp only [hiddenLog, List.cons_append, List.nil_append, List.cons.injEq,
        Cmd.assert.injEq] at h
      obtain ⟨rfl, rfl, rfl, rfl, rfl, rfl, -⟩ := h
      refine .inr ⟨⟨trivial, trivial, trivial, trivial⟩, fun h => h.2, fun as c hc => ?_⟩
      have : (match runCmds demoCfg (Ctx.init 0) [.newVar .continuous, .declare scX true,
          .setInterval scX (.fin 2) (.fin (11 / 4)), .newVar .boolean, .declare scB true] with
        | .ok (_, c) => c.sat.abs.next | _ => 0) = 2 := by decide +kernel
      rw [hc] at this
      have : c.sat.abs.next = 2 := this
      rw [this]
      exact scCond_plain
    | [_, _, _, _, _, _, _, _], h =>
      simp only [hiddenLog, List.cons_append, List.nil_append, List.cons.injEq,
        Cmd.assert.injEq] at h
      obtain ⟨-, -, -, -, -, -, -, -, rfl, -⟩ := h
      exact .inl ⟨⟨⟨trivial, trivial⟩, by decide +kernel, by decide, fine_var, fine_const⟩,
        .inr (.inr (.inr (.inl ⟨rfl, rfl⟩)))⟩
    | [_, _, _, _, _, _, _, _, _], h =>
      simp only [hiddenLog, List.cons_append, List.nil_append, List.cons.injEq,
        Cmd.assert.injEq] at h
      obtain ⟨-, -, -, -, -, -, -, -, -, rfl, -⟩ := h
      exact .inl ⟨⟨⟨trivial, trivial⟩, by decide +kernel, by decide, fine_var, fine_var⟩,
        .inr (.inr (.inr (.inr ⟨rfl, rfl⟩)))⟩
    | [], h | [_], h | [_, _], h | [_, _, _], h | [_, _, _, _], h | [_, _, _, _, _, _], h
    | [_, _, _, _, _, _, _], h => simp [hiddenLog] at h
    | _ :: _ :: _ :: _ :: _ :: _ :: _ :: _ :: _ :: _ :: l, h =>
      have := congrArg List.length h
      simp [hiddenLog] at this
  bounds := by
    intro l v x y r h
    match l, h with
    | [_, _], h =>
      simp only [hiddenLog, List.cons_append, List.nil_append, List.cons.injEq,
        Cmd.setInterval.injEq] at h
      obtain ⟨rfl, rfl, ⟨rfl, -⟩, -⟩ := h
      exact ⟨by decide, by simp [callsInForce, enforceCall]⟩
    | [], h | [_], h | [_, _, _], h | [_, _, _, _], h | [_, _, _, _, _], h
    | [_, _, _, _, _, _], h | [_, _, _, _, _, _, _], h | [_, _, _, _, _, _, _, _], h
    | [_, _, _, _, _, _, _, _, _], h => simp [hiddenLog] at h
    | _ :: _ :: _ :: _ :: _ :: _ :: _ :: _ :: _ :: _ :: l, h =>
      have := congrArg List.length h
      simp [hiddenLog] at this
  first := by
    intro l v m r h
    match l, h with
    | [_], h =>
      simp only [hiddenLog, List.cons_append, List.nil_append, List.cons.injEq] at h
      obtain ⟨rfl, -⟩ := h
      exact .inl (by simp [callsInForce, enforceCall])
    | [_, _, _, _], h =>
      simp only [hiddenLog, List.cons_append, List.nil_append, List.cons.injEq] at h
      obtain ⟨rfl, rfl, rfl, rfl, -⟩ := h
      exact .inr ⟨scX, true, by simp [callsInForce, enforceCall]⟩
    | [_, _, _, _, _, _, _], h =>
      simp only [hiddenLog, List.cons_append, List.nil_append, List.cons.injEq] at h
      obtain ⟨rfl, rfl, rfl, rfl, rfl, rfl, rfl, -⟩ := h
      exact .inr ⟨scX, true, by simp [callsInForce, enforceCall]⟩
    | [], h | [_, _], h | [_, _, _], h | [_, _, _, _, _], h | [_, _, _, _, _, _], h
    | [_, _, _, _, _, _, _, _], h | [_, _, _, _, _, _, _, _, _], h => simp [hiddenLog] at h
    | _ :: _ :: _ :: _ :: _ :: _ :: _ :: _ :: _ :: _ :: l, h =>
      have := congrArg List.length h
      simp [hiddenLog] at this

theorem hidden_left : ∀ v ∈ hiddenFound.vars, v ∉ hiddenModel.vars →
    ∃ x : ℝ, InItv x (hiddenFound.getV v) := by
  intro v hv hm
  simp only [hiddenFound, hiddenModel, List.mem_cons, List.not_mem_nil, or_false, not_or] at hv hm
  have h : hiddenFound.getV v = ⟨.fin 1, .fin 1⟩ := by
    rcases hv with rfl | rfl | rfl | rfl
    · exact absurd rfl hm.1
    · exact absurd rfl hm.2
    · decide +kernel
    · decide +kernel
  exact ⟨1, by rw [h]; simp [InItv, below, above]⟩

/-- The hypotheses of `C54_conditional_partial` are met; the variables of the conditional and of
`let` are not in the model. -/
example (D : Dom) (I : Interp) : EnvOk D I demoCfg.env ∧ DblOk demoCfg.th.dbl ∧
    PicosatOk demoCfg.ps ∧ DiamOk demoCfg.env.fp ∧ DiamZero demoCfg.env.fp ∧
    0 ≤ demoCfg.env.delta ∧ TidyScript hiddenScript ∧ ∃ d,
      run (idsTaken demoCfg) hiddenScript {} = .ok d ∧ Covered d.log ∧
      CondLog demoCfg hiddenS d.log ∧
      (∀ v b, .declare v b ∈ callsInForce d.log → v.type = .continuous ∨ v.type = .boolean) ∧
      solve demoCfg (hiddenScript ++ [.check]) = .ok ([] ++ [some hiddenModel]) ∧
      (∀ c b r, runCmds demoCfg (Ctx.init 0) d.log = .ok ([], c) →
        checkCore demoCfg c = .ok (some b, r) →
        (∀ a e, hiddenS a e → ¬ StuckOn demoCfg.env demoCfg.th b a e) ∧
        ∀ v ∈ b.vars, v ∉ hiddenModel.vars → ∃ x : ℝ, InItv x (b.getV v)) ∧
      InBox (fun v => if v = scX then 9 / 4 else 1) hiddenModel := by
  obtain ⟨d, hd, hl⟩ := logOf_some (cfg := demoCfg) (s := hiddenScript) (l := hiddenLog)
    (by decide +kernel)
  refine ⟨demoCfg_ok D I, quarterDbl_ok, demoSat_ok, exactFp_diamOk, exactFp_diamZero,
    by decide +kernel, ?_, d, hd, ?_, ?_, ?_, ?_, ?_, ?_⟩
  · exact (tidy_of_tame (by simp [hiddenScript, TameScript, Tame, Tames]) hd).1
  · rw [hl]
    refine ⟨?_, ?_, .inr (by simp [hiddenLog])⟩
    · simp [hiddenLog, WfF, WfE, scCond, scX, scB, scY]
    · intro v l u h x _
      simp [hiddenLog, scX] at h
      rw [h.1]
      exact ⟨trivial, trivial⟩
  · rw [hl]; exact hiddenLog_cond
  · rw [hl]
    intro v b h
    simp [hiddenLog, scX, scB, scY, callsInForce, enforceCall] at h
    rcases h with ⟨rfl, -⟩ | ⟨rfl, -⟩ | ⟨rfl, -⟩ <;> simp
  · have : (match solve demoCfg (hiddenScript ++ [.check]) with | .ok as => some as | _ => none) =
        some [some hiddenModel] := by decide +kernel
    split at this
    · rename_i as hs
      rw [hs]
      simp only [Option.some.injEq] at this
      rw [this]; rfl
    · cases this
  · intro c b r h1 h2
    rw [hl] at h1
    have : (match runCmds demoCfg (Ctx.init 0) hiddenLog with
      | .ok (_, c) => foundBy demoCfg c | _ => none) = some hiddenFound := by decide +kernel
    rw [h1] at this
    obtain ⟨r', h3⟩ := foundBy_some this
    rw [h3] at h2
    simp only [Run.ok.injEq, Prod.mk.injEq, Option.some.injEq] at h2
    rw [← h2.1]
    exact ⟨hidden_not_stuck, hidden_left⟩
  · refine ⟨rfl, fun i v h => ?_⟩
    match i, h with
    | 0, h =>
      have : scX = v := by simpa [hiddenModel] using h
      subst this
      simp [hiddenModel, Box.get, InItv, below, above]
      norm_num
    | 1, h =>
      have : scB = v := by simpa [hiddenModel] using h
      subst this
      simp [hiddenModel, Box.get, InItv, below, above, scX, scB]
    | n + 2, h => simp [hiddenModel] at h

/-- `x ≥ (if b then 1 else 3) ∧ x ≤ 11/4 ∧ x ≥ 2`. -/
def apiCond : Fml :=
  .conj [condF, .rel .leq (.var varX) (.const (11 / 4)), .rel .geq (.var varX) (.const 2)]
def apiCondS (a e : Expr) : Prop := condS a e ∨ (a = .var varX ∧ e = .const (11 / 4)) ∨
  (a = .var varX ∧ e = .const 2)

theorem apiCond_fv : apiCond.fv = [varX, varB, varX, varX] := by decide +kernel

/-- The hypotheses of `C53_conditional_partial` are met. -/
example (D : Dom) (I : Interp) : EnvOk D I demoCfg.env ∧ DblOk demoCfg.th.dbl ∧
    PicosatOk demoCfg.ps ∧ DiamOk demoCfg.env.fp ∧ DiamZero demoCfg.env.fp ∧
    OneId apiCond.fv ∧ WfF (· ∈ apiCond.fv) apiCond ∧ Old 10 apiCond ∧ QFree apiCond ∧
    ¬ IteFree apiCond ∧
    PlainF demoCfg.th.dbl demoCfg.env.delta apiCondS (iteProcess 10 apiCond).1 ∧
    (∀ v ∈ apiCond.fv, v.type = .continuous ∨ v.type = .boolean) ∧
    (∃ m, apiCheck demoCfg 10 apiCond = .ok (some m)) ∧
    (∀ c b r, assertF demoCfg (declareAll (varSet apiCond.fv) (Ctx.init 10)) apiCond = .ok c →
      checkCore demoCfg c = .ok (some b, r) →
      (∀ a e, apiCondS a e → ¬ StuckOn demoCfg.env demoCfg.th b a e) ∧
      ∀ v ∈ b.vars, v ∉ apiCond.fv → ∃ x : ℝ, InItv x (b.getV v)) ∧
    ∀ ρ, DefC D I demoCfg.env.delta ρ apiCond := by
  refine ⟨demoCfg_ok D I, quarterDbl_ok, demoSat_ok, exactFp_diamOk, exactFp_diamZero,
    ?_, ?_, ?_, ?_, ?_, ?_, ?_, ?_, ?_, ?_⟩
  · rw [apiCond_fv]; unfold OneId; decide +kernel
  · rw [apiCond_fv]; simp [apiCond, condF, WfF, WfFs, WfE, varX, varB]
  · simp [apiCond, condF, Old, OldList, OldE, varX, varB]
  · simp [apiCond, condF, QFree, QFrees, QFreeE]
  · simp [apiCond, condF, IteFree, IteFreeList, IteFreeE]
  · have : (iteProcess 10 apiCond).1 = .conj [.rel .geq (.var varX) (.var varT),
        .rel .leq (.var varX) (.const (11 / 4)), .rel .geq (.var varX) (.const 2),
        .disj [.neg (.bvar varB), .rel .eq (.var varT) (.const 1)],
        .disj [.bvar varB, .rel .eq (.var varT) (.const 3)]] := by decide +kernel
    rw [this]
    refine ⟨⟨⟨⟨trivial, trivial⟩, by decide +kernel, by decide, fine_var, fine_var⟩,
        .inl (.inl ⟨rfl, rfl⟩)⟩,
      ⟨⟨⟨trivial, trivial⟩, by decide +kernel, by decide, fine_var, fine_const⟩,
        .inr (.inl ⟨rfl, rfl⟩)⟩,
      ⟨⟨⟨trivial, trivial⟩, by decide +kernel, by decide, fine_var, fine_const⟩,
        .inr (.inr ⟨rfl, rfl⟩)⟩,
      ⟨trivial, ⟨⟨⟨trivial, trivial⟩, by decide +kernel, by decide, fine_var, fine_const⟩,
        .inl (.inr (.inl ⟨rfl, rfl⟩))⟩, trivial⟩,
      ⟨trivial, ⟨⟨⟨trivial, trivial⟩, by decide +kernel, by decide, fine_var, fine_const⟩,
        .inl (.inr (.inr ⟨rfl, rfl⟩))⟩, trivial⟩,
      trivial⟩
  · rw [apiCond_fv]; decide +kernel
  · have : (match apiCheck demoCfg 10 apiCond with | .ok (some _) => true | _ => false) = true := by
      decide +kernel
    split at this
    · exact ⟨_, by assumption⟩
    · cases this
  · intro c b r h1 h2
    have : (match assertF demoCfg (declareAll (varSet apiCond.fv) (Ctx.init 10)) apiCond with
      | .ok c => foundBy demoCfg c | _ => none) = some condFound := by decide +kernel
    rw [h1] at this
    obtain ⟨r', h3⟩ := foundBy_some this
    rw [h3] at h2
    simp only [Run.ok.injEq, Prod.mk.injEq, Option.some.injEq] at h2
    rw [← h2.1]
    refine ⟨?_, fun v hv hf => ?_⟩
    · rintro a e (h | ⟨rfl, rfl⟩ | ⟨rfl, rfl⟩)
      · exact cond_not_stuck a e h
      · exact not_stuck (iv := ⟨.fin (-3 / 4), .fin 0⟩) (by decide +kernel) (by decide +kernel)
      · exact not_stuck (iv := ⟨.fin 0, .fin (3 / 4)⟩) (by decide +kernel) (by decide +kernel)
    · rw [apiCond_fv] at hf
      have : v = varT := by
        simp only [condFound, List.mem_cons, List.not_mem_nil, or_false] at hv hf
        tauto
      subst this
      have : condFound.getV varT = ⟨.fin 1, .fin 1⟩ := by decide +kernel
      exact ⟨1, by rw [this]; simp [InItv, below, above]⟩
  · intro ρ
    simp [apiCond, condF, DefC, DefCs, DefA]

end Verif.Props
