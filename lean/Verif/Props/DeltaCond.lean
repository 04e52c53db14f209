import Verif.Props.DeltaSat

/-!
# C28, C33: a delta-sat answer for formulas with conditionals
-/

namespace Verif.Props
open Verif Verif.Model Verif.Spec Verif.Proof

/-- C28 with if-then-else terms, as far as it holds, for the box the search ends with.  The
history is as in `C28_box_partial`, but asserted formulas may have conditionals: the formula that
replaces such a formula has to be plain.  Every point of the box (which has values for the
variables introduced for conditionals) satisfies the `δ`-weakening of every asserted formula: a
conditional takes a branch whose condition holds up to `δ`, and its value is off by at most `δ`
from the value of that branch.  Missing: the provisos, and quantifiers
(`C28_quantified_fails`). -/
theorem C28_conditional_box_partial (D : Dom) (I : Interp) (cfg : CCfg) (he : EnvOk D I cfg.env)
    (hd : DblOk cfg.th.dbl) (hp : PicosatOk cfg.ps) (hfp : DiamOk cfg.env.fp)
    (hδ : 0 ≤ cfg.env.delta) (S : Expr → Expr → Prop) (k : Books) (c : Ctx) (b : Box)
    (r : SatState × Cache × Nat) (hk : PosesCond cfg S k c)
    (h : checkCore cfg c = .ok (some b, r))
    (hst : ∀ a e, S a e → ¬ StuckOn cfg.env cfg.th b a e) (ρ : Valuation) (hρ : InBox ρ b) :
    (∀ p ∈ k.top.dom, InItv (ρ p.1) p.2) ∧
    ∀ f ∈ k.top.asserted, DefC D I cfg.env.delta ρ f → weakC I cfg.env.delta ρ true f := by
  obtain ⟨H, h1, h2⟩ := kd_posesCond hd hp he hfp hδ hk
  obtain ⟨-, -, -, -, -, h3⟩ := kd_core hd hp he hfp hδ h1 h2 h
  obtain ⟨-, -, h4⟩ := h3 b rfl hst
  obtain ⟨h5, h6⟩ := h4 ρ ρ (near_self hρ)
  exact ⟨fun p hp => h5 p.1 p.2 hp, h6⟩

/-- C28 with if-then-else terms, as far as it holds, for the model `CheckSat` returns.  The
variables introduced for conditionals are not in the model; the search has to leave values for
them. -/
theorem C28_conditional_model_partial (D : Dom) (I : Interp) (cfg : CCfg) (he : EnvOk D I cfg.env)
    (hd : DblOk cfg.th.dbl) (hp : PicosatOk cfg.ps) (hfp : DiamOk cfg.env.fp)
    (hz : DiamZero cfg.env.fp) (hδ : 0 ≤ cfg.env.delta) (S : Expr → Expr → Prop)
    (k : Books) (c c' : Ctx) (m : Box) (hk : PosesCond cfg S k c)
    (h : checkSat cfg c = .ok (some m, c'))
    (ht : ∀ p ∈ k.top.dom, p.1.type = .continuous ∨ p.1.type = .boolean)
    (hm : ∀ p ∈ k.top.dom, p.1 ∈ m.vars)
    (hst : ∀ b r, checkCore cfg c = .ok (some b, r) →
      (∀ a e, S a e → ¬ StuckOn cfg.env cfg.th b a e) ∧
      ∀ v ∈ b.vars, v ∉ m.vars → ∃ x : ℝ, InItv x (b.getV v)) (ρ : Valuation) (hρ : InBox ρ m) :
    (∀ p ∈ k.top.dom, InItv (ρ p.1) p.2) ∧
    ∀ f ∈ k.top.asserted, DefC D I cfg.env.delta ρ f → weakC I cfg.env.delta ρ true f := by
  obtain ⟨H, h1, h2⟩ := kd_posesCond hd hp he hfp hδ hk
  obtain ⟨b, r, t, e1, e2, e3⟩ := checkSat_some h
  obtain ⟨-, -, -, -, -, h3⟩ := kd_core hd hp he hfp hδ h1 h2 e1
  obtain ⟨hs1, hs2⟩ := hst b r e1
  obtain ⟨h4, h5, h6⟩ := h3 b rfl hs1
  obtain ⟨P, Ps, l1, l2, hl, -⟩ := h1.cons
  rw [l2] at ht hm
  obtain ⟨ρ1, ρ', ha, hn⟩ := near_model_part hz hδ h4.2 h5 e2 e3 (fun v hv => by
    rcases (hl.kinds v (by rw [← h4.1]; exact hv)).2 with ⟨iv, hiv⟩ | hv
    · exact ht _ hiv
    · exact .inl hv.2) hs2 hρ
  obtain ⟨h7, h8⟩ := h6 ρ1 ρ' hn
  rw [l2] at h7 h8 ⊢
  refine ⟨fun p hp => ?_, fun f hf hdf => ?_⟩
  · rw [← ha p.1 (.inl (hm p hp))]; exact h7 p.1 p.2 hp
  · have hag : ∀ v ∈ f.fv, ρ v = ρ1 v := fun v hv => by
      obtain ⟨iv, hiv⟩ := wfF_fv f ((h2.cons l1).1.wfs f hf) v hv
      exact (ha v (.inl (hm _ hiv))).symm
    exact (weakC_congr f hag true).mpr (h8 f hf ((defC_congr f hag).mp hdf))

/-- C33 with if-then-else terms, as far as it holds: an asserted formula with conditionals is
respected by every later delta-sat answer until its scope is closed. -/
theorem C33_conditional_partial (D : Dom) (I : Interp) (cfg : CCfg) (he : EnvOk D I cfg.env)
    (hd : DblOk cfg.th.dbl) (hp : PicosatOk cfg.ps) (hfp : DiamOk cfg.env.fp)
    (hδ : 0 ≤ cfg.env.delta) (S : Expr → Expr → Prop) (k k' : Books) (c c' : Ctx) (b : Box)
    (r : SatState × Cache × Nat) (hk : PosesCond cfg S k c) (f : Fml)
    (hf : f ∈ k.top.asserted) (hl : LaterCond cfg S k c k' c')
    (h : checkCore cfg c' = .ok (some b, r))
    (hst : ∀ a e, S a e → ¬ StuckOn cfg.env cfg.th b a e) (ρ : Valuation) (hρ : InBox ρ b)
    (hdf : DefC D I cfg.env.delta ρ f) : weakC I cfg.env.delta ρ true f := by
  have hk' := later_posesCond hk hl
  obtain ⟨H, h1, -⟩ := kd_posesCond hd hp he hfp hδ hk
  obtain ⟨P, Ps, l1, -, -, -⟩ := h1.cons
  obtain ⟨e1, e2⟩ := laterCond_asserted (by rw [l1]; simp) hf hl
  obtain ⟨Q, q1, q2⟩ := e2 0 (by omega)
  refine (C28_conditional_box_partial D I cfg he hd hp hfp hδ S k' c' b r hk' h hst ρ hρ).2 f ?_ hdf
  unfold Books.top
  cases hlv : k'.levels with
  | nil => rw [hlv] at q1; cases q1
  | cons R Rs =>
    rw [hlv] at q1
    simp only [List.getElem?_cons_zero, Option.some.injEq] at q1
    subst q1; exact q2

/-! ## What the weakening says -/

/-- The weakening of `x ≥ (if b then 1 else 3)`: if `b` is true `x` is at least 1 up to `2δ`, and if
`b` is false `x` is at least 3 up to `2δ`. -/
theorem condF_weak (I : Interp) (δ : ℝ) (ρ : Valuation) (x b : Variable) :
    weakC I δ ρ true (.rel .geq (.var x) (.ite (.bvar b) (.const 1) (.const 3))) →
      (ρ b = 1 ∧ ρ x ≥ 1 - 2 * δ) ∨ (ρ b ≠ 1 ∧ ρ x ≥ 3 - 2 * δ) := by
  simp only [weakC, ApproxE, if_true, Bool.false_eq_true, if_false, weakRel, exists_eq_left,
    Rat.cast_one, Rat.cast_ofNat]
  rintro ⟨z, y, rfl, ⟨h1, h2⟩ | ⟨h1, h2⟩, h3⟩
  · rw [abs_le] at h2; exact .inl ⟨h1, by linarith⟩
  · rw [abs_le] at h2; exact .inr ⟨h1, by linarith⟩

/-! ## Weakening relations only is not enough -/

/-- `(if x + x ≥ 5 then 10 else 0) ≥ 5`. -/
def jumpF : Fml := .rel .geq (.ite demoSum (.const 10) (.const 0)) (.const 5)

/-- C28 is wrong for conditionals if only relations are weakened and conditionals keep their exact
values: for `x ∈ [2, 11/4]` and `δ = 1` the answer to `(if x + x ≥ 5 then 10 else 0) ≥ 5` is
delta-sat with `x ∈ [19/8, 11/4]`; at `x = 19/8` the conditional is 0, far from 5.  The condition is
weakened too (`C28_conditional_box_partial`). -/
theorem C28_conditional_exact_fails (I : Interp) :
    (seen (runCmds demoCfg (Ctx.init 10)
      [.declare varX true, .setInterval varX (.fin 2) (.fin (11 / 4)), .assert jumpF,
       .check])).map (fun r => r.1) =
      some [some ⟨[varX], [⟨.fin (19 / 8), .fin (11 / 4)⟩], false⟩] ∧
    ∃ ρ : Valuation, InBox ρ ⟨[varX], [⟨.fin (19 / 8), .fin (11 / 4)⟩], false⟩ ∧
      ¬ weakF I demoCfg.env.delta ρ true jumpF ∧ weakC I demoCfg.env.delta ρ true jumpF := by
  refine ⟨by decide +kernel, fun _ => 19 / 8, ⟨rfl, fun i v hv => ?_⟩, ?_, ?_⟩
  · rcases i with _ | i
    · simp [Box.get, InItv, below, above]; norm_num
    · simp at hv
  · have h : ¬ holds I (fun _ => 19 / 8) demoSum := by
      simp [demoSum, eval, relSem]; norm_num
    simp only [jumpF, weakF, if_true, eval, if_neg h, weakRel]
    rw [show ((demoCfg.env.delta : ℚ) : ℝ) = 1 by simp [demoCfg]]
    norm_num
  · simp only [jumpF, demoSum, weakC, ApproxE, if_true, weakRel]
    rw [show ((demoCfg.env.delta : ℚ) : ℝ) = 1 by simp [demoCfg]]
    refine ⟨10, 5, .inl ⟨⟨19 / 4, 5, ⟨19 / 8, 19 / 8, rfl, rfl, by norm_num⟩, by norm_num,
      by norm_num⟩, 10, by norm_num, by norm_num⟩, by norm_num, by norm_num⟩

/-! ## A history meeting the hypotheses -/

/-- `x ≥ (if b then 1 else 3)`. -/
def condF : Fml := .rel .geq (.var varX) (.ite (.bvar varB) (.const 1) (.const 3))

/-- The variable introduced for the conditional. -/
def varT : Variable := ⟨10, .continuous⟩

/-- The relations after the replacement: between `x` and `t`, `t` and `1`, `t` and `3`. -/
def condS (a e : Expr) : Prop := (a = .var varX ∧ e = .var varT) ∨
  (a = .var varT ∧ e = .const 1) ∨ (a = .var varT ∧ e = .const 3)

theorem condF_proc : (iteProcess 10 condF).1 = .conj [
    .disj [.neg (.bvar varB), .rel .eq (.var varT) (.const 1)],
    .disj [.bvar varB, .rel .eq (.var varT) (.const 3)],
    .rel .geq (.var varX) (.var varT)] := by
  decide +kernel

theorem fine_const {q : ℚ} : FineNum demoCfg.th.dbl demoCfg.env.delta (.const q) := by
  intro lo hi ex h
  simp only [asNum, Option.some.injEq, Prod.mk.injEq] at h
  obtain ⟨rfl, rfl, rfl⟩ := h
  show q + 1 / 4 < q + 1 ∧ q - 1 < q - 1 / 4
  constructor <;> linarith

theorem fine_var {v : Variable} : FineNum demoCfg.th.dbl demoCfg.env.delta (.var v) := by
  intro lo hi ex h; simp [asNum] at h

theorem condF_plain :
    PlainF demoCfg.th.dbl demoCfg.env.delta condS (iteProcess 10 condF).1 := by
  rw [condF_proc]
  refine ⟨⟨trivial, ⟨⟨⟨trivial, trivial⟩, by decide +kernel, by decide, fine_var, fine_const⟩,
      .inr (.inl ⟨rfl, rfl⟩)⟩, trivial⟩,
    ⟨trivial, ⟨⟨⟨trivial, trivial⟩, by decide +kernel, by decide, fine_var, fine_const⟩,
      .inr (.inr ⟨rfl, rfl⟩)⟩, trivial⟩,
    ⟨⟨⟨trivial, trivial⟩, by decide +kernel, by decide, fine_var, fine_var⟩, .inl ⟨rfl, rfl⟩⟩,
    trivial⟩

/-- The box found, with `b` true and `t = 1`. -/
def condFound : Box := ⟨[varX, varB, varT],
  [⟨.fin 2, .fin (11 / 4)⟩, ⟨.fin 1, .fin 1⟩, ⟨.fin 1, .fin 1⟩], false⟩

/-- It is not stuck there: all enclosures are narrower than `δ = 1`. -/
theorem cond_not_stuck : ∀ a e, condS a e → ¬ StuckOn demoCfg.env demoCfg.th condFound a e := by
  have key : ∀ a e iv, evalI demoCfg.env.ops condFound (Expr.sub a e) = .ok iv →
      ¬ (.fin demoCfg.env.delta < demoCfg.env.fp.diam iv) →
      ¬ StuckOn demoCfg.env demoCfg.th condFound a e := by
    rintro a e iv he hn ⟨f, op, iv', cand, h1, -, h2, h3, -⟩
    unfold evalRel at h2
    obtain ⟨o, -, h2⟩ := bindO_ok h2
    obtain ⟨x, h4, h2⟩ := bindO_ok h2
    obtain ⟨j, h5, h2⟩ := bindO_ok h2
    rw [extractExpr_asRel h1] at h4
    simp only [Outcome.ok.injEq] at h4; subst h4
    rw [he] at h5
    simp only [Outcome.ok.injEq] at h5
    subst h5
    injection h2 with h2
    rw [← (Prod.mk.inj h2).2] at h3
    exact hn h3
  rintro a e (⟨rfl, rfl⟩ | ⟨rfl, rfl⟩ | ⟨rfl, rfl⟩)
  · exact key _ _ ⟨.fin 1, .fin (7 / 4)⟩ (by decide +kernel) (by decide +kernel)
  · exact key _ _ ⟨.fin 0, .fin 0⟩ (by decide +kernel) (by decide +kernel)
  · exact key _ _ ⟨.fin (-2), .fin (-2)⟩ (by decide +kernel) (by decide +kernel)

theorem posesCond_after {cfg : CCfg} {S} {k : Books} {c : Ctx} (cmd : Cmd)
    (hr : PosesCond cfg S k c) (hu : k.Uses c.sat.abs.next cmd)
    (hp : k.CondUse cfg.th.dbl cfg.env.delta S c.sat.abs.next cmd) (h : fine cfg c cmd = true) :
    PosesCond cfg S (k.step c.sat.abs.next cmd) (after cfg c cmd) := by
  unfold fine at h
  unfold after
  cases hs : stepCmd cfg c cmd with
  | ok r => exact .step hr hu hp hs
  | _ => simp [hs] at h

/-- The calls: `x ≥ (if b then 1 else 3)` is asserted for `x ∈ [2, 11/4]`. -/
def condPre : Ctx := after demoCfg (after demoCfg (after demoCfg (after demoCfg (Ctx.init 10)
  (.declare varX true)) (.declare varB true)) (.setInterval varX (.fin 2) (.fin (11 / 4))))
  (.assert condF)

/-- The hypotheses of the three theorems are met. -/
example (D : Dom) (I : Interp) : EnvOk D I demoCfg.env ∧ DblOk demoCfg.th.dbl ∧
    PicosatOk demoCfg.ps ∧ DiamOk demoCfg.env.fp ∧ DiamZero demoCfg.env.fp ∧
    (0 ≤ demoCfg.env.delta) ∧ ∃ k c' m r, PosesCond demoCfg condS k condPre ∧
      k.top.asserted = [condF] ∧ LaterCond demoCfg condS k condPre k condPre ∧
      (∀ p ∈ k.top.dom, p.1.type = .continuous ∨ p.1.type = .boolean) ∧
      k.top.dom.map Prod.fst = [varB, varX] ∧ m.vars = [varX, varB] ∧
      checkSat demoCfg condPre = .ok (some m, c') ∧
      checkCore demoCfg condPre = .ok (some condFound, r) ∧
      (∀ a e, condS a e → ¬ StuckOn demoCfg.env demoCfg.th condFound a e) ∧
      (∀ v ∈ condFound.vars, v ∉ m.vars → ∃ x : ℝ, InItv x (condFound.getV v)) ∧
      ∀ ρ, DefC D I demoCfg.env.delta ρ condF := by
  refine ⟨demoCfg_ok D I, quarterDbl_ok, demoSat_ok, exactFp_diamOk, exactFp_diamZero,
    by decide +kernel, ?_⟩
  have h0 : PosesCond demoCfg condS { made := [varX, varB] } (Ctx.init 10) :=
    .init _ _ (by decide)
  have h1 := posesCond_after (.declare varX true) h0 ⟨by simp, .inr ⟨by simp, id⟩⟩
    (.inl (.inl rfl)) (by decide +kernel)
  have h2 := posesCond_after (.declare varB true) h1 ⟨by simp [Books.step, Books.setTop],
    .inr ⟨by simp [Books.step, Books.setTop]; decide, id⟩⟩ (.inl (.inl rfl)) (by decide +kernel)
  have h3 := posesCond_after (.setInterval varX (.fin 2) (.fin (11 / 4))) h2
    ⟨⟨newItv varX.type, by decide +kernel⟩, .inl rfl⟩ (.inl ⟨by decide, rfl⟩) (by decide +kernel)
  have h4 := posesCond_after (.assert condF) h3
    ⟨⟨⟨by decide, ⟨.fin 2, .fin (11 / 4)⟩, by decide +kernel⟩,
        ⟨rfl, newItv varB.type, by decide +kernel⟩, trivial, trivial⟩,
      ⟨by show varX.id < _; decide +kernel, by show varB.id < _; decide +kernel, trivial, trivial⟩,
      fun h => absurd h id⟩
    (.inr ⟨condF, rfl, ⟨trivial, trivial, trivial, trivial⟩, fun h => h.2, condF_plain⟩)
    (by decide +kernel)
  obtain ⟨r, hr⟩ := foundBy_some (cfg := demoCfg) (c := condPre) (b := condFound)
    (by decide +kernel)
  obtain ⟨c', m, hm, hv⟩ : ∃ c' m, checkSat demoCfg condPre = .ok (some m, c') ∧
      m.vars = [varX, varB] := by
    have : (match checkSat demoCfg condPre with
      | .ok (some m, _) => some m.vars
      | _ => none) = some [varX, varB] := by decide +kernel
    split at this
    · rename_i m c' hs
      exact ⟨c', m, hs, by simpa using this⟩
    · cases this
  refine ⟨_, c', m, r, h4, rfl, .refl, ?_, by decide +kernel, hv, hm, hr, cond_not_stuck, ?_, ?_⟩
  · intro p hp
    have : p.1 ∈ [varB, varX] := by
      have := List.mem_map_of_mem (f := Prod.fst) hp
      revert this; exact fun h => h
    simp only [List.mem_cons, List.not_mem_nil, or_false] at this
    rcases this with h | h <;> rw [h] <;> decide
  · intro v hvv hvm
    rw [hv] at hvm
    have : v = varT := by
      simp only [condFound, List.mem_cons, List.not_mem_nil, or_false] at hvv hvm
      tauto
    subst this
    refine ⟨1, ?_⟩
    have : condFound.getV varT = ⟨.fin 1, .fin 1⟩ := by decide +kernel
    rw [this]; simp [InItv, below, above]
  · intro ρ
    simp [condF, DefC, DefA]

end Verif.Props
