import Verif.Proof.DeltaModel
import Verif.Props.Unsat

/-!
# C28, C33: a delta-sat answer
-/

namespace Verif.Props
open Verif Verif.Model Verif.Spec Verif.Proof

theorem top_mem {k : Books} {f : Fml} (hf : f ∈ k.top.asserted) :
    ∃ P ∈ k.levels, f ∈ P.asserted := by
  unfold Books.top at hf
  cases hk : k.levels with
  | nil => rw [hk] at hf; cases hf
  | cons P Ps => rw [hk] at hf; exact ⟨P, by simp, hf⟩

/-- Without conditionals the two weakenings are the same. -/
theorem plain_weak {D : Dom} {I : Interp} {δ : ℝ} {cfg : CCfg} {S k c ρ}
    (hk : PosesPlain cfg S k c)
    (h : ∀ f ∈ k.top.asserted, DefC D I δ ρ f → weakC I δ ρ true f) :
    ∀ f ∈ k.top.asserted, DefF D I ρ f → weakF I δ ρ true f := by
  intro f hf hdf
  obtain ⟨P, h1, h2⟩ := top_mem hf
  have hfree := posesPlain_free hk P h1 f h2
  exact (weakC_iff f true hfree).mp (h f hf (defC_of f hfree hdf))

/-- C28, as far as it holds, for the box the search ends with (`CheckSatCore`).  After any history
of calls in which asserted formulas are plain (no quantifier, no if-then-else, each relation with a
variable and fine literals), and intervals are set before the first assertion and not for Boolean
variables, *every* point of the box of a delta-sat answer is in the declared intervals and satisfies
the `δ`-weakening of every asserted formula whose terms have values there, provided that the
search did not end with a box that it could not split.  Variables of all types; earlier checks,
with all they have learned and cached, are part of the history.  Missing: the provisos, without
which the claim is wrong (`C28_stuck_box`, `C28_boolean_domain`, `C33_forgotten_bound`), and
quantifiers and if-then-else terms. -/
theorem C28_box_partial (D : Dom) (I : Interp) (cfg : CCfg) (he : EnvOk D I cfg.env)
    (hd : DblOk cfg.th.dbl) (hp : PicosatOk cfg.ps) (hfp : DiamOk cfg.env.fp)
    (hδ : 0 ≤ cfg.env.delta) (S : Expr → Expr → Prop) (k : Books) (c : Ctx) (b : Box)
    (r : SatState × Cache × Nat) (hk : PosesPlain cfg S k c)
    (h : checkCore cfg c = .ok (some b, r))
    (hst : ∀ a e, S a e → ¬ StuckOn cfg.env cfg.th b a e) (ρ : Valuation) (hρ : InBox ρ b) :
    (∀ p ∈ k.top.dom, InItv (ρ p.1) p.2) ∧
    ∀ f ∈ k.top.asserted, DefF D I ρ f → weakF I cfg.env.delta ρ true f := by
  obtain ⟨H, h1, h2⟩ := kd_poses hd hp he hfp hδ hk
  obtain ⟨-, -, -, -, -, h3⟩ := kd_core hd hp he hfp hδ h1 h2 h
  obtain ⟨-, -, h4⟩ := h3 b rfl hst
  obtain ⟨h5, h6⟩ := h4 ρ ρ (near_self hρ)
  exact ⟨fun p hp => h5 p.1 p.2 hp, plain_weak hk h6⟩

/-- C28, as far as it holds, for the model `CheckSat` returns: the same for every point of the
model, if the declared variables are continuous or Boolean and all of them are reported.  Missing
besides: integer and binary variables, whose values in the model may lie outside of their intervals
(`C32_integer_outside`, `C32_binary_outside`). -/
theorem C28_delta_sat_partial (D : Dom) (I : Interp) (cfg : CCfg) (he : EnvOk D I cfg.env)
    (hd : DblOk cfg.th.dbl) (hp : PicosatOk cfg.ps) (hfp : DiamOk cfg.env.fp)
    (hz : DiamZero cfg.env.fp) (hδ : 0 ≤ cfg.env.delta) (S : Expr → Expr → Prop)
    (k : Books) (c c' : Ctx) (m : Box) (hk : PosesPlain cfg S k c)
    (h : checkSat cfg c = .ok (some m, c'))
    (ht : ∀ p ∈ k.top.dom, p.1.type = .continuous ∨ p.1.type = .boolean)
    (hm : ∀ p ∈ k.top.dom, p.1 ∈ m.vars)
    (hst : ∀ b r, checkCore cfg c = .ok (some b, r) →
      ∀ a e, S a e → ¬ StuckOn cfg.env cfg.th b a e) (ρ : Valuation) (hρ : InBox ρ m) :
    (∀ p ∈ k.top.dom, InItv (ρ p.1) p.2) ∧
    ∀ f ∈ k.top.asserted, DefF D I ρ f → weakF I cfg.env.delta ρ true f := by
  obtain ⟨H, h1, h2⟩ := kd_poses hd hp he hfp hδ hk
  obtain ⟨b, r, t, e1, e2, e3⟩ := checkSat_some h
  obtain ⟨-, -, -, -, -, h3⟩ := kd_core hd hp he hfp hδ h1 h2 e1
  obtain ⟨h4, h5, h6⟩ := h3 b rfl (hst b r e1)
  obtain ⟨P, Ps, l1, l2, -, -⟩ := h1.cons
  have hall : ∀ v ∈ b.vars, ∃ iv, (v, iv) ∈ k.top.dom := fun v hv => by
    rw [l2]
    exact (h2.cons l1).1.all (fun f hf => posesPlain_free hk P (by rw [l1]; simp) f hf) v
      (by rw [← h4.1]; exact hv)
  obtain ⟨ρ', hn⟩ := near_model hz hδ h4.2 h5 e2 e3
    (fun v hv => by obtain ⟨iv, hiv⟩ := hall v hv; exact ht _ hiv)
    (fun v hv => by obtain ⟨iv, hiv⟩ := hall v hv; exact hm _ hiv) hρ
  obtain ⟨h7, h8⟩ := h6 ρ ρ' hn
  exact ⟨fun p hp => h7 p.1 p.2 hp, plain_weak hk h8⟩

/-- C33, as far as it holds.  A formula that has been asserted is respected by every later
delta-sat answer until its scope is closed: whatever is declared, asserted, checked, pushed and
popped in between, every point of the box found by a later check satisfies the `δ`-weakening of
the formula.  The calls are those of `C28_box_partial`; missing: setting intervals after the
assertion, which may drop it (`C33_forgotten_bound`, `C33_forgotten_false`). -/
theorem C33_kept_partial (D : Dom) (I : Interp) (cfg : CCfg) (he : EnvOk D I cfg.env)
    (hd : DblOk cfg.th.dbl) (hp : PicosatOk cfg.ps) (hfp : DiamOk cfg.env.fp)
    (hδ : 0 ≤ cfg.env.delta) (S : Expr → Expr → Prop) (k k' : Books) (c c' : Ctx) (b : Box)
    (r : SatState × Cache × Nat) (hk : PosesPlain cfg S k c) (f : Fml)
    (hf : f ∈ k.top.asserted) (hl : Later cfg S k c k' c')
    (h : checkCore cfg c' = .ok (some b, r))
    (hst : ∀ a e, S a e → ¬ StuckOn cfg.env cfg.th b a e) (ρ : Valuation) (hρ : InBox ρ b)
    (hdf : DefF D I ρ f) : weakF I cfg.env.delta ρ true f := by
  have hk' := later_posesPlain hk hl
  obtain ⟨H, h1, -⟩ := kd_poses hd hp he hfp hδ hk
  obtain ⟨P, Ps, l1, -, -, -⟩ := h1.cons
  obtain ⟨e1, e2⟩ := later_asserted (by rw [l1]; simp) hf hl
  obtain ⟨Q, q1, q2⟩ := e2 0 (by omega)
  refine (C28_box_partial D I cfg he hd hp hfp hδ S k' c' b r hk' h hst ρ hρ).2 f ?_ hdf
  unfold Books.top
  cases hlv : k'.levels with
  | nil => rw [hlv] at q1; cases q1
  | cons R Rs =>
    rw [hlv] at q1
    simp only [List.getElem?_cons_zero, Option.some.injEq] at q1
    subst q1; exact q2

/-! ## A history meeting the hypotheses -/

theorem posesPlain_after {cfg : CCfg} {S} {k : Books} {c : Ctx} (cmd : Cmd)
    (hr : PosesPlain cfg S k c) (hu : k.Uses c.sat.abs.next cmd)
    (hp : k.PlainUse cfg.th.dbl cfg.env.delta S cmd) (h : fine cfg c cmd = true) :
    PosesPlain cfg S (k.step c.sat.abs.next cmd) (after cfg c cmd) := by
  unfold fine at h
  unfold after
  cases hs : stepCmd cfg c cmd with
  | ok r => exact .step hr hu hp hs
  | _ => simp [hs] at h

theorem later_refl {cfg : CCfg} {S} {k : Books} {c : Ctx} (_ : PosesPlain cfg S k c) :
    Later cfg S k c k c := .refl

theorem later_after {cfg : CCfg} {S} {k k' : Books} {c c' : Ctx} (cmd : Cmd)
    (hr : Later cfg S k c k' c') (hu : k'.Uses c'.sat.abs.next cmd)
    (hp : k'.PlainUse cfg.th.dbl cfg.env.delta S cmd) (h : fine cfg c' cmd = true)
    (hl : cmd = .pop → k.levels.length < k'.levels.length) :
    Later cfg S k c (k'.step c'.sat.abs.next cmd) (after cfg c' cmd) := by
  unfold fine at h
  unfold after
  cases hs : stepCmd cfg c' cmd with
  | ok r => exact .step hr hu hp hs hl
  | _ => simp [hs] at h

/-- `b ∨ x + x ≥ 5`. -/
def demoOr : Fml := .disj [.bvar varB, demoSum]

/-- The only relation used is the one between `x + x` and `5`. -/
def demoS (a e : Expr) : Prop := a = .add (.var varX) (.var varX) ∧ e = .const 5

theorem demoOr_plain : PlainF demoCfg.th.dbl demoCfg.env.delta demoS demoOr := by
  refine ⟨trivial, ⟨⟨⟨⟨trivial, trivial⟩, trivial⟩, by decide +kernel, by decide, ?_, ?_⟩, rfl, rfl⟩,
    trivial⟩
  · intro lo hi ex h; simp [asNum] at h
  · intro lo hi ex h
    simp only [asNum, Option.some.injEq, Prod.mk.injEq] at h
    obtain ⟨rfl, rfl, rfl⟩ := h
    decide +kernel

/-- The box found in the end. -/
def demoFound : Box := ⟨[varX, varB], [⟨.fin (19 / 8), .fin (11 / 4)⟩, ⟨.fin 0, .fin 0⟩], false⟩

theorem extractExpr_asRel : ∀ {f op a e}, asRel f = some (op, a, e) →
    extractExpr f = .ok (a.sub e)
  | .rel op a b, _, _, _, h => by
    simp only [asRel, Option.some.injEq, Prod.mk.injEq] at h
    obtain ⟨-, rfl, rfl⟩ := h
    rfl
  | .neg f, _, _, _, h => by
    simp only [asRel, Option.map_eq_some_iff, Prod.mk.injEq] at h
    obtain ⟨⟨o, x, y⟩, h1, -, h2⟩ := h
    simp only [Prod.mk.injEq] at h2
    obtain ⟨rfl, rfl⟩ := h2
    simp only [extractExpr]
    exact extractExpr_asRel h1
  | .ff, _, _, _, h | .tt, _, _, _, h | .bvar _, _, _, _, h | .conj _, _, _, _, h
  | .disj _, _, _, _, h | .all _ _, _, _, _, h => by simp [asRel] at h

/-- It is not stuck there: the enclosure of `x + x - 5` is narrower than `δ = 1`. -/
theorem demo_not_stuck : ∀ a e, demoS a e → ¬ StuckOn demoCfg.env demoCfg.th demoFound a e := by
  rintro a e ⟨rfl, rfl⟩ ⟨f, op, iv, cand, h1, -, h2, h3, -⟩
  unfold evalRel at h2
  obtain ⟨o, -, h2⟩ := bindO_ok h2
  obtain ⟨x, h4, h2⟩ := bindO_ok h2
  obtain ⟨j, h5, h2⟩ := bindO_ok h2
  rw [extractExpr_asRel h1] at h4
  simp only [Outcome.ok.injEq] at h4; subst h4
  have key : evalI demoCfg.env.ops demoFound (Expr.sub (.add (.var varX) (.var varX)) (.const 5)) =
      .ok ⟨.fin (-1 / 4), .fin (1 / 2)⟩ := by decide +kernel
  rw [key] at h5
  simp only [Outcome.ok.injEq] at h5
  subst h5
  injection h2 with h2
  rw [← (Prod.mk.inj h2).2] at h3
  revert h3
  decide +kernel

/-- The box of a check. -/
def foundBy (cfg : CCfg) (c : Ctx) : Option Box :=
  match checkCore cfg c with
  | .ok (some b, _) => some b
  | _ => none

theorem foundBy_some {cfg c b} (h : foundBy cfg c = some b) :
    ∃ r, checkCore cfg c = .ok (some b, r) := by
  unfold foundBy at h
  split at h
  · rename_i b' r hs
    simp only [Option.some.injEq] at h; subst h; exact ⟨r, hs⟩
  · cases h

/-- The calls before the assertion, and those after it. -/
def demoPre : Ctx := after demoCfg (after demoCfg (after demoCfg (after demoCfg (Ctx.init 10)
  (.declare varX true)) (.declare varB true)) (.setInterval varX (.fin 2) (.fin (11 / 4))))
  (.assert demoOr)
def demoPost : Ctx := after demoCfg (after demoCfg (after demoCfg demoPre .check) .push)
  (.assert (.neg (.bvar varB)))

/-- The hypotheses of the three theorems are met by a history in which `b ∨ x + x ≥ 5` is asserted
and checked, then `¬ b` is asserted in a new scope; the last check finds `x ∈ [19/8, 11/4]`, where
`x + x ≥ 5` holds only up to `δ`. -/
example (D : Dom) (I : Interp) : EnvOk D I demoCfg.env ∧ DblOk demoCfg.th.dbl ∧
    PicosatOk demoCfg.ps ∧ DiamOk demoCfg.env.fp ∧ DiamZero demoCfg.env.fp ∧
    (0 ≤ demoCfg.env.delta) ∧ ∃ k k' c' m r, PosesPlain demoCfg demoS k demoPre ∧
      k.top.asserted = [demoOr] ∧ Later demoCfg demoS k demoPre k' demoPost ∧
      k'.levels.length = 2 ∧ k'.top.asserted = [.neg (.bvar varB), demoOr] ∧
      PosesPlain demoCfg demoS k' demoPost ∧
      k'.top.dom.map Prod.fst = [varB, varX] ∧ m.vars = [varX, varB] ∧
      checkSat demoCfg demoPost = .ok (some m, c') ∧
      checkCore demoCfg demoPost = .ok (some demoFound, r) ∧
      (∀ a e, demoS a e → ¬ StuckOn demoCfg.env demoCfg.th demoFound a e) := by
  refine ⟨demoCfg_ok D I, quarterDbl_ok, demoSat_ok, exactFp_diamOk, exactFp_diamZero,
    by decide +kernel, ?_⟩
  have h0 : PosesPlain demoCfg demoS { made := [varX, varB] } (Ctx.init 10) :=
    .init _ _ (by decide)
  have h1 := posesPlain_after (.declare varX true) h0 ⟨by simp, .inr ⟨by simp, id⟩⟩ (.inl rfl)
    (by decide +kernel)
  have h2 := posesPlain_after (.declare varB true) h1 ⟨by simp [Books.step, Books.setTop],
    .inr ⟨by simp [Books.step, Books.setTop]; decide, id⟩⟩ (.inl rfl) (by decide +kernel)
  have h3 := posesPlain_after (.setInterval varX (.fin 2) (.fin (11 / 4))) h2
    ⟨⟨newItv varX.type, by decide +kernel⟩, .inl rfl⟩ ⟨by decide, rfl⟩ (by decide +kernel)
  have h4 := posesPlain_after (.assert demoOr) h3
    ⟨⟨⟨rfl, newItv varB.type, by decide +kernel⟩, ⟨⟨⟨by decide, ⟨.fin 2, .fin (11 / 4)⟩,
      by decide +kernel⟩, by decide, ⟨.fin 2, .fin (11 / 4)⟩, by decide +kernel⟩, trivial⟩, trivial⟩,
      ⟨by show varB.id < _; decide +kernel, ⟨⟨by show varX.id < _; decide +kernel,
        by show varX.id < _; decide +kernel⟩, trivial⟩, trivial⟩, fun h => absurd h id⟩
    demoOr_plain (by decide +kernel)
  have l5 := later_after .check (later_refl (c := demoPre) h4)
    trivial trivial (by decide +kernel) (fun h => by cases h)
  have l6 := later_after .push l5 trivial trivial (by decide +kernel) (fun h => by cases h)
  have l7 := later_after (.assert (.neg (.bvar varB))) l6
    ⟨⟨rfl, newItv varB.type, by decide +kernel⟩, by show varB.id < _; decide +kernel,
      fun _ => trivial⟩ trivial (by decide +kernel) (fun h => by cases h)
  obtain ⟨r, hr⟩ := foundBy_some (cfg := demoCfg) (c := demoPost) (b := demoFound)
    (by decide +kernel)
  obtain ⟨c', m, hm, hv⟩ : ∃ c' m, checkSat demoCfg demoPost = .ok (some m, c') ∧
      m.vars = [varX, varB] := by
    have : (match checkSat demoCfg demoPost with
      | .ok (some m, _) => some m.vars
      | _ => none) = some [varX, varB] := by decide +kernel
    split at this
    · rename_i m c' hs
      exact ⟨c', m, hs, by simpa using this⟩
    · cases this
  exact ⟨_, _, c', m, r, h4, rfl, l7, rfl, rfl, later_posesPlain h4 l7, by decide +kernel, hv, hm, hr,
    demo_not_stuck⟩

/-! ## Histories that break C28 -/

/-- C28 is wrong for Boolean variables with an interval: the SAT value is written over it, so with
`b ∈ [1, 1]` and `¬ b` the answer is delta-sat with `b = 0`. -/
theorem C28_boolean_domain :
    (seen (runCmds demoCfg (Ctx.init 10)
      [.declare varB true, .setInterval varB (.fin 1) (.fin 1), .assert (.neg (.bvar varB)),
       .check])).map (fun r => r.1) = some [some ⟨[varB], [Itv.point 0], false⟩] := by
  decide +kernel

/-- C28 is wrong for an empty interval of a variable that is not the first: a box is empty when
its first component is, so the answer is delta-sat with an empty component. -/
theorem C28_empty_component :
    ∃ iv, (seen (runCmds demoCfg (Ctx.init 10)
      [.declare varY true, .declare varX true, .setInterval varX (.fin 2) (.fin 1),
       .check])).map (fun r => r.1) =
      some [some ⟨[varY, varX], [⟨.fin (-1 / 2), .fin (1 / 2)⟩, iv], false⟩] ∧
      ∀ x : ℝ, ¬ InItv x iv :=
  ⟨Itv.empty, by decide +kernel, fun _ h => h.1⟩

end Verif.Props
