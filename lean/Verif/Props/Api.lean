import Verif.Proof.Api
import Verif.Proof.Minimize
import Verif.Props.DeltaSat
import Verif.Spec.Api

/-!
# C53: the library function `CheckSatisfiability`
-/

namespace Verif.Props
open Verif Verif.Model Verif.Spec Verif.Proof

theorem api_plain (cfg : CCfg) (S : Expr → Expr → Prop) {next : Nat} {f : Fml} (ho : Old next f)
    (h1 : OneId f.fv) : PosesPlain cfg S (booksOf (varSet f.fv) (varSet f.fv).reverse)
      (declareAll (varSet f.fv) (Ctx.init next)) := by
  have h0 : PosesPlain cfg S (booksOf (varSet f.fv) []) (Ctx.init next) :=
    .init next _ fun v hv => fv_old f ho v (mem_varSet.mp hv)
  have hn : (varSet f.fv).Nodup := (varSet_sorted h1).imp fun h e => by subst e; omega
  simpa using plain_declareAll _ _ _ h0 (fun v hv => hv) hn (by simp)

theorem api_uses (next : Nat) {f : Fml} (hw : WfF (· ∈ f.fv) f) (ho : Old next f) :
    (booksOf (varSet f.fv) (varSet f.fv).reverse).Uses next (.assert f) := by
  refine ⟨?_, ho, fun h => absurd h id⟩
  refine wfF_mono (fun v hv => ?_) _ hw
  exact ⟨newItv v.type, by simp [booksOf, Books.top, mem_varSet, hv]⟩

theorem newItv_typed {t : VType} {x : ℝ} (ht : typeOk t x)
    (hs : t = .integer → |x| ≤ 2147483647) : InItv x (newItv t) := by
  cases t with
  | continuous => simp [newItv, InItv, below, above]
  | integer =>
    have := abs_le.mp (hs rfl)
    simp only [newItv, InItv, below, above]
    push_cast
    exact this
  | binary => rcases ht with rfl | rfl <;> simp [newItv, InItv, below, above]
  | boolean => rcases ht with rfl | rfl <;> simp [newItv, InItv, below, above]

/-- C53, as far as it holds: if `CheckSatisfiability` returns nothing, the formula has no solution at
which its terms have values and which keeps off the gaps next to the literals of strict bounds.
Missing: other points, and formulas with Boolean variables, conditionals or further quantifiers
under a quantifier (see C27). -/
theorem C53_unsat_partial (D : Dom) (I : Interp) (cfg : CCfg) (he : EnvOk D I cfg.env)
    (hd : DblOk cfg.th.dbl) (hp : PicosatOk cfg.ps) (next : Nat) (f : Fml) (h1 : OneId f.fv)
    (hw : WfF (· ∈ f.fv) f) (ho : Old next f) (h : apiCheck cfg next f = .ok none) :
    ¬ ∃ ρ, SolutionOf I f ρ ∧ RegF D I cfg.th.dbl ρ f := by
  rintro ⟨ρ, hs, hr⟩
  unfold apiCheck at h
  obtain ⟨c, hc, h⟩ := bindR_ok h
  obtain ⟨⟨m, c'⟩, hm, h⟩ := bindR_ok h
  simp only [Run.ok.injEq] at h
  subst h
  have hP := posesPlain_poses (api_plain cfg (fun _ _ => True) ho h1)
  have hn : (declareAll (varSet f.fv) (Ctx.init next)).sat.abs.next = next := by
    rw [declareAll_sat]; rfl
  have hP' := Poses.step (cmd := .assert f) (a := []) (c' := c) hP (by
    rw [hn]; exact api_uses next hw ho) (by simp only [stepCmd, hc]; rfl)
  refine C27_unsat_partial D I cfg he hd hp _ c c' hP' hm ⟨ρ, ⟨?_, ?_, ?_⟩, ?_⟩
  · intro p hp
    have hp : p ∈ (varSet f.fv).reverse.map fun v => (v, newItv v.type) := hp
    obtain ⟨v, hv, rfl⟩ := List.mem_map.mp hp
    exact hs.typed v (mem_varSet.mp (List.mem_reverse.mp hv))
  · intro p hp
    have hp : p ∈ (varSet f.fv).reverse.map fun v => (v, newItv v.type) := hp
    obtain ⟨v, hv, rfl⟩ := List.mem_map.mp hp
    have hv := mem_varSet.mp (List.mem_reverse.mp hv)
    exact newItv_typed (hs.typed v hv) (hs.small v hv)
  · intro g hg
    have hg : g = f := List.mem_singleton.mp hg
    rw [hg]; exact hs.holds
  · intro g hg
    have hg : g = f := List.mem_singleton.mp hg
    rw [hg]; exact hr

/-- C53: a box that `CheckSatisfiability` returns has exactly the free variables of the formula. -/
theorem C53_variables (D : Dom) (I : Interp) (cfg : CCfg) (he : EnvOk D I cfg.env) (next : Nat)
    (f : Fml) (h1 : OneId f.fv) (ho : Old next f) (m : Box)
    (h : apiCheck cfg next f = .ok (some m)) : m.vars.Nodup ∧ ∀ v, v ∈ m.vars ↔ v ∈ f.fv := by
  unfold apiCheck at h
  obtain ⟨c, hc, h⟩ := bindR_ok h
  obtain ⟨⟨m, c'⟩, hm, h⟩ := bindR_ok h
  simp only [Run.ok.injEq] at h
  subst h
  have h0 : Reach cfg { made := varSet f.fv, scopes := [[]] } (Ctx.init next) := by
    refine .init next _ (fun v hv => fv_old f ho v (mem_varSet.mp hv)) ?_
    rw [List.nodup_map_iff_inj_on ((varSet_sorted h1).imp fun h e => by subst e; omega)]
    exact fun v hv w hw e => h1 v (mem_varSet.mp hv) w (mem_varSet.mp hw) e
  have h2 := reach_declareAll _ _ _ h0 (fun v hv => hv)
  have hn : (declareAll (varSet f.fv) (Ctx.init next)).sat.abs.next = next := by
    rw [declareAll_sat]; rfl
  have h3 := Reach.step (cmd := .assert f) (a := []) (c' := c) h2 (by
    rw [hn]; exact ho) (by simp only [stepCmd, hc]; rfl)
  have := C31_model_variables_partial D I cfg he _ c c' m h3 (by simp [User.step]) hm
  simpa [User.step, mem_varSet] using this

/-- C53, as far as it holds: every point of a box that `CheckSatisfiability` returns satisfies the
`δ`-weakening of the formula if its terms have values there, provided that the search did not end
with a box that it could not split.  Missing: quantifiers, if-then-else terms, integer and binary
variables, and the proviso (see C28). -/
theorem C53_delta_sat_partial (D : Dom) (I : Interp) (cfg : CCfg) (he : EnvOk D I cfg.env)
    (hd : DblOk cfg.th.dbl) (hp : PicosatOk cfg.ps) (hfp : DiamOk cfg.env.fp)
    (hz : DiamZero cfg.env.fp) (hδ : 0 ≤ cfg.env.delta) (S : Expr → Expr → Prop) (next : Nat)
    (f : Fml) (h1 : OneId f.fv) (hw : WfF (· ∈ f.fv) f) (ho : Old next f)
    (hf : PlainF cfg.th.dbl cfg.env.delta S f)
    (ht : ∀ v ∈ f.fv, v.type = .continuous ∨ v.type = .boolean) (m : Box)
    (h : apiCheck cfg next f = .ok (some m))
    (hst : ∀ c b r, assertF cfg (declareAll (varSet f.fv) (Ctx.init next)) f = .ok c →
      checkCore cfg c = .ok (some b, r) → ∀ a e, S a e → ¬ StuckOn cfg.env cfg.th b a e)
    (ρ : Valuation) (hρ : InBox ρ m) (hdf : DefF D I ρ f) : weakF I cfg.env.delta ρ true f := by
  obtain ⟨-, hv⟩ := C53_variables D I cfg he next f h1 ho m h
  unfold apiCheck at h
  obtain ⟨c, hc, h⟩ := bindR_ok h
  obtain ⟨⟨m, c'⟩, hm, h⟩ := bindR_ok h
  simp only [Run.ok.injEq] at h
  subst h
  have hn : (declareAll (varSet f.fv) (Ctx.init next)).sat.abs.next = next := by
    rw [declareAll_sat]; rfl
  have hP := PosesPlain.step (cmd := .assert f) (a := []) (c' := c) (api_plain cfg S ho h1) (by
    rw [hn]; exact api_uses next hw ho) hf (by simp only [stepCmd, hc]; rfl)
  have hdom : ∀ p ∈ ((booksOf (varSet f.fv) (varSet f.fv).reverse).step
      (declareAll (varSet f.fv) (Ctx.init next)).sat.abs.next (.assert f)).top.dom, p.1 ∈ f.fv := by
    intro p hp
    have hp : p ∈ (varSet f.fv).reverse.map fun v => (v, newItv v.type) := hp
    obtain ⟨v, hv, rfl⟩ := List.mem_map.mp hp
    exact mem_varSet.mp (List.mem_reverse.mp hv)
  exact (C28_delta_sat_partial D I cfg he hd hp hfp hz hδ S _ c c' m hP hm
    (fun p hp => ht _ (hdom p hp)) (fun p hp => (hv _).mpr (hdom p hp))
    (fun b r hb => hst c b r (lift_ok hc) hb) ρ hρ).2 f (.head _) hdf

/-! ### Concrete cases -/

/-- `x + x ≥ 5 ∧ x ≤ u ∧ x ≥ 0`. -/
def apiDemo (u : ℚ) : Fml :=
  .conj [demoSum, .rel .leq (.var varX) (.const u), .rel .geq (.var varX) (.const 0)]

theorem apiDemo_fv (u : ℚ) : ∀ v ∈ (apiDemo u).fv, v = varX := by
  simp [apiDemo, demoSum, Fml.fv, Fml.fvList, Expr.vars]

theorem apiDemo_wf (u : ℚ) : WfF (· ∈ (apiDemo u).fv) (apiDemo u) ∧ Old 10 (apiDemo u) ∧
    OneId (apiDemo u).fv := by
  refine ⟨?_, ?_, fun v hv w hw _ => by rw [apiDemo_fv u v hv, apiDemo_fv u w hw]⟩
  · simp [apiDemo, demoSum, WfF, WfFs, WfE, Fml.fv, Fml.fvList, Expr.vars, varX]
  · simp [apiDemo, demoSum, Old, OldList, OldE, varX]

/-- The hypotheses are met: nothing is returned for `x + x ≥ 5 ∧ x ≤ 2 ∧ x ≥ 0`, and a box for
`x + x ≥ 5 ∧ x ≤ 4 ∧ x ≥ 0`. -/
example (D : Dom) (I : Interp) : EnvOk D I demoCfg.env ∧ DblOk demoCfg.th.dbl ∧
    PicosatOk demoCfg.ps ∧ DiamOk demoCfg.env.fp ∧ DiamZero demoCfg.env.fp ∧
    apiCheck demoCfg 10 (apiDemo 2) = .ok none ∧
    ∃ m, apiCheck demoCfg 10 (apiDemo 4) = .ok (some m) := by
  refine ⟨demoCfg_ok D I, quarterDbl_ok, demoSat_ok, exactFp_diamOk, exactFp_diamZero, ?_, ?_⟩
  · have : (match apiCheck demoCfg 10 (apiDemo 2) with | .ok none => true | _ => false) = true := by
      decide +kernel
    split at this
    · assumption
    · cases this
  · have : (match apiCheck demoCfg 10 (apiDemo 4) with | .ok (some _) => true | _ => false) = true := by
      decide +kernel
    split at this
    · exact ⟨_, by assumption⟩
    · cases this

end Verif.Props
