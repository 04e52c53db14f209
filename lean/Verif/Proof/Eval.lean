import Verif.Spec.Eval
import Verif.Proof.Box
import Verif.Proof.Sem

namespace Verif.Proof
open Verif Verif.Model Verif.Spec

theorem pow_encl {D : Dom} {I : Interp} {ops : IOps} (ok : IOpsOk D I ops) {i j : Itv} {x y : ℝ}
    (hx : InItv x i) (hy : InItv y j) (hd : D.d2 .pow x y) :
    InItv (I.f2 .pow x y) (ops.pow i j) := by
  unfold IOps.pow
  obtain ⟨l, u⟩ := j
  have gen := ok.fn2 .pow i ⟨l, u⟩ x y hx hy hd
  cases l <;> cases u <;> try exact gen
  rename_i p q
  simp only
  by_cases hpq : p = q
  · subst hpq
    have hyp : y = p := in_point.mp hy
    rw [if_pos rfl]
    by_cases hi : (EQ.fin p).isInt = true
    · rw [if_pos hi]
      by_cases h2 : p = 2
      · rw [if_pos h2]
        have : y = 2 := by rw [hyp, h2]; norm_num
        rw [this] at hd ⊢
        exact ok.sqr i x hx hd
      · rw [if_neg h2]
        have hf : ((⌊p⌋ : ℤ) : ℚ) = p := by
          simp [EQ.isInt] at hi
          exact hi.2
        have : y = ((⌊p⌋ : ℤ) : ℝ) := by rw [hyp]; exact_mod_cast hf.symm
        rw [this] at hd ⊢
        exact ok.powInt i x ⌊p⌋ hx hd
    · rw [if_neg hi, hyp]
      rw [hyp] at hd
      exact ok.powQ i x p hx hd
  · rw [if_neg hpq]; exact gen

theorem getV_in {b : Box} {ρ : Valuation} (hρ : InBox ρ b) {v : Variable} (hv : v ∈ b.vars) :
    InItv (ρ v) (b.getV v) := hρ.2 _ _ (index_of_mem hv).2

theorem evalI_encl {D : Dom} {I : Interp} {ops : IOps} (ok : IOpsOk D I ops) {b : Box}
    {ρ : Valuation} (hρ : InBox ρ b) :
    ∀ (e : Expr) (iv : Itv), DefE D I ρ e → RcOkE e → (∀ v ∈ e.vars, v ∈ b.vars) →
      evalI ops b e = .ok iv → InItv (eval I ρ e) iv
  | .const q, iv, _, _, _, h => by
    simp only [evalI, Outcome.ok.injEq] at h; subst h
    simp only [eval]
    exact in_point.mpr rfl
  | .rconst r, iv, _, hr, _, h => by
    simp only [evalI, Outcome.ok.injEq] at h; subst h
    simp only [eval, InItv, below, above]
    exact ⟨by exact_mod_cast hr.1, by exact_mod_cast hr.2⟩
  | .var v, iv, _, _, hv, h => by
    simp only [evalI, Outcome.ok.injEq] at h; subst h
    simp only [eval]
    exact getV_in hρ (hv v (by simp [Expr.vars]))
  | .add a c, iv, hd, hr, hv, h => by
    simp only [evalI] at h
    cases ha : evalI ops b a with
    | throw => simp [ha] at h
    | ub => simp [ha] at h
    | ok i =>
      cases hc : evalI ops b c with
      | throw => simp [ha, hc] at h
      | ub => simp [ha, hc] at h
      | ok j =>
        simp only [ha, hc, Outcome.bind_ok, Outcome.ok.injEq] at h; subst h
        simp only [eval]
        exact ok.add _ _ _ _
          (evalI_encl ok hρ a i hd.1 hr.1 (fun v hm => hv v (by simp [Expr.vars, hm])) ha)
          (evalI_encl ok hρ c j hd.2 hr.2 (fun v hm => hv v (by simp [Expr.vars, hm])) hc)
  | .mul a c, iv, hd, hr, hv, h => by
    simp only [evalI] at h
    cases ha : evalI ops b a with
    | throw => simp [ha] at h
    | ub => simp [ha] at h
    | ok i =>
      cases hc : evalI ops b c with
      | throw => simp [ha, hc] at h
      | ub => simp [ha, hc] at h
      | ok j =>
        simp only [ha, hc, Outcome.bind_ok, Outcome.ok.injEq] at h; subst h
        simp only [eval]
        exact ok.mul _ _ _ _
          (evalI_encl ok hρ a i hd.1 hr.1 (fun v hm => hv v (by simp [Expr.vars, hm])) ha)
          (evalI_encl ok hρ c j hd.2 hr.2 (fun v hm => hv v (by simp [Expr.vars, hm])) hc)
  | .app1 f a, iv, hd, hr, hv, h => by
    simp only [evalI] at h
    cases ha : evalI ops b a with
    | throw => simp [ha] at h
    | ub => simp [ha] at h
    | ok i =>
      simp only [ha, Outcome.bind_ok, Outcome.ok.injEq] at h; subst h
      simp only [eval]
      exact ok.fn1 _ _ _
        (evalI_encl ok hρ a i hd.1 hr (fun v hm => hv v (by simp [Expr.vars, hm])) ha) hd.2
  | .app2 f a c, iv, hd, hr, hv, h => by
    simp only [evalI] at h
    cases ha : evalI ops b a with
    | throw => simp [ha] at h
    | ub => simp [ha] at h
    | ok i =>
      cases hc : evalI ops b c with
      | throw => simp [ha, hc] at h
      | ub => simp [ha, hc] at h
      | ok j =>
        simp only [ha, hc, Outcome.bind_ok, Outcome.ok.injEq] at h; subst h
        simp only [eval]
        have h1 := evalI_encl ok hρ a i hd.1 hr.1 (fun v hm => hv v (by simp [Expr.vars, hm])) ha
        have h2 := evalI_encl ok hρ c j hd.2.1 hr.2
          (fun v hm => hv v (by simp [Expr.vars, hm])) hc
        by_cases hf : f = .pow
        · subst hf
          simp only [if_true]
          exact pow_encl ok h1 h2 hd.2.2
        · simp only [if_neg hf]
          exact ok.fn2 _ _ _ _ _ h1 h2 hd.2.2
  | .ite c a e, iv, _, _, _, h => by simp [evalI] at h

/-- Reading the verdict off an interval containing the value `x` of `e₁ - e₂`. -/
theorem verdict_valid {op : RelOp} {iv : Itv} {x : ℝ} (hx : InItv x iv)
    (h : relVerdict op iv = .valid) : relSem op x 0 := by
  have hne := not_isEmpty_of_in hx
  obtain ⟨l, u⟩ := iv
  cases op <;> simp only [relVerdict, hne, Bool.not_false, Bool.true_and] at h <;>
    split at h <;> try (first | (split at h <;> cases h) | cases h)
  · rename_i hc
    simp at hc
    obtain ⟨rfl, rfl⟩ := hc
    simp only [InItv, below, above] at hx
    simp only [relSem]
    exact le_antisymm (by simpa using hx.2) (by simpa using hx.1)
  · rename_i hc
    simp at hc
    simp only [relSem]
    rintro rfl
    rcases hc with hc | hc
    · exact absurd (below_le_above (a := .fin 0) (by simp [below]) hx.2) (not_le.mpr hc)
    · exact absurd (below_le_above (b := .fin 0) hx.1 (by simp [above])) (not_le.mpr hc)
  · rename_i hc
    simp at hc
    simp only [relSem]
    by_contra hn
    exact absurd (below_le_above (b := .fin 0) hx.1 (by simp [above]; linarith)) (not_le.mpr hc)
  · rename_i hc
    simp at hc
    simpa [below, relSem] using below_mono hc hx.1
  · rename_i hc
    simp at hc
    simp only [relSem]
    by_contra hn
    exact absurd (below_le_above (a := .fin 0) (by simp [below]; linarith) hx.2) (not_le.mpr hc)
  · rename_i hc
    simp at hc
    simpa [above, relSem] using above_mono hc hx.2

theorem relSem_sub (op : RelOp) (x y : ℝ) : relSem op x y ↔ relSem op (x - y) 0 := by
  cases op <;> simp only [relSem]
  · exact sub_eq_zero.symm
  · exact not_congr sub_eq_zero.symm
  · exact (sub_pos).symm
  · exact (sub_nonneg).symm
  · exact (sub_neg).symm
  · exact (sub_nonpos).symm

theorem verdict_unsat {op : RelOp} {iv : Itv} {x : ℝ} (hx : InItv x iv)
    (h : relVerdict op iv = .unsat) : ¬ relSem op x 0 := by
  have hne := not_isEmpty_of_in hx
  obtain ⟨l, u⟩ := iv
  cases op <;> simp only [relVerdict, hne, Bool.not_false, Bool.true_and] at h <;>
    split at h <;> (try cases h) <;> split at h <;> (try cases h)
  · rename_i hc
    simp only [relSem]
    rintro rfl
    have : ¬ InItv ((0 : ℚ) : ℝ) ⟨l, u⟩ := by rw [← in_hasQ]; simpa using hc
    exact this (by simpa using hx)
  · rename_i hc
    simp at hc
    obtain ⟨rfl, rfl⟩ := hc
    simp only [InItv, below, above] at hx
    simp only [relSem, not_not]
    exact le_antisymm (by simpa using hx.2) (by simpa using hx.1)
  · rename_i hc
    simp at hc
    simpa [above, relSem] using above_mono hc hx.2
  · rename_i hc
    simp at hc
    simp only [relSem]
    intro hn
    exact absurd (below_le_above (a := .fin 0) (by simp [below]; linarith) hx.2) (not_le.mpr hc)
  · rename_i hc
    simp at hc
    simpa [below, relSem] using below_mono hc hx.1
  · rename_i hc
    simp at hc
    simp only [relSem]
    intro hn
    exact absurd (below_le_above (b := .fin 0) hx.1 (by simp [above]; linarith)) (not_le.mpr hc)

theorem weakRel_sub (δ : ℝ) (op : RelOp) (x y : ℝ) : weakRel δ op x y ↔ weakRel δ op (x - y) 0 := by
  cases op <;> simp only [weakRel, sub_zero]
  · constructor <;> intro h <;> linarith
  · constructor <;> intro h <;> linarith
  · constructor <;> intro h <;> linarith
  · constructor <;> intro h <;> linarith

theorem verdict_unknown {fp : Fp} (hfp : DiamOk fp) {op : RelOp} {iv : Itv} {x : ℝ} {δ : ℚ}
    (hx : InItv x iv) (h : relVerdict op iv = .unknown) (hd : fp.diam iv ≤ .fin δ) :
    weakRel δ op x 0 := by
  have hne := not_isEmpty_of_in hx
  obtain ⟨l, u, rfl, hw⟩ := hfp iv δ hne hd
  have hw' : (u : ℝ) - l ≤ δ := by exact_mod_cast hw
  have hx1 : (l : ℝ) ≤ x := hx.1
  have hx2 : x ≤ (u : ℝ) := hx.2
  cases op <;> simp only [relVerdict, hne, Bool.not_false, Bool.true_and] at h <;>
    split at h <;> (try cases h) <;> split at h <;> (try cases h) <;>
    rename_i h1 h2 <;> simp only [weakRel]
  · have : InItv ((0 : ℚ) : ℝ) ⟨.fin l, .fin u⟩ := by rw [← in_hasQ]; simpa using h2
    simp only [InItv, below, above, Rat.cast_zero] at this
    rw [sub_zero, abs_le]
    constructor <;> linarith [this.1, this.2]
  · simp at h1 h2
    have : (0 : ℝ) < u := by exact_mod_cast h2
    linarith
  · simp at h1 h2
    have : (0 : ℝ) ≤ u := by exact_mod_cast h2
    linarith
  · simp at h1 h2
    have : (l : ℝ) < 0 := by exact_mod_cast h2
    linarith
  · simp at h1 h2
    have : (l : ℝ) ≤ 0 := by exact_mod_cast h2
    linarith

theorem evalRel_ok {ops : IOps} {b : Box} {f : Fml} {r : Verdict × Itv}
    (h : evalRel ops b f = .ok r) : ∃ op a c, asRel f = some (op, a, c) ∧
      evalI ops b (a.sub c) = .ok r.2 ∧ r.1 = relVerdict op r.2 := by
  have key : ∀ (f : Fml) (op : RelOp) (e : Expr), getRelOp f = .ok op → extractExpr f = .ok e →
      ∃ a c, asRel f = some (op, a, c) ∧ e = a.sub c := by
    intro f
    induction f using Fml.rec (motive_1 := fun _ => True) (motive_3 := fun _ => True) with
    | rel op a c =>
      intro op' e h1 h2
      simp only [getRelOp, Outcome.ok.injEq] at h1
      simp only [extractExpr, Outcome.ok.injEq] at h2
      exact ⟨a, c, by simp [asRel, h1], h2.symm⟩
    | neg f ih =>
      intro op' e h1 h2
      simp only [getRelOp] at h1
      simp only [extractExpr] at h2
      cases hop : getRelOp f with
      | throw => simp [hop] at h1
      | ub => simp [hop] at h1
      | ok op =>
        simp only [hop, Outcome.bind_ok, Outcome.ok.injEq] at h1
        obtain ⟨a, c, h3, h4⟩ := ih op e hop h2
        exact ⟨a, c, by simp [asRel, h3, h1], h4⟩
    | _ => first | trivial | (intro op e h1; simp [getRelOp] at h1)
  unfold evalRel at h
  cases hop : getRelOp f with
  | throw => simp [hop] at h
  | ub => simp [hop] at h
  | ok op =>
    cases he : extractExpr f with
    | throw => simp [hop, he] at h
    | ub => simp [hop, he] at h
    | ok e =>
      cases hi : evalI ops b e with
      | throw => simp [hop, he, hi] at h
      | ub => simp [hop, he, hi] at h
      | ok iv =>
        simp only [hop, he, hi, Outcome.bind_ok, Outcome.ok.injEq] at h
        subst h
        obtain ⟨a, c, h1, rfl⟩ := key f op e hop he
        exact ⟨op, a, c, h1, hi, rfl⟩

theorem asRel_holds {I : Interp} {ρ : Valuation} :
    ∀ {f : Fml} {op : RelOp} {a c : Expr}, asRel f = some (op, a, c) →
      (holds I ρ f ↔ relSem op (eval I ρ a) (eval I ρ c))
  | .rel o x y, op, a, c, h => by
    simp only [asRel, Option.some.injEq, Prod.mk.injEq] at h
    obtain ⟨rfl, rfl, rfl⟩ := h
    simp [holds]
  | .neg f, op, a, c, h => by
    simp only [asRel, Option.map_eq_some_iff] at h
    obtain ⟨⟨o, x, y⟩, h1, h2⟩ := h
    simp only [Prod.mk.injEq] at h2
    obtain ⟨rfl, rfl, rfl⟩ := h2
    simp only [holds, asRel_holds h1, relSem_neg]

theorem asRel_def {D : Dom} {I : Interp} {ρ : Valuation} :
    ∀ {f : Fml} {op : RelOp} {a c : Expr}, asRel f = some (op, a, c) →
      (DefF D I ρ f ↔ DefE D I ρ a ∧ DefE D I ρ c)
  | .rel o x y, op, a, c, h => by
    simp only [asRel, Option.some.injEq, Prod.mk.injEq] at h
    obtain ⟨rfl, rfl, rfl⟩ := h
    simp [DefF]
  | .neg f, op, a, c, h => by
    simp only [asRel, Option.map_eq_some_iff] at h
    obtain ⟨⟨o, x, y⟩, h1, h2⟩ := h
    simp only [Prod.mk.injEq] at h2
    obtain ⟨rfl, rfl, rfl⟩ := h2
    simp only [DefF, asRel_def h1]

theorem asRel_rc {f : Fml} {op : RelOp} {a c : Expr} (h : asRel f = some (op, a, c)) :
    (RcOkF f ↔ RcOkE a ∧ RcOkE c) := by
  match f, h with
  | .rel o x y, h =>
    simp only [asRel, Option.some.injEq, Prod.mk.injEq] at h
    obtain ⟨rfl, rfl, rfl⟩ := h
    simp [RcOkF]
  | .neg f, h =>
    simp only [asRel, Option.map_eq_some_iff] at h
    obtain ⟨⟨o, x, y⟩, h1, h2⟩ := h
    simp only [Prod.mk.injEq] at h2
    obtain ⟨rfl, rfl, rfl⟩ := h2
    simp only [RcOkF, asRel_rc h1]

theorem asRel_fv {f : Fml} {op : RelOp} {a c : Expr} (h : asRel f = some (op, a, c)) :
    f.fv = a.vars ++ c.vars := by
  match f, h with
  | .rel o x y, h =>
    simp only [asRel, Option.some.injEq, Prod.mk.injEq] at h
    obtain ⟨rfl, rfl, rfl⟩ := h
    simp [Fml.fv]
  | .neg f, h =>
    simp only [asRel, Option.map_eq_some_iff] at h
    obtain ⟨⟨o, x, y⟩, h1, h2⟩ := h
    simp only [Prod.mk.injEq] at h2
    obtain ⟨rfl, rfl, rfl⟩ := h2
    simp only [Fml.fv, asRel_fv h1]

theorem eval_sub' (I : Interp) (ρ : Valuation) (a c : Expr) :
    eval I ρ (a.sub c) = eval I ρ a - eval I ρ c := by
  simp [Expr.sub, eval]; ring

theorem sub_vars (a c : Expr) : (a.sub c).vars = a.vars ++ c.vars := by
  simp [Expr.sub, Expr.vars]

/-- The evaluated interval contains `lhs - rhs` at every point where both are defined. -/
theorem evalRel_encl {D : Dom} {I : Interp} {ops : IOps} (ok : IOpsOk D I ops) {b : Box}
    {ρ : Valuation} (hρ : InBox ρ b) {f : Fml} {r : Verdict × Itv}
    (h : evalRel ops b f = .ok r) (hd : DefF D I ρ f) (hr : RcOkF f)
    (hv : ∀ v ∈ f.fv, v ∈ b.vars) :
    ∃ op a c, asRel f = some (op, a, c) ∧ InItv (eval I ρ a - eval I ρ c) r.2 ∧
      r.1 = relVerdict op r.2 := by
  obtain ⟨op, a, c, h1, h2, h3⟩ := evalRel_ok h
  refine ⟨op, a, c, h1, ?_, h3⟩
  rw [← eval_sub']
  rw [asRel_def h1] at hd
  rw [asRel_rc h1] at hr
  refine evalI_encl ok hρ _ _ ?_ ?_ ?_ h2
  · simp [Expr.sub, DefE, hd.1, hd.2]
  · simp [Expr.sub, RcOkE, hr.1, hr.2]
  · rw [sub_vars, ← asRel_fv h1]; exact hv

end Verif.Proof
