import Verif.Proof.Eval
import Verif.Spec.EvalDemo

/-!
# Interval evaluation: C18, C19
-/

namespace Verif.Props
open Verif Verif.Model Verif.Spec

/-! ## C19: interval evaluation encloses point evaluation -/

/-- C19.  For every expression over variables of the box, the computed interval contains the
value of the expression at every point of the box at which the expression is defined. -/
theorem C19_eval_encloses (D : Dom) (I : Interp) (ops : IOps) (hops : IOpsOk D I ops)
    (b : Box) (ρ : Valuation) (hρ : InBox ρ b) (e : Expr) (iv : Itv)
    (hdef : DefE D I ρ e) (hrc : RcOkE e) (hvars : ∀ v ∈ e.vars, v ∈ b.vars)
    (h : evalI ops b e = .ok iv) : InItv (eval I ρ e) iv :=
  Proof.evalI_encl hops hρ e iv hdef hrc hvars h

/-- No if-then-else at a position the evaluator visits. -/
def iteFree : Expr → Bool
  | .const _ => true
  | .rconst _ => true
  | .var _ => true
  | .add a b => iteFree a && iteFree b
  | .mul a b => iteFree a && iteFree b
  | .app1 _ a => iteFree a
  | .app2 _ a b => iteFree a && iteFree b
  | .ite _ _ _ => false

/-- C19, the evaluation returns: exactly for the expressions without if-then-else, and the
only other outcome is the exception. -/
theorem C19_eval_total (ops : IOps) (b : Box) (e : Expr) :
    (iteFree e = true → ∃ iv, evalI ops b e = .ok iv) ∧
    (iteFree e = false → evalI ops b e = .throw) := by
  match e with
  | .const q => exact ⟨fun _ => ⟨_, rfl⟩, fun h => by simp [iteFree] at h⟩
  | .rconst r => exact ⟨fun _ => ⟨_, rfl⟩, fun h => by simp [iteFree] at h⟩
  | .var v => exact ⟨fun _ => ⟨_, rfl⟩, fun h => by simp [iteFree] at h⟩
  | .ite c t e => exact ⟨fun h => by simp [iteFree] at h, fun _ => rfl⟩
  | .app1 f a =>
    obtain ⟨h1, h2⟩ := C19_eval_total ops b a
    constructor
    · intro h; obtain ⟨i, hi⟩ := h1 h; exact ⟨ops.fn1 f i, by simp [evalI, hi]⟩
    · intro h; simp [evalI, h2 h]
  | .add a c =>
    obtain ⟨h1, h2⟩ := C19_eval_total ops b a
    obtain ⟨h3, h4⟩ := C19_eval_total ops b c
    cases ha : iteFree a with
    | false => simp [iteFree, ha, evalI, h2 ha]
    | true =>
      obtain ⟨i, hi⟩ := h1 ha
      cases hc : iteFree c with
      | false => simp [iteFree, ha, hc, evalI, hi, h4 hc]
      | true => obtain ⟨j, hj⟩ := h3 hc; simp [iteFree, ha, hc, evalI, hi, hj]
  | .mul a c =>
    obtain ⟨h1, h2⟩ := C19_eval_total ops b a
    obtain ⟨h3, h4⟩ := C19_eval_total ops b c
    cases ha : iteFree a with
    | false => simp [iteFree, ha, evalI, h2 ha]
    | true =>
      obtain ⟨i, hi⟩ := h1 ha
      cases hc : iteFree c with
      | false => simp [iteFree, ha, hc, evalI, hi, h4 hc]
      | true => obtain ⟨j, hj⟩ := h3 hc; simp [iteFree, ha, hc, evalI, hi, hj]
  | .app2 f a c =>
    obtain ⟨h1, h2⟩ := C19_eval_total ops b a
    obtain ⟨h3, h4⟩ := C19_eval_total ops b c
    cases ha : iteFree a with
    | false => simp [iteFree, ha, evalI, h2 ha]
    | true =>
      obtain ⟨i, hi⟩ := h1 ha
      cases hc : iteFree c with
      | false => simp [iteFree, ha, hc, evalI, hi, h4 hc]
      | true => obtain ⟨j, hj⟩ := h3 hc; simp [iteFree, ha, hc, evalI, hi, hj]

/-- The hypothesis on the variables is needed: the variable `y` is not in the box, and the
evaluator reads the interval of `x`. -/
theorem C19_undeclared_variable :
    ∃ (b : Box) (e : Expr) (ρ : Valuation) (iv : Itv), InBox ρ b ∧ evalI demoOps b e = .ok iv ∧
      ∀ I : Interp, ¬ InItv (eval I ρ e) iv := by
  refine ⟨⟨[⟨1, .continuous⟩], [⟨.fin 0, .fin 1⟩], false⟩, .var ⟨2, .continuous⟩,
    fun v => if v.id = 2 then 5 else 0, ⟨.fin 0, .fin 1⟩, ⟨rfl, ?_⟩, rfl, ?_⟩
  · intro i v hv
    rcases i with _ | i
    · simp at hv; subst hv; simp [Box.get, InItv, below, above]
    · simp at hv
  · intro I h
    simp [eval, InItv, above] at h

/-- Concrete case: `x * y + 3` on `[-1, 2] × [4, 5]` is `[-2, 13]`. -/
example : evalI demoOps ⟨[⟨1, .continuous⟩, ⟨2, .continuous⟩],
      [⟨.fin (-1), .fin 2⟩, ⟨.fin 4, .fin 5⟩], false⟩
      (.add (.mul (.var ⟨1, .continuous⟩) (.var ⟨2, .continuous⟩)) (.const 3)) =
    .ok ⟨.fin (-2), .fin 13⟩ := by decide +kernel

/-! ## C18: interval verdicts on relations are right -/

/-- C18.  For a relation or a (multiply) negated relation `f` over variables of the box: if the
verdict is `valid`, every point of the box satisfies `f`; if it is `unsat`, no point does; if it
is `unknown` with an error (the diameter of the reported interval) of at most `δ`, every point
satisfies the `δ`-weakening of the relation.  "Point" here is a point at which `f` is
defined. -/
theorem C18_verdicts (D : Dom) (I : Interp) (ops : IOps) (hops : IOpsOk D I ops) (fp : Fp)
    (hfp : DiamOk fp) (b : Box) (f : Fml) (verdict : Verdict) (iv : Itv) (hrc : RcOkF f)
    (hvars : ∀ v ∈ f.fv, v ∈ b.vars) (h : evalRel ops b f = .ok (verdict, iv))
    (ρ : Valuation) (hρ : InBox ρ b) (hdef : DefF D I ρ f) :
    (verdict = .valid → holds I ρ f) ∧
    (verdict = .unsat → ¬ holds I ρ f) ∧
    (∀ δ : ℚ, verdict = .unknown → fp.diam iv ≤ .fin δ →
      ∃ op lhs rhs, asRel f = some (op, lhs, rhs) ∧
        weakRel δ op (eval I ρ lhs) (eval I ρ rhs)) := by
  obtain ⟨op, a, c, h1, h2, h3⟩ := Proof.evalRel_encl hops hρ h hdef hrc hvars
  simp only at h2 h3
  refine ⟨?_, ?_, ?_⟩
  · intro hv
    rw [Proof.asRel_holds h1, Proof.relSem_sub]
    exact Proof.verdict_valid h2 (h3 ▸ hv)
  · intro hv
    rw [Proof.asRel_holds h1, Proof.relSem_sub]
    exact Proof.verdict_unsat h2 (h3 ▸ hv)
  · intro δ hv hd
    refine ⟨op, a, c, h1, ?_⟩
    rw [Proof.weakRel_sub]
    exact Proof.verdict_unknown hfp h2 (h3 ▸ hv) hd

/-- The weakening with `0` is the relation itself, and grows with `δ`. -/
theorem C18_weakening_sane (op : RelOp) (x y : ℝ) (hop : op ≠ .neq) (δ δ' : ℝ) (hδ : δ ≤ δ') :
    (weakRel 0 op x y ↔ relSem op x y) ∧ (weakRel δ op x y → weakRel δ' op x y) := by
  cases op <;> simp only [weakRel, relSem, sub_zero, add_zero] <;> try exact absurd rfl hop
  · refine ⟨?_, fun h => h.trans hδ⟩
    rw [abs_nonpos_iff, sub_eq_zero]
  all_goals exact ⟨trivial, fun h => by linarith⟩

/-- The literals the theory solver receives: the evaluator returns a verdict on every possibly
negated relation without if-then-else. -/
theorem C18_verdict_total (ops : IOps) (b : Box) (f : Fml) (op : RelOp) (lhs rhs : Expr)
    (hf : asRel f = some (op, lhs, rhs)) (h1 : iteFree lhs = true) (h2 : iteFree rhs = true) :
    ∃ r, evalRel ops b f = .ok r := by
  have key : ∀ (f : Fml) (op : RelOp), asRel f = some (op, lhs, rhs) →
      getRelOp f = .ok op ∧ extractExpr f = .ok (lhs.sub rhs) := by
    intro f
    induction f using Fml.rec (motive_1 := fun _ => True) (motive_3 := fun _ => True) with
    | rel o a c =>
      intro op h
      simp only [asRel, Option.some.injEq, Prod.mk.injEq] at h
      obtain ⟨rfl, rfl, rfl⟩ := h
      simp [getRelOp, extractExpr]
    | neg f ih =>
      intro op h
      simp only [asRel, Option.map_eq_some_iff] at h
      obtain ⟨⟨o, x, y⟩, h5, h6⟩ := h
      simp only [Prod.mk.injEq] at h6
      obtain ⟨rfl, rfl, rfl⟩ := h6
      obtain ⟨h3, h4⟩ := ih o h5
      simp [getRelOp, extractExpr, h3, h4]
    | _ => first | trivial | (intro op h; simp [asRel] at h)
  obtain ⟨h3, h4⟩ := key f op hf
  obtain ⟨iv, hiv⟩ := (C19_eval_total ops b (lhs.sub rhs)).1 (by simp [Expr.sub, iteFree, h1, h2])
  exact ⟨(relVerdict op iv, iv), by simp only [evalRel, h3, h4, hiv, Outcome.bind_ok]⟩

/-- Concrete case: `¬ (x > 2)` on `x ∈ [0, 2]` is valid, on `[3, 4]` unsat, on `[1, 3]` unknown. -/
example : evalRel demoOps ⟨[⟨1, .continuous⟩], [⟨.fin 0, .fin 2⟩], false⟩
    (.neg (.rel .gt (.var ⟨1, .continuous⟩) (.const 2))) =
      .ok (.valid, ⟨.fin (-2), .fin 0⟩) := by decide +kernel
example : evalRel demoOps ⟨[⟨1, .continuous⟩], [⟨.fin 3, .fin 4⟩], false⟩
    (.neg (.rel .gt (.var ⟨1, .continuous⟩) (.const 2))) =
      .ok (.unsat, ⟨.fin 1, .fin 2⟩) := by decide +kernel
example : evalRel demoOps ⟨[⟨1, .continuous⟩], [⟨.fin 1, .fin 3⟩], false⟩
    (.neg (.rel .gt (.var ⟨1, .continuous⟩) (.const 2))) =
      .ok (.unknown, ⟨.fin (-1), .fin 1⟩) ∧ exactFp.diam ⟨.fin (-1), .fin 1⟩ ≤ .fin 2 := by
  decide +kernel
example (D : Dom) (I : Interp) : IOpsOk D I demoOps ∧ DiamOk exactFp :=
  ⟨demoOps_ok D I, exactFp_diamOk⟩

end Verif.Props
