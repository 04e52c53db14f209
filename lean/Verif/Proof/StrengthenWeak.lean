import Verif.Proof.Strengthen
import Verif.Proof.DeltaLoop
import Verif.Proof.Regular

/-! # How far strengthening and weakening move a formula -/

namespace Verif.Proof
open Verif Verif.Model Verif.Spec

section
variable {P : ℚ → Prop} {rnd : ℚ → ℚ} {I : Interp} {ρ : Valuation} {η : ℝ}

theorem addConst_near {δ : ℚ} (h0 : 0 ≤ η) (hη : ∀ q, P q → |((rnd (q + δ) : ℚ) : ℝ) - (q + δ)| ≤ η)
    {e} (h : BasicE P e) : |eval I ρ (addConst rnd e δ) - (eval I ρ e + δ)| ≤ η := by
  unfold addConst
  split
  · simpa [eval] using hη _ h
  · rename_i c t
    have := hη c h.1
    simp only [eval]
    rw [show ((rnd (c + δ) : ℚ) : ℝ) + eval I ρ t - ((c : ℝ) + eval I ρ t + δ) =
      ((rnd (c + δ) : ℚ) : ℝ) - (c + δ) by ring]
    exact this
  · simpa [eval] using h0

/-- A relation shifted by `δ` decides the relation up to `δ` and the rounding error. -/
theorem shiftRel_near {δ : ℚ} (h0 : 0 ≤ η)
    (hη : ∀ q, P q → |((rnd (q + δ) : ℚ) : ℝ) - (q + δ)| ≤ η)
    (hη' : ∀ q, P q → |((rnd (q + -δ) : ℚ) : ℝ) - (q + -(δ : ℝ))| ≤ η) {op l r}
    (hl : BasicE P l) (hr : BasicE P r) (ho : op ≠ .eq ∧ op ≠ .neq) :
    (¬ holds I ρ (shiftRel rnd δ op l r) → weakRel (δ + η) op.neg (eval I ρ l) (eval I ρ r)) ∧
    (holds I ρ (shiftRel rnd δ op l r) → weakRel (-δ + η) op (eval I ρ l) (eval I ρ r)) := by
  have a1 := addConst_near (I := I) (ρ := ρ) h0 hη hl
  have a2 := addConst_near (I := I) (ρ := ρ) h0 hη hr
  have a3 := addConst_near (I := I) (ρ := ρ) (δ := -δ) h0 (by simpa using hη') hl
  have a4 := addConst_near (I := I) (ρ := ρ) (δ := -δ) h0 (by simpa using hη') hr
  rw [abs_le] at a1 a2 a3 a4
  push_cast at a3 a4
  refine ⟨fun h => ?_, fun h => ?_⟩
  · cases op <;> simp only [shiftRel] at h <;> first
      | exact absurd rfl ho.1
      | exact absurd rfl ho.2
      | (split at h <;> simp only [holds_mkRel, relSem, RelOp.neg, weakRel, not_lt, not_le,
          ge_iff_le, gt_iff_lt] at h ⊢ <;> linarith)
  · cases op <;> simp only [shiftRel] at h <;> first
      | exact absurd rfl ho.1
      | exact absurd rfl ho.2
      | (split at h <;> simp only [holds_mkRel, relSem, weakRel, ge_iff_le, gt_iff_lt] at h ⊢ <;>
          linarith)

/-- What is proved of a visit. -/
def StrNear (rnd : ℚ → ℚ) (I : Interp) (ρ : Valuation) (ε : ℚ) (η : ℝ) (f : Fml) : Prop :=
  ∀ g, (strF rnd ε f = .ok g → ¬ holds I ρ g → weakF I (ε + η) ρ false f) ∧
    (strF rnd (-ε) f = .ok g → holds I ρ g → weakF I (ε + η) ρ true f)

theorem strAnd_near {ε : ℚ} {fs : List Fml} (h : ∀ f ∈ fs, StrNear rnd I ρ ε η f) : ∀ ret g,
    (strAnd rnd ε ret fs = .ok g → ¬ holds I ρ g →
      ¬ holds I ρ ret ∨ ∃ f ∈ fs, weakF I (ε + η) ρ false f) ∧
    (strAnd rnd (-ε) ret fs = .ok g → holds I ρ g →
      holds I ρ ret ∧ ∀ f ∈ fs, weakF I (ε + η) ρ true f) := by
  induction fs with
  | nil =>
    intro ret g
    constructor <;> intro e hh <;> simp only [strAnd, Outcome.ok.injEq] at e <;> subst e
    · exact .inl hh
    · exact ⟨hh, by simp⟩
  | cons f fs ih =>
    intro ret g
    have ih := ih (fun f hf => h f (by simp [hf]))
    constructor <;> intro e hh <;> simp only [strAnd] at e <;> obtain ⟨x, e1, e2⟩ := bindO_ok e
    · rcases (ih (andF ret x) g).1 e2 hh with k | ⟨y, hy, k⟩
      · rw [holds_andF, not_and_or] at k
        rcases k with k | k
        · exact .inl k
        · exact .inr ⟨f, by simp, (h f (by simp) x).1 e1 k⟩
      · exact .inr ⟨y, by simp [hy], k⟩
    · obtain ⟨k1, k2⟩ := (ih (andF ret x) g).2 e2 hh
      rw [holds_andF] at k1
      refine ⟨k1.1, fun y hy => ?_⟩
      rcases List.mem_cons.mp hy with rfl | hy
      · exact (h y (by simp) x).2 e1 k1.2
      · exact k2 y hy

theorem strOr_near {ε : ℚ} {fs : List Fml} (h : ∀ f ∈ fs, StrNear rnd I ρ ε η f) : ∀ ret g,
    (strOr rnd ε ret fs = .ok g → ¬ holds I ρ g →
      ¬ holds I ρ ret ∧ ∀ f ∈ fs, weakF I (ε + η) ρ false f) ∧
    (strOr rnd (-ε) ret fs = .ok g → holds I ρ g →
      holds I ρ ret ∨ ∃ f ∈ fs, weakF I (ε + η) ρ true f) := by
  induction fs with
  | nil =>
    intro ret g
    constructor <;> intro e hh <;> simp only [strOr, Outcome.ok.injEq] at e <;> subst e
    · exact ⟨hh, by simp⟩
    · exact .inl hh
  | cons f fs ih =>
    intro ret g
    have ih := ih (fun f hf => h f (by simp [hf]))
    constructor <;> intro e hh <;> simp only [strOr] at e <;> obtain ⟨x, e1, e2⟩ := bindO_ok e
    · obtain ⟨k1, k2⟩ := (ih (orF ret x) g).1 e2 hh
      rw [holds_orF, not_or] at k1
      refine ⟨k1.1, fun y hy => ?_⟩
      rcases List.mem_cons.mp hy with rfl | hy
      · exact (h y (by simp) x).1 e1 k1.2
      · exact k2 y hy
    · rcases (ih (orF ret x) g).2 e2 hh with k | ⟨y, hy, k⟩
      · rcases holds_orF.mp k with k | k
        · exact .inl k
        · exact .inr ⟨f, by simp, (h f (by simp) x).2 e1 k⟩
      · exact .inr ⟨y, by simp [hy], k⟩

theorem strF_near {ε : ℚ} (hε : 0 < ε) (h0 : 0 ≤ η)
    (hη : ∀ q, P q → |((rnd (q + ε) : ℚ) : ℝ) - (q + ε)| ≤ η)
    (hη' : ∀ q, P q → |((rnd (q + -ε) : ℚ) : ℝ) - (q + -(ε : ℝ))| ≤ η) :
    ∀ (n : Nat) (f : Fml), sizeOf f ≤ n → BasicF P f → StrNear rnd I ρ ε η f := by
  intro n
  induction n with
  | zero => intro f hs; cases f <;> simp at hs
  | succ n ih =>
    intro f hs h g
    have hε' : (0 : ℝ) < ε := by exact_mod_cast hε
    have hng : ¬ 0 < -ε := by linarith
    cases f with
    | ff =>
      refine ⟨fun _ _ => rfl, fun e hh => ?_⟩
      simp only [strF, Outcome.ok.injEq] at e; subst e; exact hh.elim
    | tt =>
      refine ⟨fun e hh => ?_, fun _ _ => rfl⟩
      simp only [strF, Outcome.ok.injEq] at e; subst e; exact absurd trivial hh
    | bvar v =>
      constructor <;> intro e hh <;> simp only [strF, Outcome.ok.injEq] at e <;> subst e <;>
        simpa [weakF, holds] using hh
    | rel op a b =>
      obtain ⟨ha, hb, hc⟩ := h
      have ea := fun δ => strE_id (rnd := rnd) δ _ a le_rfl ha
      have eb := fun δ => strE_id (rnd := rnd) δ _ b le_rfl hb
      have sp := fun op ho => (shiftRel_near (I := I) (ρ := ρ) (δ := ε) (op := op) h0 hη hη' ha hb
        ho).1
      have sn := fun op ho => (shiftRel_near (I := I) (ρ := ρ) (δ := -ε) (op := op) h0
        (by push_cast; exact hη') (by simpa using hη) ha hb ho).2
      push_cast at sn
      simp only [neg_neg] at sn
      simp only [weakF, if_true, Bool.false_eq_true, if_false]
      cases op with
      | eq =>
        refine ⟨fun _ _ => trivial, fun e hh => ?_⟩
        simp only [strF, hng, if_false, ea, eb, mkRel_open hc, shiftFresh, Outcome.bind_ok,
          Outcome.ok.injEq] at e
        subst e
        rw [holds_andF] at hh
        have k1 := sn .geq (by simp) hh.1
        have k2 := sn .leq (by simp) hh.2
        simp only [weakRel] at k1 k2 ⊢
        rw [abs_le]; constructor <;> linarith
      | neq =>
        refine ⟨fun e hh => ?_, fun _ _ => trivial⟩
        simp only [strF, hε, if_true, ea, eb, mkRel_open hc, shiftFresh, Outcome.bind_ok,
          Outcome.ok.injEq] at e
        subst e
        rw [holds_orF, not_or] at hh
        have k1 := sp .gt (by simp) hh.1
        have k2 := sp .lt (by simp) hh.2
        simp only [weakRel, RelOp.neg] at k1 k2 ⊢
        rw [abs_le]; constructor <;> linarith
      | gt =>
        constructor <;> intro e hh <;> simp only [strF, ea, eb, Outcome.bind_ok,
          Outcome.ok.injEq] at e <;> subst e
        exacts [sp .gt (by simp) hh, sn .gt (by simp) hh]
      | geq =>
        constructor <;> intro e hh <;> simp only [strF, ea, eb, Outcome.bind_ok,
          Outcome.ok.injEq] at e <;> subst e
        exacts [sp .geq (by simp) hh, sn .geq (by simp) hh]
      | lt =>
        constructor <;> intro e hh <;> simp only [strF, ea, eb, Outcome.bind_ok,
          Outcome.ok.injEq] at e <;> subst e
        exacts [sp .lt (by simp) hh, sn .lt (by simp) hh]
      | leq =>
        constructor <;> intro e hh <;> simp only [strF, ea, eb, Outcome.bind_ok,
          Outcome.ok.injEq] at e <;> subst e
        exacts [sp .leq (by simp) hh, sn .leq (by simp) hh]
    | conj fs =>
      have key : ∀ g ∈ fs, StrNear rnd I ρ ε η g := fun g hg => by
        have := List.sizeOf_lt_of_mem hg
        simp only [Fml.conj.sizeOf_spec] at hs
        exact ih g (by omega) (basicFs_iff.mp h g hg)
      simp only [weakF, weakAll_iff, weakAny_iff, if_true, Bool.false_eq_true, if_false]
      constructor <;> intro e hh <;> simp only [strF] at e
      · exact ((strAnd_near key .tt g).1 e hh).resolve_left (by simp)
      · exact ((strAnd_near key .tt g).2 e hh).2
    | disj fs =>
      have key : ∀ g ∈ fs, StrNear rnd I ρ ε η g := fun g hg => by
        have := List.sizeOf_lt_of_mem hg
        simp only [Fml.disj.sizeOf_spec] at hs
        exact ih g (by omega) (basicFs_iff.mp h g hg)
      simp only [weakF, weakAll_iff, weakAny_iff, if_true, Bool.false_eq_true, if_false]
      constructor <;> intro e hh <;> simp only [strF] at e
      · exact ((strOr_near key .ff g).1 e hh).2
      · exact ((strOr_near key .ff g).2 e hh).resolve_left (by simp)
    | neg f =>
      simp only [Fml.neg.sizeOf_spec] at hs
      have key := ih f (by omega) h
      simp only [weakF, Bool.not_false, Bool.not_true]
      constructor <;> intro e hh <;> simp only [strF] at e <;> obtain ⟨x, e1, e2⟩ := bindO_ok e <;>
        simp only [Outcome.ok.injEq] at e2 <;> subst e2 <;> rw [holds_notF] at hh
      · exact (key x).2 e1 (not_not.mp hh)
      · rw [neg_neg] at e1
        exact (key x).1 e1 hh
    | all vs f => exact h.elim
end

/-! ### Strengthening keeps formulas well formed -/

section
variable {V : Variable → Prop} {rnd : ℚ → ℚ}

theorem wf_addConst {e d} (h : WfE V e) : WfE V (addConst rnd e d) := by
  unfold addConst
  split
  · trivial
  · exact ⟨trivial, h.2⟩
  · exact ⟨h, trivial⟩

theorem wf_shiftRel {δ op l r} (hl : WfE V l) (hr : WfE V r) : WfF V (shiftRel rnd δ op l r) := by
  unfold shiftRel
  split <;> split <;> first
    | exact wf_mkRel (wf_addConst hl) hr
    | exact wf_mkRel hl (wf_addConst hr)

theorem wf_shiftFresh {δ f g} (hf : WfF V f) (h : shiftFresh rnd δ f = .ok g) : WfF V g := by
  unfold shiftFresh at h
  split at h
  · simp only [Outcome.ok.injEq] at h; subst h; exact wf_shiftRel hf.1 hf.2
  · cases h

mutual
theorem wf_strE {δ} (e : Expr) {e'} (he : WfE V e) (h : strE rnd δ e = .ok e') : WfE V e' := by
  cases e with
  | const q => simp only [Model.strE, Outcome.ok.injEq] at h; subst h; exact he
  | rconst r => simp only [Model.strE, Outcome.ok.injEq] at h; subst h; exact he
  | var v => simp only [Model.strE, Outcome.ok.injEq] at h; subst h; exact he
  | add a b =>
    simp only [Model.strE] at h
    obtain ⟨x, h1, h⟩ := bindO_ok h
    obtain ⟨y, h2, h⟩ := bindO_ok h
    simp only [Outcome.ok.injEq] at h; subst h
    exact ⟨wf_strE a he.1 h1, wf_strE b he.2 h2⟩
  | mul a b =>
    simp only [Model.strE] at h
    obtain ⟨x, h1, h⟩ := bindO_ok h
    obtain ⟨y, h2, h⟩ := bindO_ok h
    simp only [Outcome.ok.injEq] at h; subst h
    exact ⟨wf_strE a he.1 h1, wf_strE b he.2 h2⟩
  | app1 f a =>
    simp only [Model.strE] at h
    obtain ⟨x, h1, h⟩ := bindO_ok h
    simp only [Outcome.ok.injEq] at h; subst h
    show WfE V x
    exact wf_strE a he h1
  | app2 f a b =>
    simp only [Model.strE] at h
    obtain ⟨x, h1, h⟩ := bindO_ok h
    obtain ⟨y, h2, h⟩ := bindO_ok h
    simp only [Outcome.ok.injEq] at h; subst h
    exact ⟨wf_strE a he.1 h1, wf_strE b he.2 h2⟩
  | ite c a b =>
    simp only [Model.strE] at h
    obtain ⟨z, h0, h⟩ := bindO_ok h
    obtain ⟨x, h1, h⟩ := bindO_ok h
    obtain ⟨y, h2, h⟩ := bindO_ok h
    simp only [Outcome.ok.injEq] at h; subst h
    have hz := wf_strF c he.1 h0
    have hx := wf_strE a he.2.1 h1
    have hy := wf_strE b he.2.2 h2
    unfold mkIte
    split
    · exact hx
    split
    · exact hy
    · exact ⟨hz, hx, hy⟩
theorem wf_strF {δ} (f : Fml) {f'} (hf : WfF V f) (h : strF rnd δ f = .ok f') : WfF V f' := by
  cases f with
  | ff => simp only [Model.strF, Outcome.ok.injEq] at h; subst h; exact hf
  | tt => simp only [Model.strF, Outcome.ok.injEq] at h; subst h; exact hf
  | bvar v => simp only [Model.strF, Outcome.ok.injEq] at h; subst h; exact hf
  | rel op a b =>
    have key : ∀ l r, strE rnd δ a = .ok l → strE rnd δ b = .ok r → WfE V l ∧ WfE V r :=
      fun l r h1 h2 => ⟨wf_strE a hf.1 h1, wf_strE b hf.2 h2⟩
    cases op
    case eq =>
      simp only [Model.strF] at h
      split at h
      · simp only [Outcome.ok.injEq] at h; subst h; exact hf
      · obtain ⟨l, h1, h⟩ := bindO_ok h
        obtain ⟨r, h2, h⟩ := bindO_ok h
        obtain ⟨x, h3, h⟩ := bindO_ok h
        obtain ⟨y, h4, h⟩ := bindO_ok h
        simp only [Outcome.ok.injEq] at h; subst h
        have k := key l r h1 h2
        exact wf_andF (wf_shiftFresh (wf_mkRel k.1 k.2) h3) (wf_shiftFresh (wf_mkRel k.1 k.2) h4)
    case neq =>
      simp only [Model.strF] at h
      split at h
      · obtain ⟨l, h1, h⟩ := bindO_ok h
        obtain ⟨r, h2, h⟩ := bindO_ok h
        obtain ⟨x, h3, h⟩ := bindO_ok h
        obtain ⟨y, h4, h⟩ := bindO_ok h
        simp only [Outcome.ok.injEq] at h; subst h
        have k := key l r h1 h2
        exact wf_orF (wf_shiftFresh (wf_mkRel k.1 k.2) h3) (wf_shiftFresh (wf_mkRel k.1 k.2) h4)
      · simp only [Outcome.ok.injEq] at h; subst h; trivial
    all_goals
      simp only [Model.strF] at h
      obtain ⟨l, h1, h⟩ := bindO_ok h
      obtain ⟨r, h2, h⟩ := bindO_ok h
      simp only [Outcome.ok.injEq] at h; subst h
      have k := key l r h1 h2
      exact wf_shiftRel k.1 k.2
  | conj fs => simp only [Model.strF] at h; exact wf_strAnd fs hf (ret := .tt) trivial h
  | disj fs => simp only [Model.strF] at h; exact wf_strOr fs hf (ret := .ff) trivial h
  | neg g =>
    simp only [Model.strF] at h
    obtain ⟨x, h1, h⟩ := bindO_ok h
    simp only [Outcome.ok.injEq] at h; subst h
    exact wf_notF (wf_strF g hf h1)
  | all vs g => simp [Model.strF] at h
theorem wf_strAnd {δ} (fs : List Fml) {ret f'} (hf : WfFs V fs) (hr : WfF V ret)
    (h : strAnd rnd δ ret fs = .ok f') : WfF V f' := by
  cases fs with
  | nil => simp only [Model.strAnd, Outcome.ok.injEq] at h; subst h; exact hr
  | cons f fs =>
    simp only [Model.strAnd] at h
    obtain ⟨x, h1, h⟩ := bindO_ok h
    exact wf_strAnd fs hf.2 (wf_andF hr (wf_strF f hf.1 h1)) h
theorem wf_strOr {δ} (fs : List Fml) {ret f'} (hf : WfFs V fs) (hr : WfF V ret)
    (h : strOr rnd δ ret fs = .ok f') : WfF V f' := by
  cases fs with
  | nil => simp only [Model.strOr, Outcome.ok.injEq] at h; subst h; exact hr
  | cons f fs =>
    simp only [Model.strOr] at h
    obtain ⟨x, h1, h⟩ := bindO_ok h
    exact wf_strOr fs hf.2 (wf_orF hr (wf_strF f hf.1 h1)) h
end

theorem wf_deltaStrengthen {ε f g} (hf : WfF V f) (h : deltaStrengthen rnd ε f = .ok g) :
    WfF V g := by
  unfold deltaStrengthen strengthen at h
  split at h
  · split at h
    · simp only [Outcome.ok.injEq] at h; subst h; exact hf
    · exact wf_strF f hf h
  · cases h
end

end Verif.Proof
