import Verif.Model.Strengthen
import Verif.Spec.Strengthen
import Verif.Proof.Sem

/-! # Strengthening and weakening -/

namespace Verif.Proof
open Verif Verif.Model Verif.Spec

variable {P : ℚ → Prop} {rnd : ℚ → ℚ} {I : Interp} {ρ : Valuation}

theorem basicFs_iff {fs} : BasicFs P fs ↔ ∀ f ∈ fs, BasicF P f := by
  induction fs with
  | nil => simp [BasicFs]
  | cons f fs ih => simp [BasicFs, ih]

/-- Visiting an expression without if-then-else rebuilds it. -/
theorem strE_id (δ : ℚ) : ∀ (n : Nat) (e : Expr), sizeOf e ≤ n → BasicE P e →
    strE rnd δ e = .ok e := by
  intro n
  induction n with
  | zero => intro e hs; cases e <;> simp at hs
  | succ n ih =>
    intro e hs h
    cases e with
    | const q => simp [strE]
    | rconst r => simp [strE]
    | var v => simp [strE]
    | add a b =>
      simp only [Expr.add.sizeOf_spec] at hs
      simp [strE, ih a (by omega) h.1, ih b (by omega) h.2]
    | mul a b =>
      simp only [Expr.mul.sizeOf_spec] at hs
      simp [strE, ih a (by omega) h.1, ih b (by omega) h.2]
    | app1 f a =>
      simp only [Expr.app1.sizeOf_spec] at hs
      simp [strE, ih a (by omega) h]
    | app2 f a b =>
      simp only [Expr.app2.sizeOf_spec] at hs
      simp [strE, ih a (by omega) h.1, ih b (by omega) h.2]
    | ite c a b => exact h.elim

theorem addConst_up (hr : RoundsTo P rnd) {e δ} (h : BasicE P e) (hδ : 0 ≤ δ) :
    eval I ρ e ≤ eval I ρ (addConst rnd e δ) := by
  have key : ∀ c, P c → (c : ℝ) ≤ (rnd (c + δ) : ℝ) := fun c hc => by
    have := hr.mono c (c + δ) (by linarith)
    rw [hr.fix c hc] at this
    exact_mod_cast this
  have hδ' : (0 : ℝ) ≤ (δ : ℝ) := by exact_mod_cast hδ
  unfold addConst
  split
  · simpa [eval] using key _ h
  · simpa [eval] using key _ h.1
  · simp only [eval]; linarith

theorem addConst_down (hr : RoundsTo P rnd) {e δ} (h : BasicE P e) (hδ : δ ≤ 0) :
    eval I ρ (addConst rnd e δ) ≤ eval I ρ e := by
  have key : ∀ c, P c → (rnd (c + δ) : ℝ) ≤ (c : ℝ) := fun c hc => by
    have := hr.mono (c + δ) c (by linarith)
    rw [hr.fix c hc] at this
    exact_mod_cast this
  have hδ' : (δ : ℝ) ≤ 0 := by exact_mod_cast hδ
  unfold addConst
  split
  · simpa [eval] using key _ h
  · simpa [eval] using key _ h.1
  · simp only [eval]; linarith

theorem shiftRel_holds (hr : RoundsTo P rnd) {δ op l r} (hl : BasicE P l) (hr' : BasicE P r)
    (ho : op ≠ .eq ∧ op ≠ .neq) :
    (0 ≤ δ → holds I ρ (shiftRel rnd δ op l r) → relSem op (eval I ρ l) (eval I ρ r)) ∧
    (δ ≤ 0 → relSem op (eval I ρ l) (eval I ρ r) → holds I ρ (shiftRel rnd δ op l r)) := by
  have h1 := fun hδ : 0 ≤ δ => addConst_up (I := I) (ρ := ρ) hr hl hδ
  have h2 := fun hδ : 0 ≤ δ => addConst_up (I := I) (ρ := ρ) hr hr' hδ
  have h3 := fun hδ : 0 ≤ δ => addConst_down (I := I) (ρ := ρ) hr hl (neg_nonpos.mpr hδ)
  have h4 := fun hδ : 0 ≤ δ => addConst_down (I := I) (ρ := ρ) hr hr' (neg_nonpos.mpr hδ)
  have k1 := fun hδ : δ ≤ 0 => addConst_down (I := I) (ρ := ρ) hr hl hδ
  have k2 := fun hδ : δ ≤ 0 => addConst_down (I := I) (ρ := ρ) hr hr' hδ
  have k3 := fun hδ : δ ≤ 0 => addConst_up (I := I) (ρ := ρ) hr hl (neg_nonneg.mpr hδ)
  have k4 := fun hδ : δ ≤ 0 => addConst_up (I := I) (ρ := ρ) hr hr' (neg_nonneg.mpr hδ)
  refine ⟨fun hδ h => ?_, fun hδ h => ?_⟩
  · have h1 := h1 hδ
    have h2 := h2 hδ
    have h3 := h3 hδ
    have h4 := h4 hδ
    cases op <;> simp only [shiftRel] at h <;> first
      | exact absurd rfl ho.1
      | exact absurd rfl ho.2
      | (split at h <;> simp only [holds_mkRel, relSem] at h ⊢ <;> linarith)
  · have h1 := k1 hδ
    have h2 := k2 hδ
    have h3 := k3 hδ
    have h4 := k4 hδ
    cases op <;> simp only [shiftRel] <;> first
      | exact absurd rfl ho.1
      | exact absurd rfl ho.2
      | (split <;> simp only [holds_mkRel, relSem] at h ⊢ <;> linarith)

/-- What is proved of a visit. -/
def StrSpec (rnd : ℚ → ℚ) (I : Interp) (ρ : Valuation) (f : Fml) : Prop :=
  ∀ δ : ℚ, δ ≠ 0 → ∃ g, strF rnd δ f = .ok g ∧ (0 < δ → holds I ρ g → holds I ρ f) ∧
    (δ < 0 → holds I ρ f → holds I ρ g)

theorem strAnd_spec {fs : List Fml} (h : ∀ f ∈ fs, StrSpec rnd I ρ f) {δ : ℚ} (hδ : δ ≠ 0) :
    ∀ ret, ∃ g, strAnd rnd δ ret fs = .ok g ∧
      (0 < δ → holds I ρ g → holds I ρ ret ∧ ∀ f ∈ fs, holds I ρ f) ∧
      (δ < 0 → holds I ρ ret → (∀ f ∈ fs, holds I ρ f) → holds I ρ g) := by
  induction fs with
  | nil => intro ret; exact ⟨ret, by simp [strAnd], by simp, by simp⟩
  | cons f fs ih =>
    intro ret
    obtain ⟨g, h1, h2, h3⟩ := h f (by simp) δ hδ
    obtain ⟨g', k1, k2, k3⟩ := ih (fun f hf => h f (by simp [hf])) (andF ret g)
    refine ⟨g', by simp [strAnd, h1, k1], fun hp hg => ?_, fun hn hr hf => ?_⟩
    · obtain ⟨a, b⟩ := k2 hp hg
      rw [holds_andF] at a
      refine ⟨a.1, fun x hx => ?_⟩
      rcases List.mem_cons.mp hx with rfl | hx
      · exact h2 hp a.2
      · exact b x hx
    · exact k3 hn (holds_andF.mpr ⟨hr, h3 hn (hf f (by simp))⟩) fun x hx => hf x (by simp [hx])

theorem strOr_spec {fs : List Fml} (h : ∀ f ∈ fs, StrSpec rnd I ρ f) {δ : ℚ} (hδ : δ ≠ 0) :
    ∀ ret, ∃ g, strOr rnd δ ret fs = .ok g ∧
      (0 < δ → holds I ρ g → holds I ρ ret ∨ ∃ f ∈ fs, holds I ρ f) ∧
      (δ < 0 → (holds I ρ ret ∨ ∃ f ∈ fs, holds I ρ f) → holds I ρ g) := by
  induction fs with
  | nil => intro ret; exact ⟨ret, by simp [strOr], by simp, by simp⟩
  | cons f fs ih =>
    intro ret
    obtain ⟨g, h1, h2, h3⟩ := h f (by simp) δ hδ
    obtain ⟨g', k1, k2, k3⟩ := ih (fun f hf => h f (by simp [hf])) (orF ret g)
    refine ⟨g', by simp [strOr, h1, k1], fun hp hg => ?_, fun hn hr => ?_⟩
    · rcases k2 hp hg with a | ⟨x, hx, hh⟩
      · rcases holds_orF.mp a with a | a
        · exact .inl a
        · exact .inr ⟨f, by simp, h2 hp a⟩
      · exact .inr ⟨x, by simp [hx], hh⟩
    · refine k3 hn ?_
      rcases hr with a | ⟨x, hx, hh⟩
      · exact .inl (holds_orF.mpr (.inl a))
      · rcases List.mem_cons.mp hx with rfl | hx
        · exact .inl (holds_orF.mpr (.inr (h3 hn hh)))
        · exact .inr ⟨x, hx, hh⟩

theorem mkRel_open {op a b} (h : constDiff a b = none) : mkRel op a b = .rel op a b := by
  simp [mkRel, h]

theorem strF_spec (hr : RoundsTo P rnd) : ∀ (n : Nat) (f : Fml), sizeOf f ≤ n → BasicF P f →
    StrSpec rnd I ρ f := by
  intro n
  induction n with
  | zero => intro f hs; cases f <;> simp at hs
  | succ n ih =>
    intro f hs h δ hδ
    cases f with
    | ff => exact ⟨.ff, by simp [strF], by simp, by simp⟩
    | tt => exact ⟨.tt, by simp [strF], by simp, by simp⟩
    | bvar v => exact ⟨.bvar v, by simp [strF], by simp, by simp⟩
    | rel op a b =>
      obtain ⟨ha, hb, hc⟩ := h
      have ea := strE_id (rnd := rnd) δ _ a le_rfl ha
      have eb := strE_id (rnd := rnd) δ _ b le_rfl hb
      have sh := fun op ho => shiftRel_holds (I := I) (ρ := ρ) hr (δ := δ) (op := op) ha hb ho
      cases op with
      | eq =>
        by_cases hp : 0 < δ
        · exact ⟨_, by simp [strF, hp], fun _ h => h, fun h' => absurd h' (by linarith)⟩
        · refine ⟨andF (shiftRel rnd δ .geq a b) (shiftRel rnd δ .leq a b),
            by simp [strF, hp, ea, eb, mkRel_open hc, shiftFresh], fun h => absurd h hp,
            fun hn hh => ?_⟩
          simp only [holds_rel, relSem] at hh
          rw [holds_andF]
          exact ⟨(sh .geq (by simp)).2 hn.le (ge_of_eq hh), (sh .leq (by simp)).2 hn.le (le_of_eq hh)⟩
      | neq =>
        by_cases hp : 0 < δ
        · refine ⟨orF (shiftRel rnd δ .gt a b) (shiftRel rnd δ .lt a b),
            by simp [strF, hp, ea, eb, mkRel_open hc, shiftFresh], fun _ hh => ?_,
            fun h' => absurd h' (by linarith)⟩
          rcases holds_orF.mp hh with hh | hh
          · exact ne_of_gt ((sh .gt (by simp)).1 hp.le hh)
          · exact ne_of_lt ((sh .lt (by simp)).1 hp.le hh)
        · exact ⟨.tt, by simp [strF, hp], fun h => absurd h hp, by simp⟩
      | gt => exact ⟨_, by simp only [strF, ea, eb]; rfl, fun hp hh => (sh .gt (by simp)).1 hp.le hh,
          fun hn hh => (sh .gt (by simp)).2 hn.le hh⟩
      | geq => exact ⟨_, by simp only [strF, ea, eb]; rfl,
          fun hp hh => (sh .geq (by simp)).1 hp.le hh, fun hn hh => (sh .geq (by simp)).2 hn.le hh⟩
      | lt => exact ⟨_, by simp only [strF, ea, eb]; rfl, fun hp hh => (sh .lt (by simp)).1 hp.le hh,
          fun hn hh => (sh .lt (by simp)).2 hn.le hh⟩
      | leq => exact ⟨_, by simp only [strF, ea, eb]; rfl,
          fun hp hh => (sh .leq (by simp)).1 hp.le hh, fun hn hh => (sh .leq (by simp)).2 hn.le hh⟩
    | conj fs =>
      have key : ∀ g ∈ fs, StrSpec rnd I ρ g := fun g hg => by
        have := List.sizeOf_lt_of_mem hg
        simp only [Fml.conj.sizeOf_spec] at hs
        exact ih g (by omega) (basicFs_iff.mp h g hg)
      obtain ⟨g, h1, h2, h3⟩ := strAnd_spec key hδ .tt
      refine ⟨g, by simpa [strF] using h1, fun hp hg => ?_, fun hn hh => ?_⟩
      · rw [holds_conj]; exact (h2 hp hg).2
      · exact h3 hn (by simp) (holds_conj.mp hh)
    | disj fs =>
      have key : ∀ g ∈ fs, StrSpec rnd I ρ g := fun g hg => by
        have := List.sizeOf_lt_of_mem hg
        simp only [Fml.disj.sizeOf_spec] at hs
        exact ih g (by omega) (basicFs_iff.mp h g hg)
      obtain ⟨g, h1, h2, h3⟩ := strOr_spec key hδ .ff
      refine ⟨g, by simpa [strF] using h1, fun hp hg => ?_, fun hn hh => ?_⟩
      · rw [holds_disj]; exact (h2 hp hg).resolve_left (by simp)
      · exact h3 hn (.inr (holds_disj.mp hh))
    | neg f =>
      simp only [Fml.neg.sizeOf_spec] at hs
      obtain ⟨g, h1, h2, h3⟩ := ih f (by omega) h (-δ) (neg_ne_zero.mpr hδ)
      refine ⟨notF g, by simp [strF, h1], fun hp hg => ?_, fun hn hh => ?_⟩
      · rw [holds_notF] at hg
        exact holds_neg.mpr fun hf => hg (h3 (neg_neg_iff_pos.mpr hp) hf)
      · rw [holds_notF]
        exact fun hg => (holds_neg.mp hh) (h2 (neg_pos.mpr hn) hg)
    | all vs f => exact h.elim

end Verif.Proof
