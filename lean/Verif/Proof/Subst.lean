import Verif.Spec.Subst
import Verif.Proof.Sem

/-! # Substitution and evaluation -/

namespace Verif.Proof
open Verif Verif.Model Verif.Spec

variable {I : Interp} {ρ : Valuation}

theorem sortedFs_iff {fs} : SortedFs fs ↔ ∀ f ∈ fs, SortedF f := by
  induction fs with
  | nil => simp [SortedFs]
  | cons f fs ih => simp [SortedFs, ih]

theorem noCaptureFs_iff {s fs} : NoCaptureFs s fs ↔ ∀ f ∈ fs, NoCaptureF s f := by
  induction fs with
  | nil => simp [NoCaptureFs]
  | cons f fs ih => simp [NoCaptureFs, ih]

theorem lookupV_filter {α : Type} (p : Variable → Prop) [DecidablePred p] (v : Variable)
    (l : List (Variable × α)) :
    lookupV v (l.filter fun q => p q.1) = if p v then lookupV v l else none := by
  induction l with
  | nil => simp [lookupV]
  | cons q l ih =>
    obtain ⟨w, a⟩ := q
    by_cases hw : w = v
    · subst hw
      by_cases hp : p w
      · simp [List.filter_cons, hp, lookupV]
      · simp only [List.filter_cons, hp, decide_false, Bool.false_eq_true, if_false, ih]
    · by_cases hp : p w
      · simp [List.filter_cons, hp, lookupV, hw, ih]
      · simp [List.filter_cons, hp, lookupV, hw, ih]

theorem lookup_erase_ex {s : Subst} {vs v} (h : v.type ≠ .boolean) :
    lookupV v (s.erase vs).ex = if v ∈ vs then none else lookupV v s.ex := by
  have := lookupV_filter (fun v => ¬ (v ∈ vs ∧ v.type ≠ .boolean)) v s.ex
  simp only [Subst.erase]
  rw [this]
  by_cases hv : v ∈ vs <;> simp [hv, h]

theorem lookup_erase_fm {s : Subst} {vs v} (h : v.type = .boolean) :
    lookupV v (s.erase vs).fm = if v ∈ vs then none else lookupV v s.fm := by
  have := lookupV_filter (fun v => ¬ (v ∈ vs ∧ v.type = .boolean)) v s.fm
  simp only [Subst.erase]
  rw [this]
  by_cases hv : v ∈ vs <;> simp [hv, h]

theorem rebind_erase_in {s : Subst} {vs v} (h : v ∈ vs) : rebind I ρ (s.erase vs) v = ρ v := by
  unfold rebind
  split
  · rename_i hb; rw [lookup_erase_fm hb]; simp [h]
  · rename_i hb; rw [lookup_erase_ex hb]; simp [h]

theorem rebind_erase_out {s : Subst} {vs v} (h : v ∉ vs) :
    rebind I ρ (s.erase vs) v = rebind I ρ s v := by
  unfold rebind
  split
  · rename_i hb; rw [lookup_erase_fm hb]; simp [h]
  · rename_i hb; rw [lookup_erase_ex hb]; simp [h]

theorem rebind_congr {s : Subst} {v} {ρ' : Valuation} (h0 : ρ' v = ρ v)
    (h : ∀ w ∈ substVars s v, ρ' w = ρ w) : rebind I ρ' s v = rebind I ρ s v := by
  unfold rebind
  unfold substVars at h
  split
  · rename_i hb
    simp only [hb, if_true] at h
    cases hl : lookupV v s.fm with
    | none => simp [h0]
    | some f =>
      rw [hl] at h
      have := holds_congr I f ρ' ρ h
      by_cases hf : holds I ρ f
      · simp [hf, this.mpr hf]
      · simp [hf, mt this.mp hf]
  · rename_i hb
    simp only [hb, if_false] at h
    cases hl : lookupV v s.ex with
    | none => simp [h0]
    | some e =>
      rw [hl] at h
      exact eval_congr I e ρ' ρ h

theorem eval_mkIte {c : Fml} {t e : Expr} : eval I ρ (mkIte c t e) = eval I ρ (.ite c t e) := by
  unfold mkIte
  split
  · rename_i h; subst h; simp [eval]
  · split
    · rename_i h; subst h; simp [eval]
    · rfl

/-- What is proved about substituting in a formula. -/
def SubSpec (I : Interp) (s : Subst) (f : Fml) : Prop :=
  ∀ ρ : Valuation, holds I ρ (subF s f) ↔ holds I (rebind I ρ s) f

theorem subAnd_spec {s : Subst} {fs : List Fml} (h : ∀ f ∈ fs, SubSpec I s f) :
    ∀ ret ch, (holds I ρ (subAnd s ret ch fs).1 ↔
        holds I ρ ret ∧ ∀ f ∈ fs, holds I (rebind I ρ s) f) ∧
      ((subAnd s ret ch fs).2 = false → ch = false ∧ ∀ f ∈ fs, subF s f = f) := by
  induction fs with
  | nil => intro ret ch; simp [subAnd]
  | cons f fs ih =>
    intro ret ch
    have hf := h f (by simp) ρ
    have ih := ih fun g hg => h g (by simp [hg])
    simp only [subAnd]
    split
    · rename_i hr
      have h1 : ¬ holds I ρ (andF ret (subF s f)) := by rw [hr]; simp
      rw [holds_andF, hf] at h1
      refine ⟨?_, by simp⟩
      simp only [holds_ff, false_iff]
      exact fun hh => h1 ⟨hh.1, hh.2 f (by simp)⟩
    · obtain ⟨h1, h2⟩ := ih (andF ret (subF s f)) (ch || decide (subF s f ≠ f))
      refine ⟨?_, fun hh => ?_⟩
      · rw [h1, holds_andF, hf, List.forall_mem_cons, and_assoc]
      · have := h2 hh
        simp only [ne_eq, Bool.or_eq_false_iff, decide_eq_false_iff_not, not_not] at this
        exact ⟨this.1.1, List.forall_mem_cons.mpr ⟨this.1.2, this.2⟩⟩

theorem subOr_spec {s : Subst} {fs : List Fml} (h : ∀ f ∈ fs, SubSpec I s f) :
    ∀ ret ch, (holds I ρ (subOr s ret ch fs).1 ↔
        holds I ρ ret ∨ ∃ f ∈ fs, holds I (rebind I ρ s) f) ∧
      ((subOr s ret ch fs).2 = false → ch = false ∧ ∀ f ∈ fs, subF s f = f) := by
  induction fs with
  | nil => intro ret ch; simp [subOr]
  | cons f fs ih =>
    intro ret ch
    have hf := h f (by simp) ρ
    have ih := ih fun g hg => h g (by simp [hg])
    simp only [subOr]
    split
    · rename_i hr
      have h1 : holds I ρ (orF ret (subF s f)) := by rw [hr]; simp
      rw [holds_orF, hf] at h1
      refine ⟨?_, by simp⟩
      simp only [holds_tt, true_iff]
      exact h1.imp_right fun hh => ⟨f, by simp, hh⟩
    · obtain ⟨h1, h2⟩ := ih (orF ret (subF s f)) (ch || decide (subF s f ≠ f))
      refine ⟨?_, fun hh => ?_⟩
      · rw [h1, holds_orF, hf]
        simp [or_assoc]
      · have := h2 hh
        simp only [ne_eq, Bool.or_eq_false_iff, decide_eq_false_iff_not, not_not] at this
        exact ⟨this.1.1, List.forall_mem_cons.mpr ⟨this.1.2, this.2⟩⟩

theorem sub_spec : ∀ n : Nat,
    (∀ (e : Expr) (s : Subst) (ρ : Valuation), sizeOf e ≤ n → SortedE e → NoCaptureE s e →
      eval I ρ (subE s e) = eval I (rebind I ρ s) e) ∧
    (∀ (f : Fml) (s : Subst), sizeOf f ≤ n → SortedF f → NoCaptureF s f → SubSpec I s f) := by
  intro n
  induction n with
  | zero => exact ⟨fun e _ _ hs => by cases e <;> simp at hs, fun f _ hs => by cases f <;> simp at hs⟩
  | succ n ih =>
    obtain ⟨ihe, ihf⟩ := ih
    refine ⟨fun e s ρ hs hk hc => ?_, fun f s hs hk hc ρ => ?_⟩
    · cases e with
      | const q => simp [subE, eval]
      | rconst r => simp [subE, eval]
      | var v =>
        simp only [SortedE] at hk
        simp only [subE, eval, rebind, hk, if_false]
        cases lookupV v s.ex <;> simp [eval]
      | add a b =>
        simp only [Expr.add.sizeOf_spec] at hs
        simp only [subE, eval, ihe a s ρ (by omega) hk.1 hc.1, ihe b s ρ (by omega) hk.2 hc.2]
      | mul a b =>
        simp only [Expr.mul.sizeOf_spec] at hs
        simp only [subE, eval, ihe a s ρ (by omega) hk.1 hc.1, ihe b s ρ (by omega) hk.2 hc.2]
      | app1 g a =>
        simp only [Expr.app1.sizeOf_spec] at hs
        simp only [subE, eval, ihe a s ρ (by omega) hk hc]
      | app2 g a b =>
        simp only [Expr.app2.sizeOf_spec] at hs
        simp only [subE, eval, ihe a s ρ (by omega) hk.1 hc.1, ihe b s ρ (by omega) hk.2 hc.2]
      | ite c a b =>
        simp only [Expr.ite.sizeOf_spec] at hs
        have h1 := ihf c s (by omega) hk.1 hc.1 ρ
        have h2 := ihe a s ρ (by omega) hk.2.1 hc.2.1
        have h3 := ihe b s ρ (by omega) hk.2.2 hc.2.2
        have key : eval I ρ (.ite (subF s c) (subE s a) (subE s b)) =
            eval I (rebind I ρ s) (.ite c a b) := by
          by_cases hh : holds I ρ (subF s c)
          · simp [eval, hh, h1.mp hh, h2]
          · simp [eval, hh, mt h1.mpr hh, h3]
        simp only [subE]
        split
        · rename_i h; rw [← key, h.1, h.2.1, h.2.2]
        · rw [eval_mkIte, key]
    · cases f with
      | ff => simp [subF]
      | tt => simp [subF]
      | bvar v =>
        simp only [SortedF] at hk
        simp only [subF, holds_bvar, rebind, hk, if_true]
        cases lookupV v s.fm with
        | none => simp
        | some f => by_cases hf : holds I ρ f <;> simp [hf]
      | rel op a b =>
        simp only [Fml.rel.sizeOf_spec] at hs
        have h2 := ihe a s ρ (by omega) hk.1 hc.1
        have h3 := ihe b s ρ (by omega) hk.2 hc.2
        simp only [subF]
        split
        · rename_i h
          simp only [holds_rel]
          rw [← h2, ← h3, h.1, h.2]
        · simp only [holds_mkRel, holds_rel, h2, h3]
      | conj fs =>
        have key : ∀ g ∈ fs, SubSpec I s g := fun g hg => by
          have := List.sizeOf_lt_of_mem hg
          simp only [Fml.conj.sizeOf_spec] at hs
          exact ihf g s (by omega) (sortedFs_iff.mp hk g hg) (noCaptureFs_iff.mp hc g hg)
        obtain ⟨h1, h2⟩ := subAnd_spec (ρ := ρ) key .tt false
        simp only [subF]
        split
        · rename_i r hr
          rw [hr] at h1
          simpa using h1
        · rename_i r hr
          rw [hr] at h2
          have h2 := (h2 rfl).2
          simp only [holds_conj]
          exact forall₂_congr fun g hg => by rw [← key g hg ρ, h2 g hg]
      | disj fs =>
        have key : ∀ g ∈ fs, SubSpec I s g := fun g hg => by
          have := List.sizeOf_lt_of_mem hg
          simp only [Fml.disj.sizeOf_spec] at hs
          exact ihf g s (by omega) (sortedFs_iff.mp hk g hg) (noCaptureFs_iff.mp hc g hg)
        obtain ⟨h1, h2⟩ := subOr_spec (ρ := ρ) key .ff false
        simp only [subF]
        split
        · rename_i r hr
          rw [hr] at h1
          simpa using h1
        · rename_i r hr
          rw [hr] at h2
          have h2 := (h2 rfl).2
          simp only [holds_disj]
          exact exists_congr fun g => and_congr_right fun hg => by rw [← key g hg ρ, h2 g hg]
      | neg f =>
        simp only [Fml.neg.sizeOf_spec] at hs
        have h1 := ihf f s (by omega) hk hc ρ
        simp only [subF]
        split
        · rename_i h
          rw [holds_neg, holds_neg, ← h1, h]
        · rw [holds_notF, holds_neg, h1]
      | all vs f =>
        simp only [Fml.all.sizeOf_spec] at hs
        have h1 := ihf f (s.erase vs) (by omega) hk hc.2
        have key : holds I ρ (.all vs (subF (s.erase vs) f)) ↔
            holds I (rebind I ρ s) (.all vs f) := by
          rw [holds_all, holds_all]
          -- a valuation below the quantifier and its image
          have img : ∀ ρ' σ : Valuation, (∀ v, v ∉ vs → ρ' v = ρ v) →
              (∀ v, v ∉ vs → σ v = rebind I ρ s v) → (∀ v ∈ vs, σ v = ρ' v) →
              (holds I ρ' (subF (s.erase vs) f) ↔ holds I σ f) := by
            intro ρ' σ e1 e2 e3
            rw [h1 ρ']
            refine holds_congr I f _ _ fun v hv => ?_
            by_cases hb : v ∈ vs
            · rw [rebind_erase_in hb, e3 v hb]
            · rw [rebind_erase_out hb, e2 v hb]
              exact rebind_congr (e1 v hb) fun w hw => e1 w (hc.1 v hv hb w hw)
          classical
          constructor
          · intro h σ e1 e2
            refine (img (fun v => if v ∈ vs then σ v else ρ v) σ ?_ e1 ?_).mp (h _ ?_ ?_)
            · intro v hv; simp [hv]
            · intro v hv; simp [hv]
            · intro v hv; simp [hv]
            · intro v hv; simpa [hv] using e2 v hv
          · intro h ρ' e1 e2
            refine (img ρ' (fun v => if v ∈ vs then ρ' v else rebind I ρ s v) e1 ?_ ?_).mpr
              (h _ ?_ ?_)
            · intro v hv; simp [hv]
            · intro v hv; simp [hv]
            · intro v hv; simp [hv]
            · intro v hv; simpa [hv] using e2 v hv
        simp only [subF]
        split
        · rename_i h
          rw [← key, h]
        · rw [holds_forallF, key]

end Verif.Proof
