import Verif.Spec.Smt2
import Verif.Proof.SubstFv

/-! # Applying function definitions, eliminating Boolean variables, quantifying -/

namespace Verif.Proof.Smt2
open Verif Verif.Model Verif.Model.Smt2 Verif.Spec Verif.Spec.Smt2 Verif.Proof

@[simp] theorem sortType_eq (s : Srt) : sortType s = s.toType := by cases s <;> rfl

variable {I : Interp} {ρ : Valuation}

/-- The value of a translated term. -/
noncomputable def valT (I : Interp) (ρ : Valuation) : Term → SVal
  | .expr e => .num (eval I ρ e)
  | .fml f => .tf (holds I ρ f)

/-- Free variables of a translated term. -/
def _root_.Verif.Model.Smt2.Term.fv : Term → List Variable
  | .expr e => e.vars
  | .fml f => f.fv

def TSorted : Term → Prop
  | .expr e => SortedE e
  | .fml f => SortedF f

/-- All quantifiers in a term satisfy `Q`. -/
def TQ (Q : List Variable → Fml → Prop) : Term → Prop
  | .expr e => HerE (fun _ => True) (fun _ => True) Q e
  | .fml f => HerF (fun _ => True) (fun _ => True) Q f

theorem valT_congr {t : Term} {ρ ρ' : Valuation} (h : ∀ v ∈ t.fv, ρ v = ρ' v) :
    valT I ρ t = valT I ρ' t := by
  cases t with
  | expr e => simp only [valT]; rw [eval_congr I e ρ ρ' h]
  | fml f => simp only [valT]; rw [propext (holds_congr I f ρ ρ' h)]

mutual
theorem herE_mono {Q Q' : List Variable → Fml → Prop} (h : ∀ vs f, Q vs f → Q' vs f) : ∀ e : Expr,
    HerE (fun _ => True) (fun _ => True) Q e → HerE (fun _ => True) (fun _ => True) Q' e
  | .const _, _ => by simp [HerE]
  | .rconst _, _ => by simp [HerE]
  | .var _, _ => by simp [HerE]
  | .add a b, k => ⟨herE_mono h a k.1, herE_mono h b k.2⟩
  | .mul a b, k => ⟨herE_mono h a k.1, herE_mono h b k.2⟩
  | .app1 _ a, k => herE_mono h a k
  | .app2 _ a b, k => ⟨herE_mono h a k.1, herE_mono h b k.2⟩
  | .ite c a b, k => ⟨herF_mono h c k.1, herE_mono h a k.2.1, herE_mono h b k.2.2⟩
theorem herF_mono {Q Q' : List Variable → Fml → Prop} (h : ∀ vs f, Q vs f → Q' vs f) : ∀ f : Fml,
    HerF (fun _ => True) (fun _ => True) Q f → HerF (fun _ => True) (fun _ => True) Q' f
  | .ff, _ => by simp [HerF]
  | .tt, _ => by simp [HerF]
  | .bvar _, _ => by simp [HerF]
  | .rel _ a b, k => ⟨herE_mono h a k.1, herE_mono h b k.2⟩
  | .conj fs, k => herFs_mono h fs k
  | .disj fs, k => herFs_mono h fs k
  | .neg f, k => herF_mono h f k
  | .all vs f, k => ⟨h vs f k.1, herF_mono h f k.2⟩
theorem herFs_mono {Q Q' : List Variable → Fml → Prop} (h : ∀ vs f, Q vs f → Q' vs f) :
    ∀ fs : List Fml,
    HerFs (fun _ => True) (fun _ => True) Q fs → HerFs (fun _ => True) (fun _ => True) Q' fs
  | [], _ => by simp [HerFs]
  | f :: fs, k => ⟨herF_mono h f k.1, herFs_mono h fs k.2⟩
end

theorem TQ.mono {Q Q' : List Variable → Fml → Prop} {t : Term} (k : TQ Q t)
    (h : ∀ vs f, Q vs f → Q' vs f) : TQ Q' t := by
  cases t with
  | expr e => exact herE_mono h e k
  | fml f => exact herF_mono h f k

mutual
/-- A variable that is neither free nor bound is not free below any quantifier. -/
theorem herE_absent {p : Variable} : ∀ e : Expr, p ∉ e.vars →
    HerE (fun _ => True) (fun _ => True) (fun vs _ => p ∉ vs) e →
    HerE (fun _ => True) (fun _ => True) (fun _ f => p ∉ f.fv) e
  | .const _, _, _ => by simp [HerE]
  | .rconst _, _, _ => by simp [HerE]
  | .var _, _, _ => by simp [HerE]
  | .add a b, n, k => by
    simp only [Expr.vars, List.mem_append, not_or] at n
    exact ⟨herE_absent a n.1 k.1, herE_absent b n.2 k.2⟩
  | .mul a b, n, k => by
    simp only [Expr.vars, List.mem_append, not_or] at n
    exact ⟨herE_absent a n.1 k.1, herE_absent b n.2 k.2⟩
  | .app1 _ a, n, k => herE_absent a n k
  | .app2 _ a b, n, k => by
    simp only [Expr.vars, List.mem_append, not_or] at n
    exact ⟨herE_absent a n.1 k.1, herE_absent b n.2 k.2⟩
  | .ite c a b, n, k => by
    simp only [Expr.vars, List.mem_append, not_or] at n
    exact ⟨herF_absent c n.1 k.1, herE_absent a n.2.1 k.2.1, herE_absent b n.2.2 k.2.2⟩
theorem herF_absent {p : Variable} : ∀ f : Fml, p ∉ f.fv →
    HerF (fun _ => True) (fun _ => True) (fun vs _ => p ∉ vs) f →
    HerF (fun _ => True) (fun _ => True) (fun _ f => p ∉ f.fv) f
  | .ff, _, _ => by simp [HerF]
  | .tt, _, _ => by simp [HerF]
  | .bvar _, _, _ => by simp [HerF]
  | .rel _ a b, n, k => by
    simp only [Fml.fv, List.mem_append, not_or] at n
    exact ⟨herE_absent a n.1 k.1, herE_absent b n.2 k.2⟩
  | .conj fs, n, k => herFs_absent fs n k
  | .disj fs, n, k => herFs_absent fs n k
  | .neg f, n, k => herF_absent f n k
  | .all vs f, n, k => by
    have : p ∉ f.fv := fun h => n (by simp [Fml.fv, h, k.1])
    exact ⟨this, herF_absent f this k.2⟩
theorem herFs_absent {p : Variable} : ∀ fs : List Fml, p ∉ Fml.fvList fs →
    HerFs (fun _ => True) (fun _ => True) (fun vs _ => p ∉ vs) fs →
    HerFs (fun _ => True) (fun _ => True) (fun _ f => p ∉ f.fv) fs
  | [], _, _ => by simp [HerFs]
  | f :: fs, n, k => by
    simp only [Fml.fvList, List.mem_append, not_or] at n
    exact ⟨herF_absent f n.1 k.1, herFs_absent fs n.2 k.2⟩
end

/-- Replacing `p` by something with variables `A` is safe: no quantifier above a free `p` binds
one of `A`. -/
def SafeQ (p : Variable) (A : List Variable) : List Variable → Fml → Prop :=
  fun vs f => p ∈ f.fv → ∀ w ∈ A, w ∉ vs

mutual
theorem noCaptureE_of {p : Variable} {A : List Variable} : ∀ (e : Expr) (s : Subst),
    (∀ v, v ≠ p → substVars s v = []) → (∀ w ∈ substVars s p, w ∈ A) →
    HerE (fun _ => True) (fun _ => True) (SafeQ p A) e → NoCaptureE s e
  | .const _, _, _, _, _ => by simp [NoCaptureE]
  | .rconst _, _, _, _, _ => by simp [NoCaptureE]
  | .var _, _, _, _, _ => by simp [NoCaptureE]
  | .add a b, s, h1, h2, k => ⟨noCaptureE_of a s h1 h2 k.1, noCaptureE_of b s h1 h2 k.2⟩
  | .mul a b, s, h1, h2, k => ⟨noCaptureE_of a s h1 h2 k.1, noCaptureE_of b s h1 h2 k.2⟩
  | .app1 _ a, s, h1, h2, k => noCaptureE_of a s h1 h2 k
  | .app2 _ a b, s, h1, h2, k => ⟨noCaptureE_of a s h1 h2 k.1, noCaptureE_of b s h1 h2 k.2⟩
  | .ite c a b, s, h1, h2, k => ⟨noCaptureF_of c s h1 h2 k.1, noCaptureE_of a s h1 h2 k.2.1,
      noCaptureE_of b s h1 h2 k.2.2⟩
theorem noCaptureF_of {p : Variable} {A : List Variable} : ∀ (f : Fml) (s : Subst),
    (∀ v, v ≠ p → substVars s v = []) → (∀ w ∈ substVars s p, w ∈ A) →
    HerF (fun _ => True) (fun _ => True) (SafeQ p A) f → NoCaptureF s f
  | .ff, _, _, _, _ => by simp [NoCaptureF]
  | .tt, _, _, _, _ => by simp [NoCaptureF]
  | .bvar _, _, _, _, _ => by simp [NoCaptureF]
  | .rel _ a b, s, h1, h2, k => ⟨noCaptureE_of a s h1 h2 k.1, noCaptureE_of b s h1 h2 k.2⟩
  | .conj fs, s, h1, h2, k => noCaptureFs_of fs s h1 h2 k
  | .disj fs, s, h1, h2, k => noCaptureFs_of fs s h1 h2 k
  | .neg f, s, h1, h2, k => noCaptureF_of f s h1 h2 k
  | .all vs f, s, h1, h2, k => by
    have er : ∀ v, ∀ w ∈ substVars (s.erase vs) v, w ∈ substVars s v := by
      intro v w hw
      by_cases hb : v.type = .boolean
      · simp only [substVars, hb, if_true, lookup_erase_fm hb] at hw ⊢
        split_ifs at hw
        · simp at hw
        · exact hw
      · simp only [substVars, hb, if_false, lookup_erase_ex hb] at hw ⊢
        split_ifs at hw
        · simp at hw
        · exact hw
    refine ⟨fun v hv _ w hw => ?_, noCaptureF_of f (s.erase vs) (fun v hv => ?_)
      (fun w hw => h2 w (er p w hw)) k.2⟩
    · by_cases hp : v = p
      · subst hp
        exact k.1 hv w (h2 w hw)
      · rw [h1 v hp] at hw; simp at hw
    · refine List.eq_nil_iff_forall_not_mem.mpr fun w hw => ?_
      have := er v w hw
      rw [h1 v hv] at this
      simp at this
theorem noCaptureFs_of {p : Variable} {A : List Variable} : ∀ (fs : List Fml) (s : Subst),
    (∀ v, v ≠ p → substVars s v = []) → (∀ w ∈ substVars s p, w ∈ A) →
    HerFs (fun _ => True) (fun _ => True) (SafeQ p A) fs → NoCaptureFs s fs
  | [], _, _, _, _ => by simp [NoCaptureFs]
  | f :: fs, s, h1, h2, k => ⟨noCaptureF_of f s h1 h2 k.1, noCaptureFs_of fs s h1 h2 k.2⟩
end

/-! ## One-entry substitutions -/

/-- A substitution with at most the entry `p ↦ a`. -/
def OneOf (p : Variable) (a : Term) (s : Subst) : Prop :=
  (∀ v e, lookupV v s.ex = some e → v = p ∧ .expr e = a) ∧
  (∀ v f, lookupV v s.fm = some f → v = p ∧ .fml f = a)

theorem OneOf.erase {p a s} (h : OneOf p a s) (vs : List Variable) : OneOf p a (s.erase vs) := by
  refine ⟨fun v e he => ?_, fun v f hf => ?_⟩
  · have := lookupV_filter (fun v => ¬ (v ∈ vs ∧ v.type ≠ .boolean)) v s.ex
    simp only [Subst.erase] at he
    rw [this] at he
    split_ifs at he
    exact h.1 v e he
  · have := lookupV_filter (fun v => ¬ (v ∈ vs ∧ v.type = .boolean)) v s.fm
    simp only [Subst.erase] at hf
    rw [this] at hf
    split_ifs at hf
    exact h.2 v f hf

theorem oneOf_single {p : Variable} {a : Term} (h : a.checkType p.type = true) :
    OneOf p a (single p a) := by
  obtain ⟨i, ty⟩ := p
  constructor
  · intro v e he
    cases ty <;> cases a <;> simp [Term.checkType] at h <;> simp [single, lookupV] at he <;>
      exact ⟨he.1.symm, by rw [he.2]⟩
  · intro v e he
    cases ty <;> cases a <;> simp [Term.checkType] at h <;> simp [single, lookupV] at he
    exact ⟨he.1.symm, by rw [he.2]⟩

theorem substVars_single {p : Variable} {a : Term} (h : a.checkType p.type = true) :
    (∀ v, v ≠ p → substVars (single p a) v = []) ∧ ∀ w ∈ substVars (single p a) p, w ∈ a.fv := by
  have k := oneOf_single h
  refine ⟨fun v hv => ?_, fun w hw => ?_⟩
  · unfold substVars
    split
    · cases hl : lookupV v (single p a).fm with
      | none => rfl
      | some f => exact absurd (k.2 v f hl).1 hv
    · cases hl : lookupV v (single p a).ex with
      | none => rfl
      | some f => exact absurd (k.1 v f hl).1 hv
  · unfold substVars at hw
    split at hw
    · cases hl : lookupV p (single p a).fm with
      | none => rw [hl] at hw; simp at hw
      | some f => rw [hl] at hw; rw [← (k.2 p f hl).2]; exact hw
    · cases hl : lookupV p (single p a).ex with
      | none => rw [hl] at hw; simp at hw
      | some f => rw [hl] at hw; rw [← (k.1 p f hl).2]; exact hw

/-- The number for a value: truth is 1. -/
noncomputable def toNum : SVal → ℝ
  | .num x => x
  | .tf p => open Classical in if p then 1 else 0
  | .bad => 0

theorem rebind_single {p : Variable} {a : Term} (h : a.checkType p.type = true) :
    rebind I ρ (single p a) = fun v => if v = p then toNum (valT I ρ a) else ρ v := by
  funext v
  obtain ⟨i, ty⟩ := p
  by_cases hv : v = ⟨i, ty⟩
  · subst hv
    cases ty <;> cases a <;> simp [Term.checkType] at h <;>
      simp [rebind, single, lookupV, valT, toNum]
  · have hv' : ¬ (⟨i, ty⟩ : Variable) = v := fun h => hv h.symm
    by_cases hb : v.type = .boolean <;> cases ty <;> cases a <;> simp [Term.checkType] at h <;>
      simp [rebind, single, lookupV, hv, hv', hb]

/-! ## One step -/

theorem subst_sorted {t a : Term} {p} (h : a.checkType p.type = true) (ht : TSorted t)
    (ha : TSorted a) : TSorted (t.substitute p a) := by
  have k := oneOf_single h
  have key := fun n => sub_her (Pv := fun v => v.type ≠ .boolean) (Pb := fun v => v.type = .boolean)
    (Q := fun _ _ => True) (S := OneOf p a) (fun s vs h => h.erase vs)
    (fun s v e hs hl => (sortedE_iff e).mp (by have := (hs.1 v e hl).2; subst this; exact ha))
    (fun s v f hs hl => (sortedF_iff f).mp (by have := (hs.2 v f hl).2; subst this; exact ha))
    (fun _ _ _ _ _ _ => trivial) n
  cases t with
  | expr e => exact (sortedE_iff _).mpr ((key _).1 e _ le_rfl ht k ((sortedE_iff e).mp ht))
  | fml f => exact (sortedF_iff _).mpr ((key _).2 f _ le_rfl ht k ((sortedF_iff f).mp ht))

theorem subIn_single {p : Variable} {a : Term} (h : a.checkType p.type = true)
    {P : Variable → Prop} {v : Variable} (h1 : v ≠ p → P v) (h2 : v = p → ∀ w ∈ a.fv, P w) :
    SubIn P (single p a) v := by
  obtain ⟨i, ty⟩ := p
  by_cases hv : v = ⟨i, ty⟩
  · subst hv
    cases ty <;> cases a <;> simp [Term.checkType] at h <;>
      simpa [SubIn, single, lookupV, Term.fv] using h2 rfl
  · have hv' : ¬ (⟨i, ty⟩ : Variable) = v := fun h => hv h.symm
    by_cases hb : v.type = .boolean <;> cases ty <;> cases a <;> simp [Term.checkType] at h <;>
      simpa [SubIn, single, lookupV, hv', hb] using h1 hv

theorem subst_fv {t a : Term} {p} (h : a.checkType p.type = true) (ht : TSorted t)
    {P : Variable → Prop} (h1 : ∀ v ∈ t.fv, v ≠ p → P v) (h2 : ∀ w ∈ a.fv, P w) :
    ∀ w ∈ (t.substitute p a).fv, P w := by
  cases t with
  | expr e => exact (sub_fv _).1 e _ P le_rfl ht fun v hv => subIn_single h (h1 v hv) fun _ => h2
  | fml f => exact (sub_fv _).2 f _ P le_rfl ht fun v hv => subIn_single h (h1 v hv) fun _ => h2

/-- Properties of quantifiers that depend only on the bound variables. -/
theorem subst_tq {t a : Term} {p} (h : a.checkType p.type = true) (ht : TSorted t)
    {B : Variable → Prop} (h1 : TQ (fun vs _ => ∀ v ∈ vs, B v) t)
    (h2 : TQ (fun vs _ => ∀ v ∈ vs, B v) a) :
    TQ (fun vs _ => ∀ v ∈ vs, B v) (t.substitute p a) := by
  have k := oneOf_single h
  have key := fun n => sub_her (Pv := fun _ => True) (Pb := fun _ => True)
    (Q := fun vs _ => ∀ v ∈ vs, B v) (S := OneOf p a) (fun s vs h => h.erase vs)
    (fun s v e hs hl => by have := (hs.1 v e hl).2; subst this; exact h2)
    (fun s v f hs hl => by have := (hs.2 v f hl).2; subst this; exact h2)
    (fun _ vs _ _ _ hq v hv => hq v (List.mem_filter.mp hv).1) n
  cases t with
  | expr e => exact (key _).1 e _ le_rfl ht k h1
  | fml f => exact (key _).2 f _ le_rfl ht k h1

theorem subst_safe {t a : Term} {p p'} {A : List Variable} (h : a.checkType p.type = true)
    (ht : TSorted t) (h1 : TQ (SafeQ p' A) t) (h2 : TQ (SafeQ p' A) a) (h3 : p' ∉ a.fv) :
    TQ (SafeQ p' A) (t.substitute p a) := by
  have k := oneOf_single h
  have key := fun n => sub_her (Pv := fun _ => True) (Pb := fun _ => True)
    (Q := SafeQ p' A) (S := OneOf p a) (fun s vs h => h.erase vs)
    (fun s v e hs hl => by have := (hs.1 v e hl).2; subst this; exact h2)
    (fun s v f hs hl => by have := (hs.2 v f hl).2; subst this; exact h2)
    (fun s vs f hs hk hq hp w hw hf => by
      have hs' := hs.erase vs
      have := (sub_fv _).2 f (s.erase vs) (fun w => w = p' → p' ∈ f.fv) le_rfl hk (fun v hv => by
        unfold SubIn
        split
        · cases hl : lookupV v (s.erase vs).fm with
          | none => exact fun e => e ▸ hv
          | some g =>
            have e := (hs'.2 v g hl).2
            subst e
            exact fun w hw e => absurd (e ▸ hw) h3
        · cases hl : lookupV v (s.erase vs).ex with
          | none => exact fun e => e ▸ hv
          | some g =>
            have e := (hs'.1 v g hl).2
            subst e
            exact fun w hw e => absurd (e ▸ hw) h3) p' hp rfl
      exact hq this w hw (List.mem_filter.mp hf).1) n
  cases t with
  | expr e => exact (key _).1 e _ le_rfl ht k h1
  | fml f => exact (key _).2 f _ le_rfl ht k h1

theorem subst_val {t a : Term} {p} (h : a.checkType p.type = true) (ht : TSorted t)
    (hs : TQ (SafeQ p a.fv) t) :
    valT I ρ (t.substitute p a) = valT I (fun v => if v = p then toNum (valT I ρ a) else ρ v) t := by
  have k := substVars_single h
  rw [← rebind_single h]
  cases t with
  | expr e =>
    simp only [Term.substitute, valT]
    rw [(sub_spec _).1 e _ ρ le_rfl ht (noCaptureE_of e _ k.1 k.2 hs)]
  | fml f =>
    simp only [Term.substitute, valT]
    rw [propext ((sub_spec _).2 f _ le_rfl ht (noCaptureF_of f _ k.1 k.2 hs) ρ)]

/-! ## The loop -/

/-- Valuation with the parameters bound to values. -/
noncomputable def bindV (ρ : Valuation) : List Variable → List SVal → Valuation
  | p :: ps, x :: xs => fun v => if v = p then toNum x else bindV ρ ps xs v
  | _, _ => ρ

theorem bindV_out {ps xs} {v : Variable} (h : v ∉ ps) : bindV ρ ps xs v = ρ v := by
  induction ps generalizing xs with
  | nil => cases xs <;> rfl
  | cons p ps ih =>
    simp only [List.mem_cons, not_or] at h
    cases xs with
    | nil => rfl
    | cons x xs => simp [bindV, h.1, ih h.2]

/-- What a function application needs of the arguments. -/
structure ArgsOk (ps : List Variable) (as : List Term) : Prop where
  sorted : ∀ a ∈ as, TSorted a
  free : ∀ p ∈ ps, ∀ a ∈ as, p ∉ a.fv
  bound : ∀ p ∈ ps, ∀ a ∈ as, TQ (fun vs _ => p ∉ vs) a

theorem TQ.safe {p A} {a : Term} (h : p ∉ a.fv) (h' : TQ (fun vs _ => p ∉ vs) a) :
    TQ (SafeQ p A) a := by
  cases a with
  | expr e => exact herE_mono (fun vs f hf hp => absurd hp hf) e (herE_absent e h h')
  | fml f => exact herF_mono (fun vs f hf hp => absurd hp hf) f (herF_absent f h h')

theorem applyLoop_spec : ∀ {ps : List Variable} {as : List Term} {t r : Term},
    applyLoop ps as t = .ok r → ps.length = as.length → ArgsOk ps as → TSorted t →
    (∀ q ∈ ps.zip as, TQ (SafeQ q.1 q.2.fv) t) →
    TSorted r ∧
    (∀ ρ, valT I ρ r = valT I (bindV ρ ps (as.map (valT I ρ))) t) ∧
    (∀ P : Variable → Prop, (∀ v ∈ t.fv, v ∉ ps → P v) → (∀ a ∈ as, ∀ v ∈ a.fv, P v) →
      ∀ v ∈ r.fv, P v) ∧
    (∀ B : Variable → Prop, TQ (fun vs _ => ∀ v ∈ vs, B v) t →
      (∀ a ∈ as, TQ (fun vs _ => ∀ v ∈ vs, B v) a) → TQ (fun vs _ => ∀ v ∈ vs, B v) r)
  | [], as, t, r, h, hl, _, ht, _ => by
    cases as with
    | nil =>
      simp only [applyLoop, Outcome.ok.injEq] at h
      subst h
      exact ⟨ht, fun ρ => by simp [bindV], fun P h1 _ v hv => h1 v hv (by simp), fun B h1 _ => h1⟩
    | cons a as => simp at hl
  | p :: ps, [], t, r, h, hl, _, ht, _ => by simp at hl
  | p :: ps, a :: as, t, r, h, hl, ok, ht, hs => by
    simp only [applyLoop] at h
    split_ifs at h with hc
    have ha := ok.sorted a (by simp)
    have hst := subst_sorted hc ht ha
    obtain ⟨h1, h2, h3, h4⟩ := applyLoop_spec h (by simpa using hl)
      ⟨fun x hx => ok.sorted x (by simp [hx]), fun q hq x hx => ok.free q (by simp [hq]) x (by simp [hx]),
        fun q hq x hx => ok.bound q (by simp [hq]) x (by simp [hx])⟩ hst
      (fun q hq => by
        have hq1 : q.1 ∈ ps := (List.of_mem_zip hq).1
        exact subst_safe hc ht (hs q (by simp [hq]))
          (TQ.safe (ok.free q.1 (by simp [hq1]) a (by simp)) (ok.bound q.1 (by simp [hq1]) a (by simp)))
          (ok.free q.1 (by simp [hq1]) a (by simp)))
    refine ⟨h1, fun ρ => ?_, fun P k1 k2 => ?_, fun B k1 k2 => ?_⟩
    · rw [h2 ρ, subst_val hc ht (hs (p, a) (by simp))]
      congr 1
      have : valT I (bindV ρ ps (as.map (valT I ρ))) a = valT I ρ a :=
        valT_congr fun v hv => bindV_out fun hp => ok.free v (by simp [hp]) a (by simp) hv
      funext v
      simp only [List.map_cons, bindV, this]
    · refine h3 P (fun v hv hp => ?_) fun x hx => k2 x (by simp [hx])
      refine subst_fv hc ht (P := fun v => v ∉ ps → P v) (fun v hv hne hp => ?_) (fun w hw _ => ?_) v hv hp
      · exact k1 v hv (by simp [hne, hp])
      · exact k2 a (by simp) w hw
    · exact h4 B (subst_tq hc ht k1 (k2 a (by simp))) fun x hx => k2 x (by simp [hx])

theorem applyLoop_kinds : ∀ {ps : List Variable} {as : List Term} {t r : Term},
    applyLoop ps as t = .ok r → ps.length = as.length →
    List.Forall₂ (fun p a => Term.checkType a p.type = true) ps as
  | [], as, t, r, h, hl => by
    cases as with
    | nil => exact .nil
    | cons a as => simp at hl
  | p :: ps, [], t, r, h, hl => by simp at hl
  | p :: ps, a :: as, t, r, h, hl => by
    simp only [applyLoop] at h
    split_ifs at h with hc
    exact .cons hc (applyLoop_kinds h (by simpa using hl))

/-! ## Eliminating Boolean variables -/

theorem substVars_const {b : Variable} {c : Fml} (hc : c.fv = []) (v : Variable) :
    substVars ⟨[], [(b, c)]⟩ v = [] := by
  unfold substVars
  split
  · simp only [lookupV]
    split_ifs
    · exact hc
    · rfl
  · rfl

theorem checkType_bool {b : Variable} (hb : b.type = .boolean) (c : Fml) :
    (Term.fml c).checkType b.type = true := by rw [hb]; rfl

theorem single_bool {b : Variable} (hb : b.type = .boolean) (c : Fml) :
    single b (.fml c) = ⟨[], [(b, c)]⟩ := by simp [single, hb]

/-- One variable. -/
def elim1 (b : Variable) (f : Fml) : Fml :=
  if b.type = .boolean then andF (subF ⟨[], [(b, .tt)]⟩ f) (subF ⟨[], [(b, .ff)]⟩ f) else f

theorem elimBool_cons {b : Variable} {bs f} : elimBool (b :: bs) f = elimBool bs (elim1 b f) := rfl

theorem safe_const {b : Variable} {c : Fml} (hc : c.fv = []) (t : Term) : TQ (SafeQ b c.fv) t := by
  have h : ∀ vs f, SafeQ b c.fv vs f := fun vs f _ w hw => by rw [hc] at hw; simp at hw
  have e : ∀ t : Term, TQ (fun _ _ => True) t := by
    have key : ∀ n, (∀ e : Expr, sizeOf e ≤ n →
        HerE (fun _ => True) (fun _ => True) (fun _ _ => True) e) ∧
        (∀ f : Fml, sizeOf f ≤ n → HerF (fun _ => True) (fun _ => True) (fun _ _ => True) f) := by
      intro n
      induction n with
      | zero => exact ⟨fun e hs => by cases e <;> simp at hs, fun f hs => by cases f <;> simp at hs⟩
      | succ n ih =>
        refine ⟨fun e hs => ?_, fun f hs => ?_⟩
        · cases e <;> simp only [HerE, Expr.add.sizeOf_spec, Expr.mul.sizeOf_spec,
            Expr.app1.sizeOf_spec, Expr.app2.sizeOf_spec, Expr.ite.sizeOf_spec] at hs ⊢
          · exact ⟨ih.1 _ (by omega), ih.1 _ (by omega)⟩
          · exact ⟨ih.1 _ (by omega), ih.1 _ (by omega)⟩
          · exact ih.1 _ (by omega)
          · exact ⟨ih.1 _ (by omega), ih.1 _ (by omega)⟩
          · exact ⟨ih.2 _ (by omega), ih.1 _ (by omega), ih.1 _ (by omega)⟩
        · cases f with
          | ff => trivial
          | tt => trivial
          | bvar _ => trivial
          | rel o a b =>
            simp only [Fml.rel.sizeOf_spec] at hs
            exact ⟨ih.1 _ (by omega), ih.1 _ (by omega)⟩
          | conj fs =>
            simp only [Fml.conj.sizeOf_spec] at hs
            exact her_conj.mpr fun g hg => ih.2 g (by have := List.sizeOf_lt_of_mem hg; omega)
          | disj fs =>
            simp only [Fml.disj.sizeOf_spec] at hs
            exact her_disj.mpr fun g hg => ih.2 g (by have := List.sizeOf_lt_of_mem hg; omega)
          | neg f =>
            simp only [Fml.neg.sizeOf_spec] at hs
            exact ih.2 f (by omega)
          | all vs f =>
            simp only [Fml.all.sizeOf_spec] at hs
            exact ⟨trivial, ih.2 f (by omega)⟩
    intro t
    cases t with
    | expr e => exact (key _).1 e le_rfl
    | fml f => exact (key _).2 f le_rfl
  exact (e t).mono fun vs f _ => h vs f

theorem elim1_spec {b : Variable} {f : Fml} (hf : SortedF f) :
    SortedF (elim1 b f) ∧
    (∀ P : Variable → Prop, (∀ v ∈ f.fv, (v.type = .boolean → v ≠ b) → P v) → FvIn P (elim1 b f)) ∧
    (∀ B : Variable → Prop, TQ (fun vs _ => ∀ v ∈ vs, B v) (.fml f) →
      TQ (fun vs _ => ∀ v ∈ vs, B v) (.fml (elim1 b f))) ∧
    ∀ ρ, holds I ρ (elim1 b f) ↔ if b.type = .boolean then
      ∀ x : ℝ, x = 0 ∨ x = 1 → holds I (fun v => if v = b then x else ρ v) f else holds I ρ f := by
  by_cases hb : b.type = .boolean
  · have c1 := checkType_bool hb .tt
    have c0 := checkType_bool hb .ff
    have s1 : TSorted (.fml .tt) := by simp [TSorted, SortedF]
    have s0 : TSorted (.fml .ff) := by simp [TSorted, SortedF]
    have e1 : subF ⟨[], [(b, .tt)]⟩ f = subF (single b (.fml .tt)) f := by rw [single_bool hb]
    have e0 : subF ⟨[], [(b, .ff)]⟩ f = subF (single b (.fml .ff)) f := by rw [single_bool hb]
    simp only [elim1, hb, if_true, e1, e0]
    refine ⟨?_, fun P h => ?_, fun B h => ?_, fun ρ => ?_⟩
    · have k1 := subst_sorted (t := .fml f) c1 hf s1
      have k0 := subst_sorted (t := .fml f) c0 hf s0
      exact (sortedF_iff _).mpr (her_andF ((sortedF_iff _).mp k1) ((sortedF_iff _).mp k0))
    · exact FvIn.andF (subst_fv (t := .fml f) c1 hf (fun v hv hne => h v hv fun _ => hne)
          (by simp [Term.fv, Fml.fv]))
        (subst_fv (t := .fml f) c0 hf (fun v hv hne => h v hv fun _ => hne) (by simp [Term.fv, Fml.fv]))
    · exact her_andF (subst_tq (t := .fml f) c1 hf h (by simp [TQ, HerF]))
        (subst_tq (t := .fml f) c0 hf h (by simp [TQ, HerF]))
    · have v1 := subst_val (I := I) (ρ := ρ) (t := .fml f) c1 hf (safe_const rfl _)
      have v0 := subst_val (I := I) (ρ := ρ) (t := .fml f) c0 hf (safe_const rfl _)
      simp only [Term.substitute, valT, SVal.tf.injEq, toNum, holds_tt, holds_ff, if_true, if_false]
        at v1 v0
      rw [holds_andF, v1, v0]
      constructor
      · rintro ⟨a, c⟩ x (rfl | rfl)
        exacts [c, a]
      · intro h
        exact ⟨h 1 (.inr rfl), h 0 (.inl rfl)⟩
  · simp only [elim1, hb, if_false]
    exact ⟨hf, fun P h v hv => h v hv fun e => (fun h' => hb (h' ▸ e)), fun B h => h, fun ρ => trivial⟩

theorem elimBool_spec : ∀ {bs : List Variable} {f : Fml}, SortedF f →
    SortedF (elimBool bs f) ∧
    (∀ P : Variable → Prop, (∀ v ∈ f.fv, (v.type = .boolean → v ∉ bs) → P v) →
      FvIn P (elimBool bs f)) ∧
    (∀ B : Variable → Prop, TQ (fun vs _ => ∀ v ∈ vs, B v) (.fml f) →
      TQ (fun vs _ => ∀ v ∈ vs, B v) (.fml (elimBool bs f))) ∧
    ∀ ρ, holds I ρ (elimBool bs f) ↔ ∀ ρ' : Valuation,
      (∀ v, (v.type = .boolean → v ∉ bs) → ρ' v = ρ v) →
      (∀ v ∈ bs, v.type = .boolean → ρ' v = 0 ∨ ρ' v = 1) → holds I ρ' f
  | [], f, hf => ⟨hf, fun P h v hv => h v hv (by simp), fun B h => h, fun ρ => by
      constructor
      · intro h ρ' e _
        have : ρ' = ρ := funext fun v => e v (by simp)
        rw [this]; exact h
      · intro h
        exact h ρ (fun _ _ => rfl) (by simp)⟩
  | b :: bs, f, hf => by
    obtain ⟨h1, h2, h3, h4⟩ := elim1_spec (I := I) (b := b) hf
    obtain ⟨k1, k2, k3, k4⟩ := elimBool_spec (bs := bs) h1
    rw [elimBool_cons]
    refine ⟨k1, fun P h => k2 P ?_, fun B h => k3 B (h3 B h), fun ρ => ?_⟩
    · exact fun v hv hvb => h2 (fun v => (v.type = .boolean → v ∉ bs) → P v)
        (fun v hv h0 h1 => h v hv fun e => by simp [h0 e, h1 e]) v hv hvb
    · rw [k4 ρ]
      by_cases hb : b.type = .boolean
      · simp only [h4, hb, if_true]
        constructor
        · intro h ρ' e1 e2
          have := h (fun v => if v ∈ bs ∧ v.type = .boolean then ρ' v else ρ v) ?_ ?_
            (ρ' b) (e2 b (by simp) hb)
          · refine (holds_congr I f _ _ fun v _ => ?_).mp this
            by_cases hv : v = b
            · simp [hv]
            · by_cases hv2 : v ∈ bs ∧ v.type = .boolean
              · simp [hv, hv2]
              · simp only [hv, if_false, hv2]
                refine (e1 v fun e => ?_).symm
                simp only [List.mem_cons, hv, false_or]
                exact fun hm => hv2 ⟨hm, e⟩
          · intro v hv
            simp only [show ¬ (v ∈ bs ∧ v.type = .boolean) from fun h => hv h.2 h.1, if_false]
          · intro v hv e
            simp only [hv, e, and_self, if_true]
            exact e2 v (by simp [hv]) e
        · intro h ρ' e1 e2 x hx
          refine h _ (fun v hv => ?_) (fun v hv e => ?_)
          · by_cases hvb : v = b
            · exact absurd (by simp [hvb]) (hv (hvb ▸ hb))
            · simp only [hvb, if_false]
              exact e1 v fun e => by have := hv e; simp at this; exact this.2
          · by_cases hvb : v = b
            · simpa [hvb] using hx
            · simp only [hvb, if_false]
              exact e2 v (by simpa [hvb] using hv) e
      · simp only [h4, hb, if_false]
        have e : ∀ v : Variable, (v.type = .boolean → v ∉ bs) ↔ (v.type = .boolean → v ∉ b :: bs) := by
          intro v
          refine forall_congr' fun e => ?_
          have : v ≠ b := fun h => hb (h ▸ e)
          simp [this]
        refine forall_congr' fun ρ' => ?_
        simp only [e]
        refine forall_congr' fun _ => ?_
        have : (∀ v ∈ bs, v.type = .boolean → ρ' v = 0 ∨ ρ' v = 1) ↔
            ∀ v ∈ b :: bs, v.type = .boolean → ρ' v = 0 ∨ ρ' v = 1 := by
          simp [hb]
        rw [this]

end Verif.Proof.Smt2
