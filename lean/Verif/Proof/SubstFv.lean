import Verif.Proof.Subst
import Verif.Proof.Fv

/-! # Free variables, sorts and quantifiers of the result of a substitution -/

namespace Verif.Proof
open Verif Verif.Model Verif.Spec

/-! ## Predicates on all subterms -/

mutual
/-- Every variable in a term satisfies `Pv`, every Boolean one `Pb`, every quantifier `Q`. -/
def HerE (Pv Pb : Variable → Prop) (Q : List Variable → Fml → Prop) : Expr → Prop
  | .const _ => True
  | .rconst _ => True
  | .var v => Pv v
  | .add a b => HerE Pv Pb Q a ∧ HerE Pv Pb Q b
  | .mul a b => HerE Pv Pb Q a ∧ HerE Pv Pb Q b
  | .app1 _ a => HerE Pv Pb Q a
  | .app2 _ a b => HerE Pv Pb Q a ∧ HerE Pv Pb Q b
  | .ite c a b => HerF Pv Pb Q c ∧ HerE Pv Pb Q a ∧ HerE Pv Pb Q b
def HerF (Pv Pb : Variable → Prop) (Q : List Variable → Fml → Prop) : Fml → Prop
  | .ff => True
  | .tt => True
  | .bvar v => Pb v
  | .rel _ a b => HerE Pv Pb Q a ∧ HerE Pv Pb Q b
  | .conj fs => HerFs Pv Pb Q fs
  | .disj fs => HerFs Pv Pb Q fs
  | .neg f => HerF Pv Pb Q f
  | .all vs f => Q vs f ∧ HerF Pv Pb Q f
def HerFs (Pv Pb : Variable → Prop) (Q : List Variable → Fml → Prop) : List Fml → Prop
  | [] => True
  | f :: fs => HerF Pv Pb Q f ∧ HerFs Pv Pb Q fs
end

section
variable {Pv Pb : Variable → Prop} {Q : List Variable → Fml → Prop}

theorem herFs_iff {fs} : HerFs Pv Pb Q fs ↔ ∀ f ∈ fs, HerF Pv Pb Q f := by
  induction fs with
  | nil => simp [HerFs]
  | cons f fs ih => simp [HerFs, ih]

theorem her_conj {fs} : HerF Pv Pb Q (.conj fs) ↔ ∀ f ∈ fs, HerF Pv Pb Q f := by
  rw [HerF, herFs_iff]

theorem her_disj {fs} : HerF Pv Pb Q (.disj fs) ↔ ∀ f ∈ fs, HerF Pv Pb Q f := by
  rw [HerF, herFs_iff]

theorem her_notF {f} (h : HerF Pv Pb Q f) : HerF Pv Pb Q (notF f) := by
  unfold notF
  split_ifs
  · simp [HerF]
  · simp [HerF]
  · split
    · exact h
    · exact h

theorem her_andF {f g} (hf : HerF Pv Pb Q f) (hg : HerF Pv Pb Q g) : HerF Pv Pb Q (andF f g) := by
  unfold andF
  split_ifs
  · exact hf
  · simp [HerF]
  · exact hg
  · exact hf
  · exact hf
  · split
    · exact her_conj.mpr (mergeConj_mem (fun _ => her_conj.mp) hg (her_conj.mp hf))
    · exact her_conj.mpr (mergeConj_mem (fun _ => her_conj.mp) hf (her_conj.mp hg))
    · refine her_conj.mpr (fun x hx => ?_)
      simp only [mem_insertF, List.not_mem_nil, or_false] at hx
      rcases hx with rfl | rfl <;> assumption

theorem her_orF {f g} (hf : HerF Pv Pb Q f) (hg : HerF Pv Pb Q g) : HerF Pv Pb Q (orF f g) := by
  unfold orF
  split_ifs
  · exact hf
  · simp [HerF]
  · exact hg
  · exact hf
  · exact hf
  · split
    · exact her_disj.mpr (mergeDisj_mem (fun _ => her_disj.mp) hg (her_disj.mp hf))
    · exact her_disj.mpr (mergeDisj_mem (fun _ => her_disj.mp) hf (her_disj.mp hg))
    · refine her_disj.mpr (fun x hx => ?_)
      simp only [mem_insertF, List.not_mem_nil, or_false] at hx
      rcases hx with rfl | rfl <;> assumption

theorem her_mkRel {op a b} (ha : HerE Pv Pb Q a) (hb : HerE Pv Pb Q b) :
    HerF Pv Pb Q (mkRel op a b) := by
  unfold mkRel
  split
  · split_ifs <;> simp [HerF]
  · exact ⟨ha, hb⟩

theorem her_mkIte {c a b} (hc : HerF Pv Pb Q c) (ha : HerE Pv Pb Q a) (hb : HerE Pv Pb Q b) :
    HerE Pv Pb Q (mkIte c a b) := by
  unfold mkIte
  split_ifs
  exacts [ha, hb, ⟨hc, ha, hb⟩]

mutual
theorem sortedE_iff : ∀ e : Expr,
    SortedE e ↔ HerE (fun v => v.type ≠ .boolean) (fun v => v.type = .boolean) (fun _ _ => True) e
  | .const _ => by simp [SortedE, HerE]
  | .rconst _ => by simp [SortedE, HerE]
  | .var _ => by simp [SortedE, HerE]
  | .add a b => by simp [SortedE, HerE, sortedE_iff a, sortedE_iff b]
  | .mul a b => by simp [SortedE, HerE, sortedE_iff a, sortedE_iff b]
  | .app1 _ a => by simp [SortedE, HerE, sortedE_iff a]
  | .app2 _ a b => by simp [SortedE, HerE, sortedE_iff a, sortedE_iff b]
  | .ite c a b => by simp [SortedE, HerE, sortedE_iff a, sortedE_iff b, sortedF_iff c]
theorem sortedF_iff : ∀ f : Fml,
    SortedF f ↔ HerF (fun v => v.type ≠ .boolean) (fun v => v.type = .boolean) (fun _ _ => True) f
  | .ff => by simp [SortedF, HerF]
  | .tt => by simp [SortedF, HerF]
  | .bvar _ => by simp [SortedF, HerF]
  | .rel _ a b => by simp [SortedF, HerF, sortedE_iff a, sortedE_iff b]
  | .conj fs => by simp [SortedF, HerF, sortedFs_iff' fs]
  | .disj fs => by simp [SortedF, HerF, sortedFs_iff' fs]
  | .neg f => by simp [SortedF, HerF, sortedF_iff f]
  | .all _ f => by simp [SortedF, HerF, sortedF_iff f]
theorem sortedFs_iff' : ∀ fs : List Fml,
    SortedFs fs ↔ HerFs (fun v => v.type ≠ .boolean) (fun v => v.type = .boolean)
      (fun _ _ => True) fs
  | [] => by simp [SortedFs, HerFs]
  | f :: fs => by simp [SortedFs, HerFs, sortedF_iff f, sortedFs_iff' fs]
end

end

/-! ## Free variables -/

/-- What replaces `v` has all its variables in `P`. -/
def SubIn (P : Variable → Prop) (s : Subst) (v : Variable) : Prop :=
  if v.type = .boolean then
    match lookupV v s.fm with
    | some f => ∀ w ∈ f.fv, P w
    | none => P v
  else
    match lookupV v s.ex with
    | some e => ∀ w ∈ e.vars, P w
    | none => P v

theorem SubIn.erase_in {P : Variable → Prop} {s : Subst} {vs v} (h : v ∈ vs) (hp : P v) :
    SubIn P (s.erase vs) v := by
  unfold SubIn
  split
  · rename_i hb; rw [lookup_erase_fm hb]; simpa [h] using hp
  · rename_i hb; rw [lookup_erase_ex hb]; simpa [h] using hp

theorem SubIn.erase_out {P : Variable → Prop} {s : Subst} {vs v} (h : v ∉ vs)
    (hp : SubIn P s v) : SubIn P (s.erase vs) v := by
  unfold SubIn at hp ⊢
  split
  · rename_i hb; rw [lookup_erase_fm hb]; simpa [h, hb] using hp
  · rename_i hb; rw [lookup_erase_ex hb]; simpa [h, hb] using hp

theorem SubIn.mono {P P' : Variable → Prop} {s : Subst} {v} (h : SubIn P s v)
    (hp : ∀ w, P w → P' w) : SubIn P' s v := by
  unfold SubIn at h ⊢
  split
  · rename_i hb
    simp only [hb, if_true] at h
    cases hl : lookupV v s.fm with
    | none => rw [hl] at h; exact hp _ h
    | some f => rw [hl] at h; exact fun w hw => hp _ (h w hw)
  · rename_i hb
    simp only [hb, if_false] at h
    cases hl : lookupV v s.ex with
    | none => rw [hl] at h; exact hp _ h
    | some f => rw [hl] at h; exact fun w hw => hp _ (h w hw)

theorem subAnd_ind {R : Fml → Prop} (hff : R .ff) (hand : ∀ f g, R f → R g → R (andF f g))
    {s : Subst} {fs : List Fml} (h : ∀ f ∈ fs, R (subF s f)) :
    ∀ ret ch, R ret → R (subAnd s ret ch fs).1 := by
  induction fs with
  | nil => intro ret ch hr; simpa [subAnd] using hr
  | cons f fs ih =>
    intro ret ch hr
    simp only [subAnd]
    split
    · exact hff
    · exact ih (fun g hg => h g (by simp [hg])) _ _ (hand _ _ hr (h f (by simp)))

theorem subOr_ind {R : Fml → Prop} (htt : R .tt) (hor : ∀ f g, R f → R g → R (orF f g))
    {s : Subst} {fs : List Fml} (h : ∀ f ∈ fs, R (subF s f)) :
    ∀ ret ch, R ret → R (subOr s ret ch fs).1 := by
  induction fs with
  | nil => intro ret ch hr; simpa [subOr] using hr
  | cons f fs ih =>
    intro ret ch hr
    simp only [subOr]
    split
    · exact htt
    · exact ih (fun g hg => h g (by simp [hg])) _ _ (hor _ _ hr (h f (by simp)))

/-- A property of results that survives the constructors holds of the result of substituting in a
conjunction. -/
theorem sub_conj {R : Fml → Prop} (hff : R .ff) (htt : R .tt)
    (hand : ∀ f g, R f → R g → R (andF f g)) {s : Subst} {fs : List Fml}
    (h : ∀ f ∈ fs, R (subF s f)) (h' : (∀ f ∈ fs, subF s f = f) → R (.conj fs)) :
    R (subF s (.conj fs)) := by
  have h1 := subAnd_ind hff hand h .tt false htt
  simp only [subF]
  split
  · rename_i r hr; rw [hr] at h1; exact h1
  · rename_i r hr
    refine h' fun f hf => ?_
    have key : ∀ (fs : List Fml) ret ch, (subAnd s ret ch fs).2 = false →
        ch = false ∧ ∀ f ∈ fs, subF s f = f := by
      intro fs
      induction fs with
      | nil => intro ret ch h; simpa [subAnd] using h
      | cons f fs ih =>
        intro ret ch h
        simp only [subAnd] at h
        split at h
        · simp at h
        · have := ih _ _ h
          simp only [ne_eq, Bool.or_eq_false_iff, decide_eq_false_iff_not, not_not] at this
          exact ⟨this.1.1, List.forall_mem_cons.mpr ⟨this.1.2, this.2⟩⟩
    exact (key fs .tt false (by rw [hr])).2 f hf

theorem sub_disj {R : Fml → Prop} (hff : R .ff) (htt : R .tt)
    (hor : ∀ f g, R f → R g → R (orF f g)) {s : Subst} {fs : List Fml}
    (h : ∀ f ∈ fs, R (subF s f)) (h' : (∀ f ∈ fs, subF s f = f) → R (.disj fs)) :
    R (subF s (.disj fs)) := by
  have h1 := subOr_ind htt hor h .ff false hff
  simp only [subF]
  split
  · rename_i r hr; rw [hr] at h1; exact h1
  · rename_i r hr
    refine h' fun f hf => ?_
    have key : ∀ (fs : List Fml) ret ch, (subOr s ret ch fs).2 = false →
        ch = false ∧ ∀ f ∈ fs, subF s f = f := by
      intro fs
      induction fs with
      | nil => intro ret ch h; simpa [subOr] using h
      | cons f fs ih =>
        intro ret ch h
        simp only [subOr] at h
        split at h
        · simp at h
        · have := ih _ _ h
          simp only [ne_eq, Bool.or_eq_false_iff, decide_eq_false_iff_not, not_not] at this
          exact ⟨this.1.1, List.forall_mem_cons.mpr ⟨this.1.2, this.2⟩⟩
    exact (key fs .ff false (by rw [hr])).2 f hf

theorem sub_fv : ∀ n : Nat,
    (∀ (e : Expr) (s : Subst) (P : Variable → Prop), sizeOf e ≤ n → SortedE e →
      (∀ v ∈ e.vars, SubIn P s v) → ∀ w ∈ (subE s e).vars, P w) ∧
    (∀ (f : Fml) (s : Subst) (P : Variable → Prop), sizeOf f ≤ n → SortedF f →
      (∀ v ∈ f.fv, SubIn P s v) → FvIn P (subF s f)) := by
  intro n
  induction n with
  | zero => exact ⟨fun e _ _ hs => by cases e <;> simp at hs, fun f _ _ hs => by cases f <;> simp at hs⟩
  | succ n ih =>
    obtain ⟨ihe, ihf⟩ := ih
    have two : ∀ (a b : Expr) (s : Subst) (P : Variable → Prop), sizeOf a ≤ n → sizeOf b ≤ n →
        SortedE a → SortedE b → (∀ v ∈ a.vars ++ b.vars, SubIn P s v) →
        (∀ w ∈ (subE s a).vars, P w) ∧ ∀ w ∈ (subE s b).vars, P w :=
      fun a b s P ha hb ka kb h =>
        ⟨ihe a s P ha ka fun v hv => h v (List.mem_append_left _ hv),
         ihe b s P hb kb fun v hv => h v (List.mem_append_right _ hv)⟩
    refine ⟨fun e s P hs hk h => ?_, fun f s P hs hk h => ?_⟩
    · cases e with
      | const q => simp [subE, Expr.vars]
      | rconst r => simp [subE, Expr.vars]
      | var v =>
        have h := h v (by simp [Expr.vars])
        simp only [SortedE] at hk
        simp only [SubIn, hk, if_false] at h
        simp only [subE]
        cases hl : lookupV v s.ex with
        | none => rw [hl] at h; simpa [Expr.vars] using h
        | some e => rw [hl] at h; exact h
      | add a b =>
        simp only [Expr.add.sizeOf_spec] at hs
        obtain ⟨h1, h2⟩ := two a b s P (by omega) (by omega) hk.1 hk.2 h
        intro w hw
        simp only [subE, Expr.vars, List.mem_append] at hw
        exact hw.elim (h1 w) (h2 w)
      | mul a b =>
        simp only [Expr.mul.sizeOf_spec] at hs
        obtain ⟨h1, h2⟩ := two a b s P (by omega) (by omega) hk.1 hk.2 h
        intro w hw
        simp only [subE, Expr.vars, List.mem_append] at hw
        exact hw.elim (h1 w) (h2 w)
      | app1 g a =>
        simp only [Expr.app1.sizeOf_spec] at hs
        exact ihe a s P (by omega) hk h
      | app2 g a b =>
        simp only [Expr.app2.sizeOf_spec] at hs
        obtain ⟨h1, h2⟩ := two a b s P (by omega) (by omega) hk.1 hk.2 h
        intro w hw
        simp only [subE, Expr.vars, List.mem_append] at hw
        exact hw.elim (h1 w) (h2 w)
      | ite c a b =>
        simp only [Expr.ite.sizeOf_spec] at hs
        simp only [Expr.vars, List.mem_append] at h
        have h0 := ihf c s P (by omega) hk.1 fun v hv => h v (.inl hv)
        have h1 := ihe a s P (by omega) hk.2.1 fun v hv => h v (.inr (.inl hv))
        have h2 := ihe b s P (by omega) hk.2.2 fun v hv => h v (.inr (.inr hv))
        have key : ∀ w ∈ (Expr.ite (subF s c) (subE s a) (subE s b)).vars, P w := by
          intro w hw
          simp only [Expr.vars, List.mem_append] at hw
          exact hw.elim (h0 w) fun hw => hw.elim (h1 w) (h2 w)
        simp only [subE]
        split
        · rename_i hh; rw [hh.1, hh.2.1, hh.2.2] at key; exact key
        · unfold mkIte
          split_ifs
          exacts [h1, h2, key]
    · cases f with
      | ff => simp [subF]
      | tt => simp [subF]
      | bvar v =>
        have h := h v (by simp [Fml.fv])
        simp only [SortedF] at hk
        simp only [SubIn, hk, if_true] at h
        simp only [subF]
        cases hl : lookupV v s.fm with
        | none => rw [hl] at h; simpa using h
        | some e => rw [hl] at h; exact h
      | rel op a b =>
        simp only [Fml.rel.sizeOf_spec] at hs
        obtain ⟨h1, h2⟩ := two a b s P (by omega) (by omega) hk.1 hk.2 h
        have key : FvIn P (.rel op (subE s a) (subE s b)) := by
          intro w hw
          simp only [Fml.fv, List.mem_append] at hw
          exact hw.elim (h1 w) (h2 w)
        simp only [subF]
        split
        · rename_i hh; rw [hh.1, hh.2] at key; exact key
        · exact key.mkRel
      | conj fs =>
        simp only [Fml.conj.sizeOf_spec] at hs
        have key : ∀ g ∈ fs, FvIn P (subF s g) := fun g hg => by
          have := List.sizeOf_lt_of_mem hg
          exact ihf g s P (by omega) (sortedFs_iff.mp hk g hg) fun v hv =>
            h v (by simp only [Fml.fv, Fml.mem_fvList]; exact ⟨g, hg, hv⟩)
        exact sub_conj (by simp) (by simp) (fun _ _ => FvIn.andF) key fun e =>
          FvIn_conj.mpr fun g hg => by have := key g hg; rwa [e g hg] at this
      | disj fs =>
        simp only [Fml.disj.sizeOf_spec] at hs
        have key : ∀ g ∈ fs, FvIn P (subF s g) := fun g hg => by
          have := List.sizeOf_lt_of_mem hg
          exact ihf g s P (by omega) (sortedFs_iff.mp hk g hg) fun v hv =>
            h v (by simp only [Fml.fv, Fml.mem_fvList]; exact ⟨g, hg, hv⟩)
        exact sub_disj (by simp) (by simp) (fun _ _ => FvIn.orF) key fun e =>
          FvIn_disj.mpr fun g hg => by have := key g hg; rwa [e g hg] at this
      | neg f =>
        simp only [Fml.neg.sizeOf_spec] at hs
        have h1 := ihf f s P (by omega) hk h
        simp only [subF]
        split
        · rename_i hh; rw [hh] at h1; simpa using h1
        · exact h1.notF
      | all vs f =>
        simp only [Fml.all.sizeOf_spec] at hs
        have h1 := ihf f (s.erase vs) (fun v => v ∈ vs ∨ P v) (by omega) hk fun v hv => by
          by_cases hb : v ∈ vs
          · exact SubIn.erase_in hb (.inl hb)
          · exact SubIn.erase_out hb ((h v (by simp [Fml.fv, hv, hb])).mono fun w hw => .inr hw)
        simp only [subF]
        split
        · rename_i hh; rw [hh] at h1; exact FvIn_all.mpr h1
        · exact FvIn_forallF h1

/-- Properties of all subterms are kept if the substitutes have them and the quantifiers keep
theirs. -/
theorem sub_her {Pv Pb : Variable → Prop} {Q : List Variable → Fml → Prop} {S : Subst → Prop}
    (hS : ∀ s vs, S s → S (s.erase vs))
    (he : ∀ s v e, S s → lookupV v s.ex = some e → HerE Pv Pb Q e)
    (hf : ∀ s v f, S s → lookupV v s.fm = some f → HerF Pv Pb Q f)
    (hQ : ∀ s vs f, S s → SortedF f → Q vs f → Q (vs.filter fun v => v ∈ (subF (s.erase vs) f).fv)
      (subF (s.erase vs) f)) : ∀ n : Nat,
    (∀ (e : Expr) (s : Subst), sizeOf e ≤ n → SortedE e → S s → HerE Pv Pb Q e →
      HerE Pv Pb Q (subE s e)) ∧
    (∀ (f : Fml) (s : Subst), sizeOf f ≤ n → SortedF f → S s → HerF Pv Pb Q f →
      HerF Pv Pb Q (subF s f)) := by
  intro n
  induction n with
  | zero => exact ⟨fun e _ hs => by cases e <;> simp at hs, fun f _ hs => by cases f <;> simp at hs⟩
  | succ n ih =>
    obtain ⟨ihe, ihf⟩ := ih
    refine ⟨fun e s hs hk hS' h => ?_, fun f s hs hk hS' h => ?_⟩
    · cases e with
      | const q => simp [subE, HerE]
      | rconst r => simp [subE, HerE]
      | var v =>
        simp only [subE]
        cases hl : lookupV v s.ex with
        | none => exact h
        | some e => exact he s v e hS' hl
      | add a b =>
        simp only [Expr.add.sizeOf_spec] at hs
        exact ⟨ihe a s (by omega) hk.1 hS' h.1, ihe b s (by omega) hk.2 hS' h.2⟩
      | mul a b =>
        simp only [Expr.mul.sizeOf_spec] at hs
        exact ⟨ihe a s (by omega) hk.1 hS' h.1, ihe b s (by omega) hk.2 hS' h.2⟩
      | app1 g a =>
        simp only [Expr.app1.sizeOf_spec] at hs
        exact ihe a s (by omega) hk hS' h
      | app2 g a b =>
        simp only [Expr.app2.sizeOf_spec] at hs
        exact ⟨ihe a s (by omega) hk.1 hS' h.1, ihe b s (by omega) hk.2 hS' h.2⟩
      | ite c a b =>
        simp only [Expr.ite.sizeOf_spec] at hs
        have h0 := ihf c s (by omega) hk.1 hS' h.1
        have h1 := ihe a s (by omega) hk.2.1 hS' h.2.1
        have h2 := ihe b s (by omega) hk.2.2 hS' h.2.2
        simp only [subE]
        split
        · exact h
        · exact her_mkIte h0 h1 h2
    · cases f with
      | ff => simp [subF, HerF]
      | tt => simp [subF, HerF]
      | bvar v =>
        simp only [subF]
        cases hl : lookupV v s.fm with
        | none => exact h
        | some e => exact hf s v e hS' hl
      | rel op a b =>
        simp only [Fml.rel.sizeOf_spec] at hs
        simp only [subF]
        split
        · exact h
        · exact her_mkRel (ihe a s (by omega) hk.1 hS' h.1) (ihe b s (by omega) hk.2 hS' h.2)
      | conj fs =>
        simp only [Fml.conj.sizeOf_spec] at hs
        have key : ∀ g ∈ fs, HerF Pv Pb Q (subF s g) := fun g hg => by
          have := List.sizeOf_lt_of_mem hg
          exact ihf g s (by omega) (sortedFs_iff.mp hk g hg) hS' (her_conj.mp h g hg)
        exact sub_conj (by simp [HerF]) (by simp [HerF]) (fun _ _ => her_andF) key fun _ => h
      | disj fs =>
        simp only [Fml.disj.sizeOf_spec] at hs
        have key : ∀ g ∈ fs, HerF Pv Pb Q (subF s g) := fun g hg => by
          have := List.sizeOf_lt_of_mem hg
          exact ihf g s (by omega) (sortedFs_iff.mp hk g hg) hS' (her_disj.mp h g hg)
        exact sub_disj (by simp [HerF]) (by simp [HerF]) (fun _ _ => her_orF) key fun _ => h
      | neg f =>
        simp only [Fml.neg.sizeOf_spec] at hs
        simp only [subF]
        split
        · exact h
        · exact her_notF (ihf f s (by omega) hk hS' h)
      | all vs f =>
        simp only [Fml.all.sizeOf_spec] at hs
        simp only [subF]
        split
        · exact h
        · exact ⟨hQ s vs f hS' hk h.1, ihf f (s.erase vs) (by omega) hk (hS s vs hS') h.2⟩

end Verif.Proof
