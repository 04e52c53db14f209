import Verif.Model.Ite
import Verif.Spec.Ite
import Verif.Proof.Nnf
import Verif.Proof.Regular

/-! If-then-else elimination keeps the solutions. -/

namespace Verif.Proof
open Verif Verif.Model Verif.Spec

theorem IteFreeList_iff {fs} : IteFreeList fs ↔ ∀ f ∈ fs, IteFree f := by
  induction fs with
  | nil => simp [IteFreeList]
  | cons f fs ih => simp [IteFreeList, ih]

theorem IteFree.notF {f} (h : IteFree f) : IteFree (Model.notF f) := by
  unfold Model.notF
  split_ifs
  · simp [IteFree]
  · simp [IteFree]
  · cases f with
    | neg g => simpa [IteFree] using h
    | _ => simpa [IteFree] using h

theorem IteFree.mkConj {fs} (h : ∀ g ∈ fs, IteFree g) : IteFree (Model.mkConj fs) :=
  mkConj_ind (Q := IteFree) (R := IteFree) (fun _ h => IteFreeList_iff.mp h) trivial trivial
    (fun _ h => h) (fun _ h => IteFreeList_iff.mpr h) h

theorem IteFree.mkDisj {fs} (h : ∀ g ∈ fs, IteFree g) : IteFree (Model.mkDisj fs) :=
  mkDisj_ind (Q := IteFree) (R := IteFree) (fun _ h => IteFreeList_iff.mp h) trivial trivial
    (fun _ h => h) (fun _ h => IteFreeList_iff.mpr h) h

theorem IteFree.andF {f g} (hf : IteFree f) (hg : IteFree g) : IteFree (Model.andF f g) := by
  unfold Model.andF
  have hm := fun a s (ha : IteFree a) => mergeConj_mem (Q := IteFree) (f := a) (s := s)
    (fun _ h => IteFreeList_iff.mp h) ha
  split_ifs
  · exact hf
  · trivial
  · exact hg
  · exact hf
  · exact hf
  · split
    · exact IteFreeList_iff.mpr (hm _ _ hg (IteFreeList_iff.mp hf))
    · exact IteFreeList_iff.mpr (hm _ _ hf (IteFreeList_iff.mp hg))
    · refine IteFreeList_iff.mpr (fun x hx => ?_)
      simp only [mem_insertF, List.not_mem_nil, or_false] at hx
      rcases hx with rfl | rfl <;> assumption

theorem IteFree.orF {f g} (hf : IteFree f) (hg : IteFree g) : IteFree (Model.orF f g) := by
  unfold Model.orF
  have hm := fun a s (ha : IteFree a) => mergeDisj_mem (Q := IteFree) (f := a) (s := s)
    (fun _ h => IteFreeList_iff.mp h) ha
  split_ifs
  · exact hf
  · trivial
  · exact hg
  · exact hf
  · exact hf
  · split
    · exact IteFreeList_iff.mpr (hm _ _ hg (IteFreeList_iff.mp hf))
    · exact IteFreeList_iff.mpr (hm _ _ hf (IteFreeList_iff.mp hg))
    · refine IteFreeList_iff.mpr (fun x hx => ?_)
      simp only [mem_insertF, List.not_mem_nil, or_false] at hx
      rcases hx with rfl | rfl <;> assumption

theorem IteFree.mkRel {op a b} (ha : IteFreeE a) (hb : IteFreeE b) :
    IteFree (Model.mkRel op a b) := by
  unfold Model.mkRel
  repeat' split
  all_goals first
    | exact ⟨ha, hb⟩
    | trivial

mutual
theorem IteFree.nnfVisit (push pol : Bool) (f : Fml) (h : IteFree f) :
    IteFree (nnfVisit push pol f) := by
  cases f with
  | ff => simp only [Model.nnfVisit]; split <;> trivial
  | tt => simp only [Model.nnfVisit]; split <;> trivial
  | bvar v => simp only [Model.nnfVisit]; split; exacts [h, IteFree.notF h]
  | rel op a b =>
    simp only [Model.nnfVisit]
    split_ifs
    · exact h
    · exact IteFree.mkRel h.1 h.2
    · exact IteFree.notF h
  | conj fs =>
    have := IteFree.nnfVisitList push pol fs (IteFreeList_iff.mp h)
    simp only [Model.nnfVisit]; split
    · exact IteFree.mkConj (fun g hg => this g (mem_toSet.mp hg))
    · exact IteFree.mkDisj (fun g hg => this g (mem_toSet.mp hg))
  | disj fs =>
    have := IteFree.nnfVisitList push pol fs (IteFreeList_iff.mp h)
    simp only [Model.nnfVisit]; split
    · exact IteFree.mkDisj (fun g hg => this g (mem_toSet.mp hg))
    · exact IteFree.mkConj (fun g hg => this g (mem_toSet.mp hg))
  | neg f => exact IteFree.nnfVisit push (!pol) f h
  | all vs f => simp only [Model.nnfVisit]; split; exacts [h, IteFree.notF h]
theorem IteFree.nnfVisitList (push pol : Bool) (fs : List Fml) (h : ∀ f ∈ fs, IteFree f) :
    ∀ g ∈ nnfVisitList push pol fs, IteFree g := by
  cases fs with
  | nil => simp [Model.nnfVisitList]
  | cons f fs =>
    simp only [Model.nnfVisitList, List.mem_cons, forall_eq_or_imp]
    exact ⟨IteFree.nnfVisit push pol f (h f (by simp)),
      IteFree.nnfVisitList push pol fs (fun g hg => h g (by simp [hg]))⟩
end

/-! ### Old variables -/

theorem OldList_iff {n fs} : OldList n fs ↔ ∀ f ∈ fs, Old n f := by
  induction fs with
  | nil => simp [OldList]
  | cons f fs ih => simp [OldList, ih]

mutual
theorem OldE.vars {n} (e : Expr) (h : OldE n e) : ∀ v ∈ e.vars, v.id < n := by
  cases e with
  | const q => simp [Expr.vars]
  | rconst r => simp [Expr.vars]
  | var v => simpa [Expr.vars, OldE] using h
  | add a b =>
    simp only [Expr.vars, List.mem_append]
    rintro v (hv | hv)
    exacts [OldE.vars a h.1 v hv, OldE.vars b h.2 v hv]
  | mul a b =>
    simp only [Expr.vars, List.mem_append]
    rintro v (hv | hv)
    exacts [OldE.vars a h.1 v hv, OldE.vars b h.2 v hv]
  | app1 f a => simpa only [Expr.vars] using OldE.vars a h
  | app2 f a b =>
    simp only [Expr.vars, List.mem_append]
    rintro v (hv | hv)
    exacts [OldE.vars a h.1 v hv, OldE.vars b h.2 v hv]
  | ite c a b =>
    simp only [Expr.vars, List.mem_append]
    rintro v (hv | hv | hv)
    exacts [Old.fv c h.1 v hv, OldE.vars a h.2.1 v hv, OldE.vars b h.2.2 v hv]
theorem Old.fv {n} (f : Fml) (h : Old n f) : ∀ v ∈ f.fv, v.id < n := by
  cases f with
  | ff => simp [Fml.fv]
  | tt => simp [Fml.fv]
  | bvar v => simpa [Fml.fv, Old] using h
  | rel op a b =>
    simp only [Fml.fv, List.mem_append]
    rintro v (hv | hv)
    exacts [OldE.vars a h.1 v hv, OldE.vars b h.2 v hv]
  | conj fs => exact OldList.fv fs h
  | disj fs => exact OldList.fv fs h
  | neg f => exact Old.fv f h
  | all vs f =>
    simp only [Fml.fv, List.mem_filter]
    exact fun v hv => Old.fv f h.2 v hv.1
theorem OldList.fv {n} (fs : List Fml) (h : OldList n fs) : ∀ v ∈ Fml.fvList fs, v.id < n := by
  cases fs with
  | nil => simp [Fml.fvList]
  | cons f fs =>
    simp only [Fml.fvList, List.mem_append]
    rintro v (hv | hv)
    exacts [Old.fv f h.1 v hv, OldList.fv fs h.2 v hv]
end

theorem Old.notF {n f} (h : Old n f) : Old n (Model.notF f) := by
  unfold Model.notF
  split_ifs
  · trivial
  · trivial
  · cases f with
    | neg g => exact h
    | _ => exact h

/-! ### Steps of the eliminator -/

/-- Structural part of a run of the eliminator: `D` lists the new variables with the terms they
stand for, `ad` the added formulas. -/
structure IteStep (n0 : Nat) (s s' : IteState) (D : List (Variable × Expr)) (ad : List Fml) :
    Prop where
  vars : s'.vars = s.vars ++ D.map Prod.fst
  added : s'.added = s.added ++ ad
  le : s.next ≤ s'.next
  range : ∀ p ∈ D, s.next ≤ p.1.id ∧ p.1.id < s'.next
  cont : ∀ p ∈ D, p.1.type = .continuous
  sorted : D.Pairwise (fun p q => p.1.id < q.1.id)
  old : ∀ p ∈ D, OldE n0 p.2

theorem IteStep.refl (n0 s) : IteStep n0 s s [] [] :=
  ⟨by simp, by simp, le_rfl, by simp, by simp, by simp, by simp⟩

theorem IteStep.comp {n0 s s1 s2 D1 D2 a1 a2} (h1 : IteStep n0 s s1 D1 a1)
    (h2 : IteStep n0 s1 s2 D2 a2) : IteStep n0 s s2 (D1 ++ D2) (a1 ++ a2) := by
  refine ⟨by simp [h2.vars, h1.vars], by simp [h2.added, h1.added], h1.le.trans h2.le, ?_, ?_, ?_, ?_⟩
  · intro p hp
    rcases List.mem_append.mp hp with hp | hp
    · exact ⟨(h1.range p hp).1, (h1.range p hp).2.trans_le h2.le⟩
    · exact ⟨h1.le.trans (h2.range p hp).1, (h2.range p hp).2⟩
  · intro p hp
    rcases List.mem_append.mp hp with hp | hp
    exacts [h1.cont p hp, h2.cont p hp]
  · rw [List.pairwise_append]
    exact ⟨h1.sorted, h2.sorted, fun p hp q hq => (h1.range p hp).2.trans_le (h2.range q hq).1⟩
  · intro p hp
    rcases List.mem_append.mp hp with hp | hp
    exacts [h1.old p hp, h2.old p hp]

def DSat (I : Interp) (D : List (Variable × Expr)) (ρ : Valuation) : Prop :=
  ∀ p ∈ D, ρ p.1 = eval I ρ p.2
def ASat (I : Interp) (ad : List Fml) (ρ : Valuation) : Prop := ∀ a ∈ ad, holds I ρ a

theorem DSat_append {I D1 D2 ρ} : DSat I (D1 ++ D2) ρ ↔ DSat I D1 ρ ∧ DSat I D2 ρ := by
  simp only [DSat, List.mem_append, or_imp, forall_and]
theorem ASat_append {I D1 D2 ρ} : ASat I (D1 ++ D2) ρ ↔ ASat I D1 ρ ∧ ASat I D2 ρ := by
  simp only [ASat, List.mem_append, or_imp, forall_and]
@[simp] theorem DSat_nil {I ρ} : DSat I [] ρ := by simp [DSat]
@[simp] theorem ASat_nil {I ρ} : ASat I [] ρ := by simp [ASat]

/-- Literals and places do not appear. -/
def PlaceLe (r e : Expr) : Prop := (isPlace r → isPlace e) ∧ asNum r = asNum e

/-- Well-formedness and regularity are kept: expressions. -/
def KeepE (D : List (Variable × Expr)) (ad : List Fml) (e : Expr) (g : Fml) (r : Expr) : Prop :=
  (∀ V : Variable → Prop, (∀ p ∈ D, V p.1) → WfF V g → WfE V e → WfE V r ∧ ∀ a ∈ ad, WfF V a) ∧
  PlaceLe r e ∧
  ∀ Dm I d ρ, DSat I D ρ → RegF Dm I d ρ g → RegE Dm I d ρ e →
    RegE Dm I d ρ r ∧ ∀ a ∈ ad, RegF Dm I d ρ a

/-- Well-formedness and regularity are kept: lists of formulas. -/
def KeepL (D : List (Variable × Expr)) (ad fs : List Fml) (g : Fml) (rs : List Fml) : Prop :=
  (∀ V : Variable → Prop, (∀ p ∈ D, V p.1) → WfF V g → (∀ f ∈ fs, WfF V f) →
    (∀ r ∈ rs, WfF V r) ∧ ∀ a ∈ ad, WfF V a) ∧
  ∀ Dm I d ρ, DSat I D ρ → RegF Dm I d ρ g → (∀ f ∈ fs, RegF Dm I d ρ f) →
    (∀ r ∈ rs, RegF Dm I d ρ r) ∧ ∀ a ∈ ad, RegF Dm I d ρ a

/-- Well-formedness and regularity are kept: formulas. -/
def KeepF (D : List (Variable × Expr)) (ad : List Fml) (f g r : Fml) : Prop :=
  (∀ V : Variable → Prop, (∀ p ∈ D, V p.1) → WfF V g → WfF V f → WfF V r ∧ ∀ a ∈ ad, WfF V a) ∧
  ∀ Dm I d ρ, DSat I D ρ → RegF Dm I d ρ g → RegF Dm I d ρ f →
    RegF Dm I d ρ r ∧ ∀ a ∈ ad, RegF Dm I d ρ a

def IteSpecE (n0 : Nat) (e : Expr) (g : Fml) (s : IteState) (r : Expr × IteState) : Prop :=
  ∃ D ad, IteStep n0 s r.2 D ad ∧ (IteFree g → IteFreeE r.1 ∧ ∀ a ∈ ad, IteFree a) ∧
    (∀ I ρ, (ASat I ad ρ → holds I ρ g → eval I ρ r.1 = eval I ρ e) ∧
      (DSat I D ρ → eval I ρ r.1 = eval I ρ e ∧ ASat I ad ρ)) ∧ KeepE D ad e g r.1

def IteSpecF (n0 : Nat) (f : Fml) (g : Fml) (s : IteState) (r : Fml × IteState) : Prop :=
  ∃ D ad, IteStep n0 s r.2 D ad ∧ (IteFree g → IteFree r.1 ∧ ∀ a ∈ ad, IteFree a) ∧
    (∀ I ρ, (ASat I ad ρ → holds I ρ g → (holds I ρ r.1 ↔ holds I ρ f)) ∧
      (DSat I D ρ → (holds I ρ r.1 ↔ holds I ρ f) ∧ ASat I ad ρ)) ∧ KeepF D ad f g r.1

def IteSpecL (n0 : Nat) (fs : List Fml) (g : Fml) (s : IteState) (r : List Fml × IteState) : Prop :=
  ∃ D ad, IteStep n0 s r.2 D ad ∧ (IteFree g → (∀ f ∈ r.1, IteFree f) ∧ ∀ a ∈ ad, IteFree a) ∧
    (∀ I ρ,
      (ASat I ad ρ → holds I ρ g →
        ((∀ f ∈ r.1, holds I ρ f) ↔ ∀ f ∈ fs, holds I ρ f) ∧
        ((∃ f ∈ r.1, holds I ρ f) ↔ ∃ f ∈ fs, holds I ρ f)) ∧
      (DSat I D ρ →
        (((∀ f ∈ r.1, holds I ρ f) ↔ ∀ f ∈ fs, holds I ρ f) ∧
        ((∃ f ∈ r.1, holds I ρ f) ↔ ∃ f ∈ fs, holds I ρ f)) ∧ ASat I ad ρ)) ∧
    KeepL D ad fs g r.1

theorem holds_iteDef {I ρ g v e} :
    holds I ρ (iteDef g v e) ↔ (holds I ρ g → ρ v = eval I ρ e) := by
  simp only [iteDef, holds_orF, holds_notF, holds_mkRel, relSem, eval]
  tauto

theorem holds_iteResult {I ρ f new_f added} :
    holds I ρ (iteResult f new_f added) ↔ holds I ρ new_f ∧ ASat I added ρ := by
  unfold iteResult
  split_ifs with h
  · obtain ⟨rfl, rfl⟩ := h; simp
  · simp [ASat]

theorem IteFree.iteResult {f new_f added} (h : IteFree new_f) (ha : ∀ a ∈ added, IteFree a) :
    IteFree (iteResult f new_f added) := by
  unfold Model.iteResult
  split_ifs with hh
  · exact hh.1 ▸ h
  · exact IteFree.andF h (IteFree.mkConj ha)

/-- Two sub-expressions visited one after the other. -/
theorem IteSpecE.binary {n0 a b g s} {ra rb : Expr × IteState} {e : Expr} {mk : Expr → Expr → Expr}
    (ha : IteSpecE n0 a g s ra) (hb : IteSpecE n0 b g ra.2 rb)
    (hfree : ∀ x y, IteFreeE x → IteFreeE y → IteFreeE (mk x y))
    (hmk : ∀ I ρ x y, eval I ρ x = eval I ρ a → eval I ρ y = eval I ρ b →
      eval I ρ (mk x y) = eval I ρ e)
    (hwf : ∀ V, WfE V e → WfE V a ∧ WfE V b)
    (hwf' : ∀ V x y, WfE V x → WfE V y → WfE V (mk x y))
    (hreg : ∀ Dm I d ρ, RegE Dm I d ρ e → RegE Dm I d ρ a ∧ RegE Dm I d ρ b)
    (hreg' : ∀ Dm I d ρ x y, RegE Dm I d ρ e → RegE Dm I d ρ x → RegE Dm I d ρ y →
      eval I ρ x = eval I ρ a → eval I ρ y = eval I ρ b → RegE Dm I d ρ (mk x y))
    (hp : ∀ x y, PlaceLe (mk x y) e) :
    IteSpecE n0 e g s (mk ra.1 rb.1, rb.2) := by
  obtain ⟨D1, a1, h1, f1, m1, k1⟩ := ha
  obtain ⟨D2, a2, h2, f2, m2, k2⟩ := hb
  refine ⟨D1 ++ D2, a1 ++ a2, h1.comp h2, fun hg => ?_,
    fun I ρ => ⟨fun hA hg => ?_, fun hD => ?_⟩, ?_, hp _ _, ?_⟩
  · refine ⟨hfree _ _ (f1 hg).1 (f2 hg).1, fun x hx => ?_⟩
    rcases List.mem_append.mp hx with hx | hx
    exacts [(f1 hg).2 x hx, (f2 hg).2 x hx]
  · rw [ASat_append] at hA
    exact hmk I ρ _ _ ((m1 I ρ).1 hA.1 hg) ((m2 I ρ).1 hA.2 hg)
  · rw [DSat_append] at hD
    exact ⟨hmk I ρ _ _ ((m1 I ρ).2 hD.1).1 ((m2 I ρ).2 hD.2).1,
      ASat_append.mpr ⟨((m1 I ρ).2 hD.1).2, ((m2 I ρ).2 hD.2).2⟩⟩
  · intro V hV hg he
    have q1 := k1.1 V (fun p hp => hV p (by simp [hp])) hg (hwf V he).1
    have q2 := k2.1 V (fun p hp => hV p (by simp [hp])) hg (hwf V he).2
    refine ⟨hwf' V _ _ q1.1 q2.1, fun x hx => ?_⟩
    rcases List.mem_append.mp hx with hx | hx
    exacts [q1.2 x hx, q2.2 x hx]
  · intro Dm I d ρ hD hg he
    rw [DSat_append] at hD
    have q1 := k1.2.2 Dm I d ρ hD.1 hg (hreg Dm I d ρ he).1
    have q2 := k2.2.2 Dm I d ρ hD.2 hg (hreg Dm I d ρ he).2
    refine ⟨hreg' Dm I d ρ _ _ he q1.1 q2.1 ((m1 I ρ).2 hD.1).1 ((m2 I ρ).2 hD.2).1,
      fun x hx => ?_⟩
    rcases List.mem_append.mp hx with hx | hx
    exacts [q1.2 x hx, q2.2 x hx]

theorem relOff_of {d I ρ op a b a' b'} (h : RelOff d I ρ op a b) (ha : PlaceLe a' a)
    (hb : PlaceLe b' b) (ea : eval I ρ a' = eval I ρ a) (eb : eval I ρ b' = eval I ρ b) :
    RelOff d I ρ op a' b' := by
  refine ⟨fun lo hi ex h1 h2 => ?_, fun lo hi ex h1 h2 => ?_⟩
  · rw [ea]; exact h.1 lo hi ex (hb.2 ▸ h1) (ha.1 h2)
  · rw [eb]; exact h.2 lo hi ex (ha.2 ▸ h1) (hb.1 h2)

theorem IteSpecF.rel {n0 a b g s} {ra rb : Expr × IteState} {op : RelOp}
    (ha : IteSpecE n0 a g s ra) (hb : IteSpecE n0 b g ra.2 rb) :
    IteSpecF n0 (.rel op a b) g s (mkRel op ra.1 rb.1, rb.2) := by
  obtain ⟨D1, a1, h1, f1, m1, k1⟩ := ha
  obtain ⟨D2, a2, h2, f2, m2, k2⟩ := hb
  refine ⟨D1 ++ D2, a1 ++ a2, h1.comp h2, fun hg => ?_,
    fun I ρ => ⟨fun hA hg => ?_, fun hD => ?_⟩, ?_, ?_⟩
  · refine ⟨IteFree.mkRel (f1 hg).1 (f2 hg).1, fun x hx => ?_⟩
    rcases List.mem_append.mp hx with hx | hx
    exacts [(f1 hg).2 x hx, (f2 hg).2 x hx]
  · rw [ASat_append] at hA
    simp only [holds_mkRel, holds_rel, (m1 I ρ).1 hA.1 hg, (m2 I ρ).1 hA.2 hg]
  · rw [DSat_append] at hD
    refine ⟨?_, ASat_append.mpr ⟨((m1 I ρ).2 hD.1).2, ((m2 I ρ).2 hD.2).2⟩⟩
    simp only [holds_mkRel, holds_rel, ((m1 I ρ).2 hD.1).1, ((m2 I ρ).2 hD.2).1]
  · intro V hV hg he
    have q1 := k1.1 V (fun p hp => hV p (by simp [hp])) hg he.1
    have q2 := k2.1 V (fun p hp => hV p (by simp [hp])) hg he.2
    refine ⟨wf_mkRel q1.1 q2.1, fun x hx => ?_⟩
    rcases List.mem_append.mp hx with hx | hx
    exacts [q1.2 x hx, q2.2 x hx]
  · intro Dm I d ρ hD hg he
    rw [DSat_append] at hD
    have q1 := k1.2.2 Dm I d ρ hD.1 hg he.1
    have q2 := k2.2.2 Dm I d ρ hD.2 hg he.2.1
    refine ⟨reg_mkRel ⟨q1.1, q2.1, relOff_of he.2.2 k1.2.1 k2.2.1 ((m1 I ρ).2 hD.1).1
      ((m2 I ρ).2 hD.2).1⟩, fun x hx => ?_⟩
    rcases List.mem_append.mp hx with hx | hx
    exacts [q1.2 x hx, q2.2 x hx]

/-- The result of a whole `Process` run. -/
def ProcSpec (n0 : Nat) (f : Fml) (next : Nat) (r : Fml × IteState) : Prop :=
  next ≤ r.2.next ∧
  (∀ v ∈ r.2.vars, next ≤ v.id ∧ v.id < r.2.next ∧ v.type = .continuous) ∧
  r.2.vars.Nodup ∧
  IteFree (iteResult f r.1 r.2.added) ∧
  ∀ I (ρ : Valuation), holds I ρ f ↔
    ∃ ρ' : Valuation, (∀ v, v ∉ r.2.vars → ρ' v = ρ v) ∧
      holds I ρ' (iteResult f r.1 r.2.added)

/-- What `Process` does for well-formed formulas and regular points. -/
def ProcKeep (f : Fml) (r : Fml × IteState) : Prop :=
  (∀ V : Variable → Prop, (∀ v ∈ r.2.vars, V v) → WfF V f →
    WfF V (iteResult f r.1 r.2.added)) ∧
  ∀ Dm I d (ρ : Valuation), RegF Dm I d ρ f → holds I ρ f →
    ∃ ρ' : Valuation, (∀ v, v ∉ r.2.vars → ρ' v = ρ v) ∧
      holds I ρ' (iteResult f r.1 r.2.added) ∧ RegF Dm I d ρ' (iteResult f r.1 r.2.added)

theorem nodup_of_sorted {D : List (Variable × Expr)}
    (h : D.Pairwise (fun p q => p.1.id < q.1.id)) : (D.map Prod.fst).Nodup := by
  rw [List.Nodup, List.pairwise_map]
  exact h.imp (fun {p q} hlt he => by rw [he] at hlt; exact lt_irrefl _ hlt)

theorem lookup_fst {D : List (Variable × Expr)} (hn : (D.map Prod.fst).Nodup) {p}
    (hp : p ∈ D) : D.lookup p.1 = some p.2 := by
  induction D with
  | nil => cases hp
  | cons q D ih =>
    simp only [List.map_cons, List.nodup_cons] at hn
    rcases List.mem_cons.mp hp with rfl | hp
    · simp [List.lookup]
    · have : p.1 ≠ q.1 := fun h => hn.1 (h ▸ List.mem_map_of_mem hp)
      simp only [List.lookup]
      rw [show (p.1 == q.1) = false by simpa using this]
      exact ih hn.2 hp

/-- Giving every new variable the value of its term. -/
theorem dsat_ext (I : Interp) (ρ : Valuation) {n0 s s' D ad} (st : IteStep n0 s s' D ad)
    (hn : n0 ≤ s.next) : ∃ ρ' : Valuation, (∀ v, v ∉ D.map Prod.fst → ρ' v = ρ v) ∧
      (∀ v : Variable, v.id < n0 → ρ' v = ρ v) ∧ DSat I D ρ' := by
  let ρ' : Valuation := fun v => match D.lookup v with
    | some t => eval I ρ t
    | none => ρ v
  have hlk : ∀ v, v ∉ D.map Prod.fst → ρ' v = ρ v := by
    intro v hv
    have : D.lookup v = none := by
      rw [List.lookup_eq_none_iff]
      intro p hp
      have : p.1 ≠ v := fun h => hv (h ▸ List.mem_map_of_mem hp)
      simpa using Ne.symm this
    simp only [ρ', this]
  have hsame : ∀ v : Variable, v.id < n0 → ρ' v = ρ v := by
    intro v hv
    apply hlk
    rw [List.mem_map]
    rintro ⟨p, hp, rfl⟩
    have := (st.range p hp).1
    omega
  refine ⟨ρ', hlk, hsame, fun p hp => ?_⟩
  have : ρ' p.1 = eval I ρ p.2 := by
    simp only [ρ', lookup_fst (nodup_of_sorted st.sorted) hp]
  rw [this]
  exact eval_congr I p.2 ρ ρ' (fun v hv => (hsame v (OldE.vars p.2 (st.old p hp) v hv)).symm)

theorem wf_iteResult {V f g ad} (h : WfF V g) (ha : ∀ a ∈ ad, WfF V a) :
    WfF V (iteResult f g ad) := by
  exact (wfF_iff _).mpr (.iteResult ((wfF_iff _).mp h) fun a h => (wfF_iff a).mp (ha a h))

theorem reg_iteResult {D I d ρ f g ad} (h : RegF D I d ρ g) (ha : ∀ a ∈ ad, RegF D I d ρ a) :
    RegF D I d ρ (iteResult f g ad) := by
  simp only [regF_iff] at *; exact .iteResult h ha

theorem ProcKeep.of {n0 f next r} (h : IteSpecF n0 f .tt { next := next } r) (hn : n0 ≤ next)
    (hf : Old n0 f) : ProcKeep f r := by
  obtain ⟨D, ad, st, fr, sem, kp⟩ := h
  have hv : r.2.vars = D.map Prod.fst := by simpa using st.vars
  have ha : r.2.added = ad := by simpa using st.added
  refine ⟨fun V hV hw => ?_, fun Dm I d ρ hr hh => ?_⟩
  · have q := kp.1 V (fun p hp => hV _ (by rw [hv]; exact List.mem_map_of_mem hp)) trivial hw
    rw [ha]; exact wf_iteResult q.1 q.2
  · obtain ⟨ρ', hlk, hsame, hD⟩ := dsat_ext I ρ st hn
    have e := (sem I ρ').2 hD
    have q := kp.2 Dm I d ρ' hD trivial
      (regF_congr f (fun v hv => hsame v (Old.fv f hf v hv)) hr)
    refine ⟨ρ', by rw [hv]; exact hlk, ?_, by rw [ha]; exact reg_iteResult q.1 q.2⟩
    rw [holds_iteResult, ha]
    refine ⟨e.1.mpr ?_, e.2⟩
    rwa [holds_congr I f ρ' ρ (fun v hv => hsame v (Old.fv f hf v hv))]

theorem ProcSpec.of {n0 f next r} (h : IteSpecF n0 f .tt { next := next } r) (hn : n0 ≤ next)
    (hf : Old n0 f) : ProcSpec n0 f next r := by
  obtain ⟨D, ad, st, fr, sem, kp⟩ := h
  have hv : r.2.vars = D.map Prod.fst := by simpa using st.vars
  have ha : r.2.added = ad := by simpa using st.added
  refine ⟨st.le, ?_, ?_, ?_, ?_⟩
  · intro v hv'
    rw [hv, List.mem_map] at hv'
    obtain ⟨p, hp, rfl⟩ := hv'
    exact ⟨(st.range p hp).1, (st.range p hp).2, st.cont p hp⟩
  · rw [hv]; exact nodup_of_sorted st.sorted
  · rw [ha]; exact IteFree.iteResult (fr trivial).1 (fr trivial).2
  · intro I ρ
    simp only [holds_iteResult, ha]
    have hold : ∀ p ∈ D, ∀ v : Variable, v.id < n0 → v ≠ p.1 := by
      rintro p hp v hv rfl
      have := (st.range p hp).1
      simp only at this
      omega
    constructor
    · intro hh
      obtain ⟨ρ', hlk, hsame, hD⟩ := dsat_ext I ρ st hn
      have := (sem I ρ').2 hD
      refine ⟨ρ', by rw [hv]; exact hlk, this.1.mpr ?_, this.2⟩
      rwa [holds_congr I f ρ' ρ (fun v hv => hsame v (Old.fv f hf v hv))]
    · rintro ⟨ρ', hρ, h1, h2⟩
      have := ((sem I ρ').1 h2 (by simp)).mp h1
      rwa [holds_congr I f ρ' ρ] at this
      intro v hv'
      apply hρ
      rw [hv, List.mem_map]
      rintro ⟨p, hp, rfl⟩
      exact hold p hp _ (Old.fv f hf _ hv') rfl

/-- The quantifier case. -/
theorem holds_iteAll {n0 f next r I ρ vs} (h : ProcSpec n0 (notF f) next r) :
    holds I ρ (forallF (vs ++ r.2.vars) (nnf false (notF (iteResult (notF f) r.1 r.2.added)))) ↔
      holds I ρ (.all vs f) := by
  obtain ⟨_, hc, _, _, hm⟩ := h
  have hf : ∀ σ : Valuation, holds I σ f ↔ ∀ σ' : Valuation, (∀ v, v ∉ r.2.vars → σ' v = σ v) →
      ¬ holds I σ' (iteResult (notF f) r.1 r.2.added) := by
    intro σ
    have := (hm I σ).not
    simp only [holds_notF, not_not, not_exists, not_and] at this
    exact this
  simp only [holds_forallF, holds_all, nnf, nnfVisit_holds, if_true, holds_notF, hf]
  constructor
  · intro H σ h1 h2 σ' h3
    apply H σ'
    · intro v hv
      simp only [List.mem_append, not_or] at hv
      rw [h3 v hv.2, h1 v hv.1]
    · intro v hv
      by_cases hvr : v ∈ r.2.vars
      · rw [(hc v hvr).2.2]; trivial
      · rw [h3 v hvr]
        rcases List.mem_append.mp hv with hv | hv
        exacts [h2 v hv, absurd hv hvr]
  · intro H σ h1 h2
    refine H (fun v => if v ∈ r.2.vars then ρ v else σ v) ?_ ?_ σ ?_
    · intro v hv
      by_cases hvr : v ∈ r.2.vars
      · simp [hvr]
      · simp only [hvr, if_false]
        exact h1 v (by simp [hv, hvr])
    · intro v hv
      by_cases hvr : v ∈ r.2.vars
      · rw [(hc v hvr).2.2]; trivial
      · simp only [hvr, if_false]
        exact h2 v (by simp [hv])
    · intro v hv; simp [hv]

theorem iteE_free : ∀ (e : Expr) (g : Fml) (s : IteState), IteFreeE e → iteE e g s = (e, s)
  | .const _, _, _, _ => by simp [iteE]
  | .rconst _, _, _, _ => by simp [iteE]
  | .var _, _, _, _ => by simp [iteE]
  | .add a b, g, s, h => by simp [iteE, iteE_free a g s h.1, iteE_free b g s h.2]
  | .mul a b, g, s, h => by simp [iteE, iteE_free a g s h.1, iteE_free b g s h.2]
  | .app1 f a, g, s, h => by simp [iteE, iteE_free a g s h]
  | .app2 f a b, g, s, h => by simp [iteE, iteE_free a g s h.1, iteE_free b g s h.2]
  | .ite _ _ _, _, _, h => absurd h id

mutual
/-- A formula without if-then-else makes no new variables. -/
theorem iteF_id : ∀ f g s, IteFree f → (iteF f g s).2 = s
  | .ff, _, _, _ => by simp only [iteF]
  | .tt, _, _, _ => by simp only [iteF]
  | .bvar _, _, _, _ => by simp only [iteF]
  | .rel op a b, g, s, h => by simp only [iteF, iteE_free a _ _ h.1, iteE_free b _ _ h.2]
  | .conj fs, g, s, h => by simp only [iteF]; exact iteList_id fs g s h
  | .disj fs, g, s, h => by simp only [iteF]; exact iteList_id fs g s h
  | .neg f, g, s, h => by simp only [iteF]; exact iteF_id f g s h
  | .all vs f, g, s, h => by simp only [iteF, iteNot_id f { next := s.next } h]
theorem iteNot_id : ∀ f s, IteFree f → (iteNot f s).2 = s
  | .ff, _, _ => by simp only [iteNot]
  | .tt, _, _ => by simp only [iteNot]
  | .bvar _, _, _ => by simp only [iteNot]
  | .rel op a b, s, h => by simp only [iteNot, iteE_free a _ _ h.1, iteE_free b _ _ h.2]
  | .conj fs, s, h => by simp only [iteNot]; exact iteList_id fs .tt s h
  | .disj fs, s, h => by simp only [iteNot]; exact iteList_id fs .tt s h
  | .neg f, s, h => by simp only [iteNot]; exact iteF_id f .tt s h
  | .all vs f, s, h => by simp only [iteNot, iteNot_id f { next := s.next } h]
theorem iteList_id : ∀ fs g s, IteFreeList fs → (iteList fs g s).2 = s
  | [], _, _, _ => by simp only [iteList]
  | f :: fs, g, s, h => by
    simp only [iteList, iteF_id f g s h.1]; exact iteList_id fs g s h.2
end

mutual
theorem iteF_body {p : Expr → Expr → Prop} (hp : ∀ a b, p a b → IteFreeE a ∧ IteFreeE b) :
    ∀ f g s, Body p f → Body p (iteF f g s).1
  | .ff, _, _, _ => by simp only [iteF]; trivial
  | .tt, _, _, _ => by simp only [iteF]; trivial
  | .bvar _, _, _, h => absurd h id
  | .rel op a b, g, s, h => by
    simp only [iteF, iteE_free a _ _ (hp a b h).1, iteE_free b _ _ (hp a b h).2]
    exact .mkRel h
  | .conj fs, g, s, h => by
    simp only [iteF]
    exact .mkConj fun x hx => iteList_body hp fs g s (forAtomsL_iff.mp h) x (mem_toSet.mp hx)
  | .disj fs, g, s, h => by
    simp only [iteF]
    exact .mkDisj fun x hx => iteList_body hp fs g s (forAtomsL_iff.mp h) x (mem_toSet.mp hx)
  | .neg f, g, s, h => by
    simp only [iteF]
    exact ForAtoms.notF (iteF_body hp f g s h)
  | .all _ _, _, _, h => absurd h id
theorem iteList_body {p : Expr → Expr → Prop} (hp : ∀ a b, p a b → IteFreeE a ∧ IteFreeE b) :
    ∀ fs g s, (∀ f ∈ fs, Body p f) → ∀ x ∈ (iteList fs g s).1, Body p x
  | [], _, _, _ => by simp [iteList]
  | f :: fs, g, s, h => by
    simp only [iteList, List.mem_cons, forall_eq_or_imp]
    exact ⟨iteF_body hp f g s (h f (by simp)),
      iteList_body hp fs g _ (fun x hx => h x (by simp [hx]))⟩
end

mutual
theorem Body.iteFree {p : Expr → Expr → Prop} (hp : ∀ a b, p a b → IteFreeE a ∧ IteFreeE b) :
    ∀ f, Body p f → IteFree f
  | .ff, _ => trivial
  | .tt, _ => trivial
  | .bvar _, _ => trivial
  | .rel op a b, h => hp a b h
  | .conj fs, h => Body.iteFrees hp fs h
  | .disj fs, h => Body.iteFrees hp fs h
  | .neg f, h => Body.iteFree hp f h
  | .all _ _, h => absurd h id
theorem Body.iteFrees {p : Expr → Expr → Prop} (hp : ∀ a b, p a b → IteFreeE a ∧ IteFreeE b) :
    ∀ fs, ForAtomsL (fun _ a b => p a b) (fun _ => False) NoQ fs → IteFreeList fs
  | [], _ => trivial
  | f :: fs, h => ⟨Body.iteFree hp f h.1, Body.iteFrees hp fs h.2⟩
end

/-- The visit of a quantified formula with a matrix without if-then-else. -/
theorem iteAll_atoms {P : RelOp → Expr → Expr → Prop} {B : Variable → Prop}
    {q : List Variable → Expr → Expr → Prop} (hq : QOk P q)
    (hp : ∀ vs a b, q vs a b → IteFreeE a ∧ IteFreeE b) {vs f n} (h : Body (q vs) f) :
    ForAtoms P B (QB q) (forallF (vs ++ (iteNot f { next := n }).2.vars)
      (nnf false (notF (iteResult (notF f) (iteNot f { next := n }).1
        (iteNot f { next := n }).2.added)))) := by
  rw [iteNot_id f _ (Body.iteFree (hp vs) f h), List.append_nil]
  refine forallF_atoms hq (ForAtoms.nnfVisit (fun _ _ _ h => h) _ _ _ (ForAtoms.notF ?_))
  refine .iteResult ?_ (by simp)
  rw [iteNot_eq]
  exact iteF_body (hp vs) _ _ _ (ForAtoms.notF h)

theorem IteSpecF.all {n0 f s vs g} (h : ProcSpec n0 (notF f) s.next (iteNot f { next := s.next })) :
    IteSpecF n0 (.all vs f) g s
      (forallF (vs ++ (iteNot f { next := s.next }).2.vars) (nnf false (notF (iteResult (notF f)
          (iteNot f { next := s.next }).1 (iteNot f { next := s.next }).2.added))),
        { s with next := (iteNot f { next := s.next }).2.next }) := by
  refine ⟨[], [], ⟨by simp, by simp, h.1, by simp, by simp, by simp, by simp⟩, fun _ => ⟨?_, by simp⟩,
    fun I ρ => ⟨fun _ _ => holds_iteAll h, fun _ => ⟨holds_iteAll h, by simp⟩⟩,
    fun V _ _ hf => ⟨?_, by simp⟩, fun Dm I d ρ _ _ hf => ⟨?_, by simp⟩⟩
  · exact IteFree.nnfVisit false true _ (IteFree.notF h.2.2.2.1)
  · have hb : Body (WfQ V vs) f := (matrix_wf f).mp hf
    exact (matrix_wf _).mpr (iteAll_atoms (B := fun _ => True) (n := s.next) wfQ_ok
      (fun _ _ _ h => h.2) hb)
  · have hb : Body (RegQ Dm I d ρ vs) f := (matrix_reg f).mp hf
    exact (matrix_reg _).mpr (iteAll_atoms (B := fun _ => True) (n := s.next) regQ_ok
      (fun _ _ _ h => h.1) hb)

theorem IteSpecF.not {n0 f g s r} (h : IteSpecF n0 f g s r) :
    IteSpecF n0 (.neg f) g s (notF r.1, r.2) := by
  obtain ⟨D, ad, st, fr, sem, kp⟩ := h
  refine ⟨D, ad, st, fun hg => ⟨IteFree.notF (fr hg).1, (fr hg).2⟩,
    fun I ρ => ⟨fun hA hg => ?_, fun hD => ?_⟩,
    fun V hV hg hf => ⟨wf_notF (kp.1 V hV hg hf).1, (kp.1 V hV hg hf).2⟩,
    fun Dm I d ρ hD hg hf => ⟨reg_notF (kp.2 Dm I d ρ hD hg hf).1, (kp.2 Dm I d ρ hD hg hf).2⟩⟩
  · simp only [holds_notF, holds_neg, (sem I ρ).1 hA hg]
  · simp only [holds_notF, holds_neg, ((sem I ρ).2 hD).1, ((sem I ρ).2 hD).2]
    exact ⟨trivial, trivial⟩

theorem IteSpecF.self {n0 f g s} (hf : IteFree f) : IteSpecF n0 f g s (f, s) :=
  ⟨[], [], IteStep.refl n0 s, fun _ => ⟨hf, by simp⟩,
    fun _ _ => ⟨fun _ _ => Iff.rfl, fun _ => ⟨Iff.rfl, by simp⟩⟩,
    fun _ _ _ h => ⟨h, by simp⟩, fun _ _ _ _ _ _ h => ⟨h, by simp⟩⟩

theorem IteSpecF.conj {n0 fs g s r} (h : IteSpecL n0 fs g s r) :
    IteSpecF n0 (.conj fs) g s (mkConj (toSet r.1), r.2) := by
  obtain ⟨D, ad, st, fr, sem, kp⟩ := h
  refine ⟨D, ad, st,
    fun hg => ⟨IteFree.mkConj (fun x hx => (fr hg).1 x (mem_toSet.mp hx)), (fr hg).2⟩,
    fun I ρ => ⟨fun hA hg => ?_, fun hD => ⟨?_, ((sem I ρ).2 hD).2⟩⟩,
    fun V hV hg hf => ?_, fun Dm I d ρ hD hg hf => ?_⟩
  · simp only [holds_mkConj, mem_toSet, holds_conj]; exact ((sem I ρ).1 hA hg).1
  · simp only [holds_mkConj, mem_toSet, holds_conj]; exact ((sem I ρ).2 hD).1.1
  · have q := kp.1 V hV hg (wfFs_mem.mp hf)
    exact ⟨wf_mkConj fun x hx => q.1 x (mem_toSet.mp hx), q.2⟩
  · have q := kp.2 Dm I d ρ hD hg (regFs_mem.mp hf)
    exact ⟨reg_mkConj fun x hx => q.1 x (mem_toSet.mp hx), q.2⟩

theorem IteSpecF.disj {n0 fs g s r} (h : IteSpecL n0 fs g s r) :
    IteSpecF n0 (.disj fs) g s (mkDisj (toSet r.1), r.2) := by
  obtain ⟨D, ad, st, fr, sem, kp⟩ := h
  refine ⟨D, ad, st,
    fun hg => ⟨IteFree.mkDisj (fun x hx => (fr hg).1 x (mem_toSet.mp hx)), (fr hg).2⟩,
    fun I ρ => ⟨fun hA hg => ?_, fun hD => ⟨?_, ((sem I ρ).2 hD).2⟩⟩,
    fun V hV hg hf => ?_, fun Dm I d ρ hD hg hf => ?_⟩
  · simp only [holds_mkDisj, mem_toSet, holds_disj]; exact ((sem I ρ).1 hA hg).2
  · simp only [holds_mkDisj, mem_toSet, holds_disj]; exact ((sem I ρ).2 hD).1.2
  · have q := kp.1 V hV hg (wfFs_mem.mp hf)
    exact ⟨wf_mkDisj fun x hx => q.1 x (mem_toSet.mp hx), q.2⟩
  · have q := kp.2 Dm I d ρ hD hg (regFs_mem.mp hf)
    exact ⟨reg_mkDisj fun x hx => q.1 x (mem_toSet.mp hx), q.2⟩

theorem start_step (n0 : Nat) (s : IteState) (t : Expr) (ht : OldE n0 t) :
    IteStep n0 s s.start [(s.freshVar, t)] [] :=
  ⟨by simp [IteState.start], by simp [IteState.start], by simp [IteState.start],
    by simp [IteState.start, IteState.freshVar], by simp [IteState.freshVar], by simp,
    by simpa using ht⟩

theorem IteSpecE.ite {n0 c a b g} {s : IteState} {rc : Fml × IteState} {ra rb : Expr × IteState}
    (ht : OldE n0 (.ite c a b))
    (hc : IteSpecF n0 c g s.start rc) (ha : IteSpecE n0 a (andF g rc.1) rc.2 ra)
    (hb : IteSpecE n0 b (andF g (notF rc.1)) ra.2 rb) :
    IteSpecE n0 (.ite c a b) g s
      (.var s.freshVar, rb.2.finish (andF g rc.1) (andF g (notF rc.1)) s.freshVar ra.1 rb.1) := by
  obtain ⟨D0, a0, h0, f0, m0, k0⟩ := hc
  obtain ⟨D1, a1, h1, f1, m1, k1⟩ := ha
  obtain ⟨D2, a2, h2, f2, m2, k2⟩ := hb
  have st := ((start_step n0 s _ ht).comp h0).comp (h1.comp h2)
  refine ⟨_, ([] ++ a0) ++ (a1 ++ a2) ++ [iteDef (andF g rc.1) s.freshVar ra.1,
      iteDef (andF g (notF rc.1)) s.freshVar rb.1],
    ⟨st.vars, ?_, st.le, st.range, st.cont, st.sorted, st.old⟩, ?_, ?_, ?_,
    ⟨fun _ => trivial, rfl⟩, ?_⟩
  · simp only [IteState.finish, st.added, List.append_assoc]
  · intro hg
    have hc' := (f0 hg).1
    have ha' := f1 (IteFree.andF hg hc')
    have hb' := f2 (IteFree.andF hg (IteFree.notF hc'))
    refine ⟨trivial, ?_⟩
    intro x hx
    simp only [List.mem_append, List.nil_append, List.mem_cons, List.not_mem_nil, or_false] at hx
    rcases hx with (hx | hx | hx) | rfl | rfl
    · exact (f0 hg).2 x hx
    · exact ha'.2 x hx
    · exact hb'.2 x hx
    · exact IteFree.orF (IteFree.notF (IteFree.andF hg hc')) (IteFree.mkRel trivial ha'.1)
    · exact IteFree.orF (IteFree.notF (IteFree.andF hg (IteFree.notF hc')))
        (IteFree.mkRel trivial hb'.1)
  · intro I ρ
    constructor
    · intro hA hg
      simp only [List.nil_append, ASat_append] at hA
      obtain ⟨⟨hA0, hA1, hA2⟩, hA3⟩ := hA
      have d1 : holds I ρ (iteDef (andF g rc.1) s.freshVar ra.1) := hA3 _ (by simp)
      have d2 : holds I ρ (iteDef (andF g (notF rc.1)) s.freshVar rb.1) := hA3 _ (by simp)
      rw [holds_iteDef] at d1 d2
      have hcc := (m0 I ρ).1 hA0 hg
      simp only [eval]
      by_cases hh : holds I ρ c
      · have hg' : holds I ρ (andF g rc.1) := by simp [hg, hcc, hh]
        rw [if_pos hh, d1 hg', (m1 I ρ).1 hA1 hg']
      · have hg' : holds I ρ (andF g (notF rc.1)) := by simp [hg, hcc, hh]
        rw [if_neg hh, d2 hg', (m2 I ρ).1 hA2 hg']
    · intro hD
      simp only [DSat_append] at hD
      obtain ⟨⟨hDv, hD0⟩, hD1, hD2⟩ := hD
      have hv : ρ s.freshVar = eval I ρ (.ite c a b) :=
        hDv (s.freshVar, .ite c a b) (by simp)
      have e0 := (m0 I ρ).2 hD0
      have e1 := (m1 I ρ).2 hD1
      have e2 := (m2 I ρ).2 hD2
      refine ⟨by simpa only [eval] using hv, ?_⟩
      simp only [eval] at hv
      refine ASat_append.mpr ⟨ASat_append.mpr ⟨by simpa using e0.2, ASat_append.mpr ⟨e1.2, e2.2⟩⟩, ?_⟩
      intro x hx
      simp only [List.mem_cons, List.not_mem_nil, or_false] at hx
      rcases hx with rfl | rfl
      · rw [holds_iteDef]
        intro hg
        have hh : holds I ρ c := by simp only [holds_andF] at hg; exact e0.1.mp hg.2
        rw [hv, if_pos hh, e1.1]
      · rw [holds_iteDef]
        intro hg
        have hh : ¬ holds I ρ c := by
          simp only [holds_andF, holds_notF] at hg; exact fun h => hg.2 (e0.1.mpr h)
        rw [hv, if_neg hh, e2.1]
  · intro V hV hg he
    have hv : V s.freshVar := hV (s.freshVar, .ite c a b) (by simp)
    have q0 := k0.1 V (fun p hp => hV p (by simp [hp])) hg he.1
    have gt := wf_andF hg q0.1
    have ge := wf_andF hg (wf_notF q0.1)
    have q1 := k1.1 V (fun p hp => hV p (by simp [hp])) gt he.2.1
    have q2 := k2.1 V (fun p hp => hV p (by simp [hp])) ge he.2.2
    have hve : WfE V (.var s.freshVar) := ⟨by simp [IteState.freshVar], hv⟩
    refine ⟨hve, fun x hx => ?_⟩
    simp only [List.mem_append, List.nil_append, List.mem_cons, List.not_mem_nil, or_false] at hx
    rcases hx with (hx | hx | hx) | rfl | rfl
    · exact q0.2 x hx
    · exact q1.2 x hx
    · exact q2.2 x hx
    · exact wf_orF (wf_notF gt) (wf_mkRel hve q1.1)
    · exact wf_orF (wf_notF ge) (wf_mkRel hve q2.1)
  · intro Dm I d ρ hD hg he
    simp only [DSat_append] at hD
    obtain ⟨⟨hDv, hD0⟩, hD1, hD2⟩ := hD
    have q0 := k0.2 Dm I d ρ hD0 hg he.1
    have gt := reg_andF hg q0.1
    have ge := reg_andF hg (reg_notF q0.1)
    have q1 := k1.2.2 Dm I d ρ hD1 gt he.2.1
    have q2 := k2.2.2 Dm I d ρ hD2 ge he.2.2
    refine ⟨trivial, fun x hx => ?_⟩
    simp only [List.mem_append, List.nil_append, List.mem_cons, List.not_mem_nil, or_false] at hx
    rcases hx with (hx | hx | hx) | rfl | rfl
    · exact q0.2 x hx
    · exact q1.2 x hx
    · exact q2.2 x hx
    · exact reg_orF (reg_notF gt) (reg_mkRel ⟨trivial, q1.1, relOff_eq⟩)
    · exact reg_orF (reg_notF ge) (reg_mkRel ⟨trivial, q2.1, relOff_eq⟩)

theorem IteSpecE.self {n0 e g s} (he : IteFreeE e) : IteSpecE n0 e g s (e, s) :=
  ⟨[], [], IteStep.refl n0 s, fun _ => ⟨he, by simp⟩,
    fun _ _ => ⟨fun _ _ => rfl, fun _ => ⟨rfl, by simp⟩⟩,
    fun _ _ _ h => ⟨h, by simp⟩, ⟨id, rfl⟩, fun _ _ _ _ _ _ h => ⟨h, by simp⟩⟩

mutual
theorem iteE_spec (n0 : Nat) (e : Expr) (g : Fml) (s : IteState) (he : OldE n0 e)
    (hn : n0 ≤ s.next) : IteSpecE n0 e g s (iteE e g s) := by
  cases e with
  | const q => simp only [iteE]; exact .self trivial
  | rconst r => simp only [iteE]; exact .self trivial
  | var v => simp only [iteE]; exact .self trivial
  | add a b =>
    have ha := iteE_spec n0 a g s he.1 hn
    have hb := iteE_spec n0 b g (iteE a g s).2 he.2 (hn.trans ha.choose_spec.choose_spec.1.le)
    simp only [iteE]
    exact ha.binary hb (fun _ _ h1 h2 => ⟨h1, h2⟩) (fun I ρ x y h1 h2 => by simp only [eval, h1, h2])
      (fun _ h => h) (fun _ _ _ h h' => ⟨h, h'⟩) (fun _ _ _ _ h => h)
      (fun _ _ _ _ _ _ _ h h' _ _ => ⟨h, h'⟩) (fun _ _ => ⟨id, rfl⟩)
  | mul a b =>
    have ha := iteE_spec n0 a g s he.1 hn
    have hb := iteE_spec n0 b g (iteE a g s).2 he.2 (hn.trans ha.choose_spec.choose_spec.1.le)
    simp only [iteE]
    exact ha.binary hb (fun _ _ h1 h2 => ⟨h1, h2⟩) (fun I ρ x y h1 h2 => by simp only [eval, h1, h2])
      (fun _ h => h) (fun _ _ _ h h' => ⟨h, h'⟩) (fun _ _ _ _ h => h)
      (fun _ _ _ _ _ _ _ h h' _ _ => ⟨h, h'⟩) (fun _ _ => ⟨id, rfl⟩)
  | app2 f a b =>
    have ha := iteE_spec n0 a g s he.1 hn
    have hb := iteE_spec n0 b g (iteE a g s).2 he.2 (hn.trans ha.choose_spec.choose_spec.1.le)
    simp only [iteE]
    exact ha.binary (mk := Expr.app2 f) hb (fun _ _ h1 h2 => ⟨h1, h2⟩)
      (fun I ρ x y h1 h2 => by simp only [eval, h1, h2])
      (fun _ h => h) (fun _ _ _ h h' => ⟨h, h'⟩) (fun _ _ _ _ h => ⟨h.1, h.2.1⟩)
      (fun _ _ _ _ _ _ he h h' e e' => ⟨h, h', by rw [e, e']; exact he.2.2⟩) (fun _ _ => ⟨id, rfl⟩)
  | app1 f a =>
    obtain ⟨D, ad, st, fr, sem, kp⟩ := iteE_spec n0 a g s he hn
    simp only [iteE]
    exact ⟨D, ad, st, fr, fun I ρ => ⟨fun h1 h2 => by simp only [eval, (sem I ρ).1 h1 h2],
      fun hD => ⟨by simp only [eval, ((sem I ρ).2 hD).1], ((sem I ρ).2 hD).2⟩⟩,
      kp.1, ⟨id, rfl⟩, fun Dm I d ρ hD hg he => ⟨⟨(kp.2.2 Dm I d ρ hD hg he.1).1,
        by rw [((sem I ρ).2 hD).1]; exact he.2⟩, (kp.2.2 Dm I d ρ hD hg he.1).2⟩⟩
  | ite c a b =>
    have hc := iteF_spec n0 c g s.start he.1 (by simp only [IteState.start]; omega)
    have l1 : n0 ≤ (iteF c g s.start).2.next := by
      have := hc.choose_spec.choose_spec.1.le
      simp only [IteState.start] at this; simp only [IteState.start]; omega
    have ha := iteE_spec n0 a (andF g (iteF c g s.start).1) (iteF c g s.start).2 he.2.1 l1
    have hb := iteE_spec n0 b (andF g (notF (iteF c g s.start).1)) _ he.2.2
      (l1.trans ha.choose_spec.choose_spec.1.le)
    simp only [iteE]
    exact IteSpecE.ite he hc ha hb
theorem iteF_spec (n0 : Nat) (f : Fml) (g : Fml) (s : IteState) (hf : Old n0 f)
    (hn : n0 ≤ s.next) : IteSpecF n0 f g s (iteF f g s) := by
  cases f with
  | ff => simp only [iteF]; exact .self trivial
  | tt => simp only [iteF]; exact .self trivial
  | bvar v => simp only [iteF]; exact .self trivial
  | rel op a b =>
    have ha := iteE_spec n0 a g s hf.1 hn
    have hb := iteE_spec n0 b g (iteE a g s).2 hf.2 (hn.trans ha.choose_spec.choose_spec.1.le)
    simp only [iteF]
    exact .rel ha hb
  | conj fs => simp only [iteF]; exact .conj (iteList_spec n0 fs g s hf hn)
  | disj fs => simp only [iteF]; exact .disj (iteList_spec n0 fs g s hf hn)
  | neg f => simp only [iteF]; exact .not (iteF_spec n0 f g s hf hn)
  | all vs f =>
    simp only [iteF]
    exact .all (ProcSpec.of (iteNot_spec n0 f { next := s.next } hf.2 hn) hn (Old.notF hf.2))
theorem iteNot_spec (n0 : Nat) (f : Fml) (s : IteState) (hf : Old n0 f)
    (hn : n0 ≤ s.next) : IteSpecF n0 (notF f) .tt s (iteNot f s) := by
  cases f with
  | ff => simp only [iteNot]; exact .self trivial
  | tt => simp only [iteNot]; exact .self trivial
  | neg f => simpa [iteNot, notF] using iteF_spec n0 f .tt s hf hn
  | bvar v =>
    rw [notF_bvar, show iteNot (.bvar v) s = (.neg (.bvar v), s) by simp only [iteNot, notF_bvar]]
    exact .self trivial
  | rel op a b =>
    have ha := iteE_spec n0 a .tt s hf.1 hn
    have hb := iteE_spec n0 b .tt (iteE a .tt s).2 hf.2 (hn.trans ha.choose_spec.choose_spec.1.le)
    rw [notF_rel]
    simp only [iteNot]
    exact IteSpecF.not (IteSpecF.rel ha hb)
  | conj fs =>
    rw [show notF (.conj fs) = .neg (.conj fs) by simp [notF]]
    simp only [iteNot]
    exact IteSpecF.not (IteSpecF.conj (iteList_spec n0 fs .tt s hf hn))
  | disj fs =>
    rw [show notF (.disj fs) = .neg (.disj fs) by simp [notF]]
    simp only [iteNot]
    exact IteSpecF.not (IteSpecF.disj (iteList_spec n0 fs .tt s hf hn))
  | all vs f =>
    rw [notF_all]
    simp only [iteNot]
    exact IteSpecF.not (IteSpecF.all
      (ProcSpec.of (iteNot_spec n0 f { next := s.next } hf.2 hn) hn (Old.notF hf.2)))
theorem iteList_spec (n0 : Nat) (fs : List Fml) (g : Fml) (s : IteState) (hf : OldList n0 fs)
    (hn : n0 ≤ s.next) : IteSpecL n0 fs g s (iteList fs g s) := by
  cases fs with
  | nil =>
    simp only [iteList]
    exact ⟨[], [], IteStep.refl n0 s, by simp, by simp, by simp [KeepL]⟩
  | cons f fs =>
    obtain ⟨D1, a1, h1, f1, m1, kp1⟩ := iteF_spec n0 f g s hf.1 hn
    obtain ⟨D2, a2, h2, f2, m2, kp2⟩ := iteList_spec n0 fs g (iteF f g s).2 hf.2 (hn.trans h1.le)
    simp only [iteList]
    refine ⟨D1 ++ D2, a1 ++ a2, h1.comp h2, fun hg => ?_,
      fun I ρ => ⟨fun hA hg => ?_, fun hD => ?_⟩, ?_, ?_⟩
    · constructor
      · intro x hx
        rcases List.mem_cons.mp hx with rfl | hx
        exacts [(f1 hg).1, (f2 hg).1 x hx]
      · intro x hx
        rcases List.mem_append.mp hx with hx | hx
        exacts [(f1 hg).2 x hx, (f2 hg).2 x hx]
    · rw [ASat_append] at hA
      have k1 := (m1 I ρ).1 hA.1 hg
      have k2 := (m2 I ρ).1 hA.2 hg
      simp only [List.mem_cons, forall_eq_or_imp, exists_eq_or_imp, k1, k2.1, k2.2]
      exact ⟨trivial, trivial⟩
    · rw [DSat_append] at hD
      have k1 := (m1 I ρ).2 hD.1
      have k2 := (m2 I ρ).2 hD.2
      refine ⟨?_, ASat_append.mpr ⟨k1.2, k2.2⟩⟩
      simp only [List.mem_cons, forall_eq_or_imp, exists_eq_or_imp, k1.1, k2.1.1, k2.1.2]
      exact ⟨trivial, trivial⟩
    · intro V hV hg hfs
      have q1 := kp1.1 V (fun p hp => hV p (by simp [hp])) hg (hfs f (by simp))
      have q2 := kp2.1 V (fun p hp => hV p (by simp [hp])) hg (fun x hx => hfs x (by simp [hx]))
      constructor
      · intro x hx
        rcases List.mem_cons.mp hx with rfl | hx
        exacts [q1.1, q2.1 x hx]
      · intro x hx
        rcases List.mem_append.mp hx with hx | hx
        exacts [q1.2 x hx, q2.2 x hx]
    · intro Dm I d ρ hD hg hfs
      rw [DSat_append] at hD
      have q1 := kp1.2 Dm I d ρ hD.1 hg (hfs f (by simp))
      have q2 := kp2.2 Dm I d ρ hD.2 hg (fun x hx => hfs x (by simp [hx]))
      constructor
      · intro x hx
        rcases List.mem_cons.mp hx with rfl | hx
        exacts [q1.1, q2.1 x hx]
      · intro x hx
        rcases List.mem_append.mp hx with hx | hx
        exacts [q1.2 x hx, q2.2 x hx]
end

end Verif.Proof
