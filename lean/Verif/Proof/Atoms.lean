import Verif.Spec.Regular
import Verif.Model.Tseitin
import Verif.Model.Ite
import Verif.Model.Abstractor
import Verif.Proof.Nnf
import Verif.Proof.Contractor
import Verif.Proof.Abstractor

/-! Properties of the atoms of a formula, and how constructions keep them. -/

namespace Verif.Proof
open Verif Verif.Model Verif.Spec

mutual
/-- All relations of the formula satisfy `P`, all its Boolean variables `B`, all its quantified
formulas `Q`. -/
def ForAtoms (P : RelOp → Expr → Expr → Prop) (B : Variable → Prop)
    (Q : List Variable → Fml → Prop) : Fml → Prop
  | .ff => True
  | .tt => True
  | .bvar v => B v
  | .rel op a b => P op a b
  | .conj fs => ForAtomsL P B Q fs
  | .disj fs => ForAtomsL P B Q fs
  | .neg f => ForAtoms P B Q f
  | .all vs f => Q vs f
def ForAtomsL (P : RelOp → Expr → Expr → Prop) (B : Variable → Prop)
    (Q : List Variable → Fml → Prop) : List Fml → Prop
  | [] => True
  | f :: fs => ForAtoms P B Q f ∧ ForAtomsL P B Q fs
end

/-- No quantified formulas. -/
def NoQ (_ : List Variable) (_ : Fml) : Prop := False

variable {P : RelOp → Expr → Expr → Prop} {B : Variable → Prop} {Q : List Variable → Fml → Prop}

theorem forAtomsL_iff {fs} : ForAtomsL P B Q fs ↔ ∀ f ∈ fs, ForAtoms P B Q f := by
  induction fs with
  | nil => simp [ForAtomsL]
  | cons f fs ih => simp [ForAtomsL, ih]

theorem ForAtoms.notF {f} (h : ForAtoms P B Q f) : ForAtoms P B Q (Model.notF f) := by
  unfold Model.notF
  split_ifs
  · trivial
  · trivial
  · cases f <;> exact h

theorem ForAtoms.of_notF {f} (h : ForAtoms P B Q (Model.notF f)) : ForAtoms P B Q f := by
  unfold Model.notF at h
  split_ifs at h with h1 h2
  · subst h1; trivial
  · subst h2; trivial
  · cases f <;> exact h

theorem ForAtoms.mkConj {fs} (h : ∀ g ∈ fs, ForAtoms P B Q g) : ForAtoms P B Q (Model.mkConj fs) :=
  mkConj_ind (Q := ForAtoms P B Q) (R := ForAtoms P B Q) (fun _ h => forAtomsL_iff.mp h) trivial
    trivial (fun _ h => h) (fun _ h => forAtomsL_iff.mpr h) h

theorem ForAtoms.mkDisj {fs} (h : ∀ g ∈ fs, ForAtoms P B Q g) : ForAtoms P B Q (Model.mkDisj fs) :=
  mkDisj_ind (Q := ForAtoms P B Q) (R := ForAtoms P B Q) (fun _ h => forAtomsL_iff.mp h) trivial
    trivial (fun _ h => h) (fun _ h => forAtomsL_iff.mpr h) h

theorem ForAtoms.andF {f g} (hf : ForAtoms P B Q f) (hg : ForAtoms P B Q g) :
    ForAtoms P B Q (Model.andF f g) := by
  unfold Model.andF
  have hm := fun a s (ha : ForAtoms P B Q a) => mergeConj_mem (Q := ForAtoms P B Q) (f := a) (s := s)
    (fun _ h => forAtomsL_iff.mp h) ha
  split_ifs
  · exact hf
  · trivial
  · exact hg
  · exact hf
  · exact hf
  · split
    · exact forAtomsL_iff.mpr (hm _ _ hg (forAtomsL_iff.mp hf))
    · exact forAtomsL_iff.mpr (hm _ _ hf (forAtomsL_iff.mp hg))
    · refine forAtomsL_iff.mpr (fun x hx => ?_)
      simp only [mem_insertF, List.not_mem_nil, or_false] at hx
      rcases hx with rfl | rfl <;> assumption

theorem ForAtoms.orF {f g} (hf : ForAtoms P B Q f) (hg : ForAtoms P B Q g) :
    ForAtoms P B Q (Model.orF f g) := by
  unfold Model.orF
  have hm := fun a s (ha : ForAtoms P B Q a) => mergeDisj_mem (Q := ForAtoms P B Q) (f := a) (s := s)
    (fun _ h => forAtomsL_iff.mp h) ha
  split_ifs
  · exact hf
  · trivial
  · exact hg
  · exact hf
  · exact hf
  · split
    · exact forAtomsL_iff.mpr (hm _ _ hg (forAtomsL_iff.mp hf))
    · exact forAtomsL_iff.mpr (hm _ _ hf (forAtomsL_iff.mp hg))
    · refine forAtomsL_iff.mpr (fun x hx => ?_)
      simp only [mem_insertF, List.not_mem_nil, or_false] at hx
      rcases hx with rfl | rfl <;> assumption

theorem ForAtoms.mkRel {op a b} (h : P op a b) : ForAtoms P B Q (Model.mkRel op a b) := by
  unfold Model.mkRel
  repeat' split
  all_goals first
    | exact h
    | trivial

theorem ForAtoms.iteResult {f g ad} (h : ForAtoms P B Q g) (ha : ∀ a ∈ ad, ForAtoms P B Q a) :
    ForAtoms P B Q (Model.iteResult f g ad) := by
  unfold Model.iteResult
  split_ifs with hh
  · exact hh.1 ▸ h
  · exact .andF h (.mkConj ha)

mutual
theorem ForAtoms.mono {P' : RelOp → Expr → Expr → Prop} {B' : Variable → Prop}
    {Q' : List Variable → Fml → Prop}
    (hP : ∀ op a b, P op a b → P' op a b) (hB : ∀ v, B v → B' v) (hQ : ∀ vs f, Q vs f → Q' vs f) :
    ∀ f, ForAtoms P B Q f → ForAtoms P' B' Q' f
  | .ff, _ => trivial
  | .tt, _ => trivial
  | .bvar v, h => hB v h
  | .rel op a b, h => hP op a b h
  | .conj fs, h => ForAtomsL.mono hP hB hQ fs h
  | .disj fs, h => ForAtomsL.mono hP hB hQ fs h
  | .neg f, h => ForAtoms.mono hP hB hQ f h
  | .all vs f, h => hQ vs f h
theorem ForAtomsL.mono {P' : RelOp → Expr → Expr → Prop} {B' : Variable → Prop}
    {Q' : List Variable → Fml → Prop}
    (hP : ∀ op a b, P op a b → P' op a b) (hB : ∀ v, B v → B' v) (hQ : ∀ vs f, Q vs f → Q' vs f) :
    ∀ fs, ForAtomsL P B Q fs → ForAtomsL P' B' Q' fs
  | [], _ => trivial
  | f :: fs, h => ⟨ForAtoms.mono hP hB hQ f h.1, ForAtomsL.mono hP hB hQ fs h.2⟩
end

mutual
theorem ForAtoms.and {P' : RelOp → Expr → Expr → Prop} {B' : Variable → Prop}
    {Q' : List Variable → Fml → Prop} :
    ∀ f, ForAtoms P B Q f → ForAtoms P' B' Q' f →
      ForAtoms (fun op a b => P op a b ∧ P' op a b) (fun v => B v ∧ B' v)
        (fun vs f => Q vs f ∧ Q' vs f) f
  | .ff, _, _ => trivial
  | .tt, _, _ => trivial
  | .bvar v, h, h' => ⟨h, h'⟩
  | .rel op a b, h, h' => ⟨h, h'⟩
  | .conj fs, h, h' => ForAtomsL.and fs h h'
  | .disj fs, h, h' => ForAtomsL.and fs h h'
  | .neg f, h, h' => ForAtoms.and f h h'
  | .all _ _, h, h' => ⟨h, h'⟩
theorem ForAtomsL.and {P' : RelOp → Expr → Expr → Prop} {B' : Variable → Prop}
    {Q' : List Variable → Fml → Prop} :
    ∀ fs, ForAtomsL P B Q fs → ForAtomsL P' B' Q' fs →
      ForAtomsL (fun op a b => P op a b ∧ P' op a b) (fun v => B v ∧ B' v)
        (fun vs f => Q vs f ∧ Q' vs f) fs
  | [], _, _ => trivial
  | f :: fs, h, h' => ⟨ForAtoms.and f h.1 h'.1, ForAtomsL.and fs h.2 h'.2⟩
end

/-! ### Normal forms -/

/-- A matrix the comparisons of which satisfy `p`. -/
abbrev Body (p : Expr → Expr → Prop) (f : Fml) : Prop :=
  ForAtoms (fun _ a b => p a b) (fun _ => False) NoQ f

mutual
theorem ForAtoms.nnfVisit (hP : ∀ op a b, P op a b → P op.neg a b) (push pol : Bool) :
    ∀ f, ForAtoms P B Q f → ForAtoms P B Q (nnfVisit push pol f)
  | .ff, _ => by simp only [Model.nnfVisit]; split <;> trivial
  | .tt, _ => by simp only [Model.nnfVisit]; split <;> trivial
  | .bvar v, h => by simp only [Model.nnfVisit]; split; exacts [h, ForAtoms.notF h]
  | .rel op a b, h => by
    simp only [Model.nnfVisit]
    split_ifs
    · exact h
    · exact .mkRel (hP _ _ _ h)
    · exact ForAtoms.notF h
  | .conj fs, h => by
    have := ForAtoms.nnfVisitList hP push pol fs (forAtomsL_iff.mp h)
    simp only [Model.nnfVisit]; split
    · exact .mkConj fun g hg => this g (mem_toSet.mp hg)
    · exact .mkDisj fun g hg => this g (mem_toSet.mp hg)
  | .disj fs, h => by
    have := ForAtoms.nnfVisitList hP push pol fs (forAtomsL_iff.mp h)
    simp only [Model.nnfVisit]; split
    · exact .mkDisj fun g hg => this g (mem_toSet.mp hg)
    · exact .mkConj fun g hg => this g (mem_toSet.mp hg)
  | .neg f, h => ForAtoms.nnfVisit hP push (!pol) f h
  | .all vs f, h => by simp only [Model.nnfVisit]; split; exacts [h, ForAtoms.notF h]
theorem ForAtoms.nnfVisitList (hP : ∀ op a b, P op a b → P op.neg a b) (push pol : Bool) :
    ∀ fs, (∀ f ∈ fs, ForAtoms P B Q f) → ∀ g ∈ nnfVisitList push pol fs, ForAtoms P B Q g
  | [], _ => by simp [Model.nnfVisitList]
  | f :: fs, h => by
    simp only [Model.nnfVisitList, List.mem_cons, forall_eq_or_imp]
    exact ⟨ForAtoms.nnfVisit hP push pol f (h f (by simp)),
      ForAtoms.nnfVisitList hP push pol fs (fun g hg => h g (by simp [hg]))⟩
end

theorem Body.distribute {p f g} (hf : Body p f) (hg : Body p g) : Body p (distribute f g) := by
  unfold Model.distribute
  refine ForAtoms.mkConj fun x hx => ?_
  rw [mem_toSet] at hx
  split at hx
  · obtain ⟨c1, h1, hx⟩ := List.mem_flatMap.mp hx
    obtain ⟨c2, h2, rfl⟩ := List.mem_map.mp hx
    exact .orF (forAtomsL_iff.mp hf c1 h1) (forAtomsL_iff.mp hg c2 h2)
  · obtain ⟨c1, h1, rfl⟩ := List.mem_map.mp hx
    exact .orF (forAtomsL_iff.mp hf c1 h1) hg
  · obtain ⟨c2, h2, rfl⟩ := List.mem_map.mp hx
    exact .orF hf (forAtomsL_iff.mp hg c2 h2)
  · rw [List.mem_singleton] at hx; subst hx
    exact .orF hf hg

mutual
theorem naiveVisit_body {p} : ∀ {f g}, Body p f → naiveVisit f = .ok g → Body p g
  | .ff, g, _, h => by rw [naiveVisit] at h; cases h; trivial
  | .tt, g, _, h => by rw [naiveVisit] at h; cases h; trivial
  | .bvar v, g, hf, _ => absurd hf id
  | .rel op a b, g, hf, h => by
    have hm : ∀ op', Body p (mkRel op' a b) := fun _ => .mkRel hf
    cases op <;> rw [naiveVisit] at h <;> first | (intro h; cases h) | skip
    all_goals cases h
    · exact .andF (hm _) (hm _)
    · exact .orF (hm _) (hm _)
    all_goals exact hf
  | .all vs f, g, hf, _ => absurd hf id
  | .conj fs, g, hf, h => by
    rw [naiveVisit] at h
    obtain ⟨gs, h1, h⟩ := bindO_ok h
    cases h
    exact .mkConj fun x hx => naiveVisitList_body (forAtomsL_iff.mp hf) h1 x (mem_toSet.mp hx)
  | .disj fs, g, hf, h => by
    rw [naiveVisit] at h
    obtain ⟨gs, h1, h⟩ := bindO_ok h
    cases h
    have hall : ∀ x ∈ toSet gs, Body p x := fun x hx =>
      naiveVisitList_body (forAtomsL_iff.mp hf) h1 x (mem_toSet.mp hx)
    have key : ∀ (l : List Fml) (a : Fml), Body p a → (∀ x ∈ l, Body p x) →
        Body p (l.foldl distribute a) := by
      intro l
      induction l with
      | nil => exact fun _ h _ => h
      | cons x l ih =>
        intro a ha hl
        exact ih _ (ha.distribute (hl x (by simp))) (fun y hy => hl y (by simp [hy]))
    exact key _ _ trivial hall
  | .neg f, g, hf, h => by
    rw [naiveVisit] at h
    split at h
    · cases h; exact hf
    · cases h
theorem naiveVisitList_body {p} : ∀ {fs gs}, (∀ f ∈ fs, Body p f) → naiveVisitList fs = .ok gs →
    ∀ g ∈ gs, Body p g
  | [], gs, _, h => by rw [naiveVisitList] at h; cases h; simp
  | f :: fs, gs, hf, h => by
    rw [naiveVisitList] at h
    obtain ⟨x, h1, h⟩ := bindO_ok h
    obtain ⟨xs, h2, h⟩ := bindO_ok h
    cases h
    intro g hg
    rcases List.mem_cons.mp hg with rfl | hg
    · exact naiveVisit_body (hf f (by simp)) h1
    · exact naiveVisitList_body (fun y hy => hf y (by simp [hy])) h2 g hg
end

theorem naiveCnf_body {p f g} (hf : Body p f) (h : naiveCnf f = .ok g) : Body p g :=
  naiveVisit_body (ForAtoms.nnfVisit (fun _ _ _ h => h) true true f hf) h

mutual
/-- What holds of comparisons holds, by the variables of the matrix, of the comparisons in it. -/
theorem Body.vars {p q : Expr → Expr → Prop} {W : Variable → Prop}
    (hpq : ∀ a b, p a b → (∀ v ∈ a.vars ++ b.vars, W v) → q a b) :
    ∀ f, Body p f → (∀ v ∈ f.fv, W v) → Body q f
  | .ff, _, _ => trivial
  | .tt, _, _ => trivial
  | .bvar v, h, _ => absurd h id
  | .rel op a b, h, hv => hpq a b h (by simpa only [Fml.fv] using hv)
  | .conj fs, h, hv => Body.varsL hpq fs h hv
  | .disj fs, h, hv => Body.varsL hpq fs h hv
  | .neg f, h, hv => Body.vars (q := q) hpq f h hv
  | .all _ _, h, _ => absurd h id
theorem Body.varsL {p q : Expr → Expr → Prop} {W : Variable → Prop}
    (hpq : ∀ a b, p a b → (∀ v ∈ a.vars ++ b.vars, W v) → q a b) :
    ∀ fs, ForAtomsL (fun _ a b => p a b) (fun _ => False) NoQ fs → (∀ v ∈ Fml.fvList fs, W v) →
      ForAtomsL (fun _ a b => q a b) (fun _ => False) NoQ fs
  | [], _, _ => trivial
  | f :: fs, h, hv => by
    simp only [Fml.fvList, List.mem_append] at hv
    exact ⟨Body.vars hpq f h.1 (fun v h => hv v (.inl h)),
      Body.varsL hpq fs h.2 (fun v h => hv v (.inr h))⟩
end

/-- What is needed of the property `q vs` of comparisons under a quantifier over `vs`: bound
variables that do not occur can be dropped, and the quantifier itself, if it binds nothing. -/
structure QOk (P : RelOp → Expr → Expr → Prop) (q : List Variable → Expr → Expr → Prop) : Prop where
  shrink : ∀ vs vs' a b, q vs a b → (∀ v ∈ a.vars ++ b.vars, v ∈ vs → v ∈ vs') →
    (∀ v ∈ vs', v ∈ vs) → q vs' a b
  drop : ∀ vs op a b, q vs a b → (∀ v ∈ a.vars ++ b.vars, v ∉ vs) → P op a b

/-- Quantified formulas with such matrices. -/
abbrev QB (q : List Variable → Expr → Expr → Prop) (vs : List Variable) (f : Fml) : Prop :=
  Body (q vs) f

theorem forallF_atoms {q : List Variable → Expr → Expr → Prop} (hq : QOk P q) {vs f}
    (h : Body (q vs) f) : ForAtoms P B (QB q) (forallF vs f) :=
  Body.vars (W := (· ∈ f.fv)) (fun a b hab hv => hq.shrink vs _ a b hab
    (fun v h1 h2 => by simp [h2, hv v h1]) (fun v h => (List.mem_filter.mp h).1)) f h (fun _ h => h)

theorem tsQuantify_atoms {q : List Variable → Expr → Expr → Prop} (hq : QOk P q) {vs f}
    (h : Body (q vs) f) : ForAtoms P B (QB q) (tsQuantify vs f) := by
  unfold tsQuantify
  split
  · exact forallF_atoms hq h
  · rename_i hv
    have hv' : ∀ v ∈ f.fv, v ∉ vs := fun v h1 h2 =>
      hv (List.any_eq_true.mpr ⟨v, h1, by simpa using h2⟩)
    have key : ∀ (n : Nat) (f : Fml), sizeOf f ≤ n → Body (q vs) f → (∀ v ∈ f.fv, v ∉ vs) →
        ForAtoms P B (QB q) f := by
      intro n
      induction n with
      | zero => intro f hs; cases f <;> simp at hs
      | succ n ih =>
        intro f hs h hv
        cases f with
        | ff => trivial
        | tt => trivial
        | bvar w => exact absurd h id
        | rel op a b => exact hq.drop vs op a b h (by simpa only [Fml.fv] using hv)
        | all vs f => exact absurd h id
        | neg f => exact ih f (by simp at hs; omega) h hv
        | conj fs =>
          refine forAtomsL_iff.mpr fun g hg => ?_
          have := List.sizeOf_lt_of_mem hg
          exact ih g (by simp at hs; omega) (forAtomsL_iff.mp h g hg)
            (fun v h => hv v (Fml.mem_fvList.mpr ⟨g, hg, h⟩))
        | disj fs =>
          refine forAtomsL_iff.mpr fun g hg => ?_
          have := List.sizeOf_lt_of_mem hg
          exact ih g (by simp at hs; omega) (forAtomsL_iff.mp h g hg)
            (fun v h => hv v (Fml.mem_fvList.mpr ⟨g, hg, h⟩))
    exact key _ f le_rfl h hv'

/-- What the Tseitin conversion needs of the property of quantified formulas. -/
def TsQ (P : RelOp → Expr → Expr → Prop) (B : Variable → Prop) (Q : List Variable → Fml → Prop) :
    Prop := ∀ vs f g, Q vs f → naiveCnf f = .ok g → ∀ c ∈ g.getClauses,
      ForAtoms P B Q (tsQuantify vs c)

theorem tsQ_no : TsQ P B NoQ := fun _ _ _ h => absurd h id

theorem getClauses_atoms {f} (h : ForAtoms P B Q f) : ∀ g ∈ f.getClauses, ForAtoms P B Q g := by
  cases f <;> simp only [Fml.getClauses, List.mem_singleton, forall_eq]
  case conj fs => exact forAtomsL_iff.mp h
  all_goals exact h

theorem tsQ_body {q : List Variable → Expr → Expr → Prop} (hq : QOk P q) : TsQ P B (QB q) :=
  fun _ _ _ h hg c hc => tsQuantify_atoms hq (getClauses_atoms (naiveCnf_body h hg) c hc)

/-! ### Tseitin -/

mutual
theorem tsVisit_pre {f : Fml} {s : TsState} {r : Fml × TsState} (h : tsVisit f s = .ok r) :
    s.map <+: r.2.map := by
  cases f with
  | ff => simp only [tsVisit] at h; cases h; exact List.prefix_rfl
  | tt => simp only [tsVisit] at h; cases h; exact List.prefix_rfl
  | bvar v => simp only [tsVisit] at h; cases h; exact List.prefix_rfl
  | rel op a b => simp only [tsVisit] at h; cases h; exact List.prefix_rfl
  | all vs f =>
    simp only [tsVisit] at h
    obtain ⟨g, -, h⟩ := bindO_ok h
    split at h
    · split at h
      · cases h; exact List.prefix_rfl
      · cases h; exact List.prefix_append _ _
    · cases h
  | conj fs =>
    simp only [tsVisit] at h
    obtain ⟨q, hq, h⟩ := bindO_ok h
    cases h
    exact (tsVisitList_pre hq).trans (List.prefix_append _ _)
  | disj fs =>
    simp only [tsVisit] at h
    obtain ⟨q, hq, h⟩ := bindO_ok h
    cases h
    exact (tsVisitList_pre hq).trans (List.prefix_append _ _)
  | neg f =>
    simp only [tsVisit] at h
    split at h
    · cases h; exact List.prefix_rfl
    · obtain ⟨q, hq, h⟩ := bindO_ok h
      cases h
      have h1 := tsVisit_pre hq
      exact List.IsPrefix.trans h1 (List.prefix_append _ _)
theorem tsVisitList_pre {fs : List Fml} {s : TsState} {r : List Fml × TsState}
    (h : tsVisitList fs s = .ok r) : s.map <+: r.2.map := by
  cases fs with
  | nil => simp only [tsVisitList] at h; cases h; exact List.prefix_rfl
  | cons f fs =>
    simp only [tsVisitList] at h
    obtain ⟨q, hq, h⟩ := bindO_ok h
    obtain ⟨q2, hq2, h⟩ := bindO_ok h
    cases h
    have h2 := tsVisitList_pre hq2
    exact (tsVisit_pre hq).trans h2
end

mutual
theorem tsVisit_atoms (hQ : TsQ P B Q) {f : Fml} {s : TsState} {r : Fml × TsState} (h : tsVisit f s = .ok r)
    (hf : ForAtoms P B Q f) (hr : ∀ p ∈ r.2.map, B p.1) (hs : ∀ p ∈ s.map, ForAtoms P B Q p.2) :
    ForAtoms P B Q r.1 ∧ ∀ p ∈ r.2.map, ForAtoms P B Q p.2 := by
  cases f with
  | ff => simp only [tsVisit] at h; cases h; exact ⟨trivial, hs⟩
  | tt => simp only [tsVisit] at h; cases h; exact ⟨trivial, hs⟩
  | bvar v => simp only [tsVisit] at h; cases h; exact ⟨hf, hs⟩
  | rel op a b => simp only [tsVisit] at h; cases h; exact ⟨hf, hs⟩
  | all vs f =>
    simp only [tsVisit] at h
    obtain ⟨g, hg, h⟩ := bindO_ok h
    have hc : ∀ c ∈ toSet (g.getClauses.map (tsQuantify vs)), ForAtoms P B Q c := by
      intro c hc
      obtain ⟨c', h1, rfl⟩ := List.mem_map.mp (mem_toSet.mp hc)
      exact hQ vs f g hf hg c' h1
    split at h
    · split at h
      · rename_i c he
        cases h
        exact ⟨hc c (by rw [he]; simp), hs⟩
      · cases h
        simp only [TsState.define] at hr ⊢
        refine ⟨hr (s.freshVar, _) (List.mem_append_right _ (List.mem_singleton_self _)), ?_⟩
        intro p hp
        rcases List.mem_append.mp hp with hp | hp
        · exact hs p hp
        · simp only [List.mem_singleton] at hp
          subst hp
          exact .mkConj hc
    · cases h
  | conj fs =>
    simp only [tsVisit] at h
    obtain ⟨q, hq, h⟩ := bindO_ok h
    cases h
    simp only [TsState.define] at hr ⊢
    have hl := tsVisitList_atoms hQ hq (forAtomsL_iff.mp hf) (fun p hp => hr p (by simp [hp])) hs
    refine ⟨hr (q.2.freshVar, _) (List.mem_append_right _ (List.mem_singleton_self _)), ?_⟩
    intro p hp
    rcases List.mem_append.mp hp with hp | hp
    · exact hl.2 p hp
    · simp only [List.mem_singleton] at hp
      subst hp
      exact .mkConj fun g hg => hl.1 g (mem_toSet.mp hg)
  | disj fs =>
    simp only [tsVisit] at h
    obtain ⟨q, hq, h⟩ := bindO_ok h
    cases h
    simp only [TsState.define] at hr ⊢
    have hl := tsVisitList_atoms hQ hq (forAtomsL_iff.mp hf) (fun p hp => hr p (by simp [hp])) hs
    refine ⟨hr (q.2.freshVar, _) (List.mem_append_right _ (List.mem_singleton_self _)), ?_⟩
    intro p hp
    rcases List.mem_append.mp hp with hp | hp
    · exact hl.2 p hp
    · simp only [List.mem_singleton] at hp
      subst hp
      exact .mkDisj fun g hg => hl.1 g (mem_toSet.mp hg)
  | neg f =>
    simp only [tsVisit] at h
    split at h
    · cases h; exact ⟨hf, hs⟩
    · obtain ⟨q, hq, h⟩ := bindO_ok h
      cases h
      simp only at hr ⊢
      have hl := tsVisit_atoms hQ hq hf (fun p hp => hr p (by simp [hp])) hs
      refine ⟨hr (s.freshVar, _) (List.mem_append_right _ (List.mem_singleton_self _)), ?_⟩
      intro p hp
      rcases List.mem_append.mp hp with hp | hp
      · exact hl.2 p hp
      · simp only [List.mem_singleton] at hp
        subst hp
        exact .notF hl.1
theorem tsVisitList_atoms (hQ : TsQ P B Q) {fs : List Fml} {s : TsState} {r : List Fml × TsState}
    (h : tsVisitList fs s = .ok r) (hf : ∀ f ∈ fs, ForAtoms P B Q f)
    (hr : ∀ p ∈ r.2.map, B p.1) (hs : ∀ p ∈ s.map, ForAtoms P B Q p.2) :
    (∀ g ∈ r.1, ForAtoms P B Q g) ∧ ∀ p ∈ r.2.map, ForAtoms P B Q p.2 := by
  cases fs with
  | nil => simp only [tsVisitList] at h; cases h; exact ⟨by simp, hs⟩
  | cons f fs =>
    simp only [tsVisitList] at h
    obtain ⟨q, hq, h⟩ := bindO_ok h
    obtain ⟨q2, hq2, h⟩ := bindO_ok h
    cases h
    simp only at hr ⊢
    have h1 := tsVisit_atoms hQ hq (hf f (by simp))
      (fun p hp => hr p ((tsVisitList_pre hq2).subset hp)) hs
    have h2 := tsVisitList_atoms hQ hq2 (fun g hg => hf g (by simp [hg])) hr h1.2
    refine ⟨fun g hg => ?_, h2.2⟩
    rcases List.mem_cons.mp hg with rfl | hg
    exacts [h1.1, h2.1 g hg]
end

theorem tsAdd_atoms {f} (h : ForAtoms P B Q f) : ∀ g ∈ tsAdd f, ForAtoms P B Q g := by
  unfold tsAdd; split <;> simp [h]

theorem cnfize_atoms {b f cs} (h : cnfize b f = .ok cs) (hb : B b) (hf : ForAtoms P B Q f) :
    ∀ c ∈ cs, ForAtoms P B Q c := by
  unfold cnfize at h
  have hbv : ForAtoms P B Q (.bvar b) := hb
  split at h
  · cases h
    have hf := forAtomsL_iff.mp hf
    intro c hc
    rcases List.mem_append.mp hc with hc | hc
    · obtain ⟨g, hg, hc⟩ := List.mem_flatMap.mp hc
      exact tsAdd_atoms (.orF hbv.notF (hf g hg)) c hc
    · refine tsAdd_atoms (.orF (.mkDisj fun g hg => ?_) hbv) c hc
      obtain ⟨x, hx, rfl⟩ := List.mem_map.mp (mem_toSet.mp hg)
      exact (hf x hx).notF
  · cases h
    have hfs := forAtomsL_iff.mp hf
    intro c hc
    rcases List.mem_append.mp hc with hc | hc
    · exact tsAdd_atoms (.orF hbv.notF hf) c hc
    · obtain ⟨g, hg, hc⟩ := List.mem_flatMap.mp hc
      obtain ⟨x, hx, rfl⟩ := List.mem_map.mp (mem_toSet.mp hg)
      exact tsAdd_atoms (.orF (hfs x hx).notF hbv) c hc
  · cases h
    intro c hc
    rcases List.mem_append.mp hc with hc | hc
    · exact tsAdd_atoms (.orF hbv.notF hf) c hc
    · exact tsAdd_atoms (.orF (ForAtoms.notF hf) hbv) c hc
  · cases h

theorem tsClauses_atoms {hd m cs} (h : tsClauses hd m = .ok cs) (hm : ∀ p ∈ m, B p.1)
    (hf : ∀ p ∈ m, ForAtoms P B Q p.2) : ∀ c ∈ cs, ForAtoms P B Q c := by
  induction m generalizing cs with
  | nil => simp only [tsClauses] at h; cases h; simp
  | cons p m ih =>
    obtain ⟨b, f⟩ := p
    simp only [tsClauses] at h
    obtain ⟨c1, h1, h⟩ := bindO_ok h
    obtain ⟨c2, h2, h⟩ := bindO_ok h
    cases h
    intro c hc
    rcases List.mem_append.mp hc with hc | hc
    · unfold tsEntry at h1
      split at h1
      · cases h1; exact getClauses_atoms (hf (b, f) (by simp)) c hc
      · exact cnfize_atoms h1 (hm (b, f) (by simp)) (hf (b, f) (by simp)) c hc
    · exact ih h2 (fun p hp => hm p (by simp [hp])) (fun p hp => hf p (by simp [hp])) c hc

/-- The clauses of a formula consist of its atoms and the variables of the map. -/
theorem tseitin_atoms {next f r} (hQ : ∀ B, TsQ P B Q) (h : tseitin next f = .ok r)
    (hf : ForAtoms P B Q f) :
    ∃ q, tsVisit f { next := next } = .ok q ∧ r.2 = q.2.next ∧
      ∀ c ∈ r.1, ForAtoms P (fun v => B v ∨ v ∈ q.2.map.map Prod.fst) Q c := by
  unfold tseitin at h
  obtain ⟨q, hq, h⟩ := bindO_ok h
  refine ⟨q, hq, ?_⟩
  have hat := tsVisit_atoms (P := P) (B := fun v => B v ∨ v ∈ q.2.map.map Prod.fst) (hQ _) hq
    (ForAtoms.mono (fun _ _ _ h => h) (fun _ h => Or.inl h) (fun _ _ h => h) _ hf)
    (fun p hp => Or.inr (List.mem_map_of_mem hp)) (by simp)
  obtain ⟨hd, s⟩ := q
  simp only at h hat ⊢
  split at h
  · cases h
    exact ⟨rfl, by simpa using hat.1⟩
  · cases hd with
    | bvar v =>
      obtain ⟨cs, h1, h⟩ := bindO_ok h
      cases h
      exact ⟨rfl, tsClauses_atoms h1 (fun p hp => Or.inr (List.mem_map_of_mem hp)) hat.2⟩
    | _ => cases h

/-! ### Abstraction -/

/-- The formula consists of Boolean variables satisfying `B` and of names of formulas whose atoms
satisfy `P` and `B`. -/
def Named (P : RelOp → Expr → Expr → Prop) (B : Variable → Prop) (Q : List Variable → Fml → Prop)
    (T : List (Variable × Fml)) : Fml → Prop :=
  ForAtoms (fun _ _ _ => False) (fun v => B v ∨ ∃ a, (v, a) ∈ T ∧ ForAtoms P B Q a) NoQ

theorem Named.mono {T T' f} (hT : T <+: T') (h : Named P B Q T f) : Named P B Q T' f := by
  refine ForAtoms.mono (fun _ _ _ h => h) (fun v hv => ?_) (fun _ _ h => h) _ h
  rcases hv with hv | ⟨a, ha, h2⟩
  exacts [Or.inl hv, Or.inr ⟨a, hT.subset ha, h2⟩]

theorem absAtomic_named {f s} (hf : ForAtoms P B Q f) :
    s.table <+: (absAtomic f s).2.table ∧ Named P B Q (absAtomic f s).2.table (absAtomic f s).1 := by
  unfold absAtomic
  split
  · rename_i b hb
    exact ⟨List.prefix_rfl, Or.inr ⟨f, find_some hb, hf⟩⟩
  · exact ⟨List.prefix_append _ _, Or.inr ⟨f, by simp, hf⟩⟩

theorem absRel_named (hP : ∀ op a b, P op a b → P op.neg a b) {op a b s} (hf : P op a b) :
    s.table <+: (absRel op a b s).2.table ∧
      Named P B Q (absRel op a b s).2.table (absRel op a b s).1 := by
  have hn := hP _ _ _ hf
  cases op <;> simp only [absRel, RelOp.neg] at hn ⊢
  · exact absAtomic_named hf
  · have := absAtomic_named (s := s) (ForAtoms.mkRel (B := B) (Q := Q) hn); exact ⟨this.1, this.2.notF⟩
  · have := absAtomic_named (s := s) (ForAtoms.mkRel (B := B) (Q := Q) hn); exact ⟨this.1, this.2.notF⟩
  · have := absAtomic_named (s := s) (ForAtoms.mkRel (B := B) (Q := Q) hn); exact ⟨this.1, this.2.notF⟩
  · exact absAtomic_named hf
  · exact absAtomic_named hf

mutual
theorem absVisit_named' (hP : ∀ op a b, P op a b → P op.neg a b) (f : Fml) (s : AbsState)
    (hf : ForAtoms P B Q f) : s.table <+: (absVisit f s).2.table ∧
      Named P B Q (absVisit f s).2.table (absVisit f s).1 := by
  unfold absVisit
  split
  · rename_i b hb
    exact ⟨List.prefix_rfl, Or.inr ⟨f, find_some hb, hf⟩⟩
  · cases f with
    | ff => exact ⟨List.prefix_rfl, trivial⟩
    | tt => exact ⟨List.prefix_rfl, trivial⟩
    | bvar v => exact ⟨List.prefix_rfl, Or.inl hf⟩
    | rel op a b => exact absRel_named hP hf
    | all vs f => exact absAtomic_named hf
    | conj fs =>
      have h := absVisitList_named hP fs s (forAtomsL_iff.mp hf)
      exact ⟨h.1, ForAtoms.mkConj fun g hg => h.2 g (mem_toSet.mp hg)⟩
    | disj fs =>
      have h := absVisitList_named hP fs s (forAtomsL_iff.mp hf)
      exact ⟨h.1, ForAtoms.mkDisj fun g hg => h.2 g (mem_toSet.mp hg)⟩
    | neg f =>
      have h := absVisit_named' hP f s hf
      exact ⟨h.1, h.2.notF⟩
theorem absVisitList_named (hP : ∀ op a b, P op a b → P op.neg a b) (fs : List Fml) (s : AbsState)
    (hf : ∀ f ∈ fs, ForAtoms P B Q f) : s.table <+: (absVisitList fs s).2.table ∧
      ∀ g ∈ (absVisitList fs s).1, Named P B Q (absVisitList fs s).2.table g := by
  cases fs with
  | nil => simp [absVisitList]
  | cons f fs =>
    have h1 := absVisit_named' hP f s (hf f (by simp))
    have h2 := absVisitList_named hP fs (absVisit f s).2 (fun g hg => hf g (by simp [hg]))
    simp only [absVisitList]
    refine ⟨h1.1.trans h2.1, fun g hg => ?_⟩
    rcases List.mem_cons.mp hg with rfl | hg
    exacts [h1.2.mono h2.1, h2.2 g hg]
end

/-- The variables of a formula without relations. -/
theorem Named.fv {T f} (h : Named P B Q T f) :
    ∀ v ∈ f.fv, B v ∨ ∃ a, (v, a) ∈ T ∧ ForAtoms P B Q a := by
  have key : ∀ (n : Nat) (f : Fml), sizeOf f ≤ n → Named P B Q T f →
      ∀ v ∈ f.fv, B v ∨ ∃ a, (v, a) ∈ T ∧ ForAtoms P B Q a := by
    intro n
    induction n with
    | zero => intro f hs; cases f <;> simp at hs
    | succ n ih =>
      intro f hs h v hv
      cases f with
      | ff => simp [Fml.fv] at hv
      | tt => simp [Fml.fv] at hv
      | bvar w => simp only [Fml.fv, List.mem_singleton] at hv; subst hv; exact h
      | rel op a b => exact absurd h id
      | all vs f => exact absurd h id
      | neg f => simp only [Fml.fv] at hv; exact ih f (by simp at hs; omega) h v hv
      | conj fs =>
        simp only [Fml.fv, Fml.mem_fvList] at hv
        obtain ⟨g, hg, hv⟩ := hv
        have := List.sizeOf_lt_of_mem hg
        exact ih g (by simp at hs; omega) (forAtomsL_iff.mp h g hg) v hv
      | disj fs =>
        simp only [Fml.fv, Fml.mem_fvList] at hv
        obtain ⟨g, hg, hv⟩ := hv
        have := List.sizeOf_lt_of_mem hg
        exact ih g (by simp at hs; omega) (forAtomsL_iff.mp h g hg) v hv
  exact key _ f le_rfl h

end Verif.Proof
