import Verif.Proof.Atoms
import Verif.Proof.Ite
import Verif.Proof.Tseitin
import Verif.Model.Sat
import Verif.Spec.Ite

/-!
# Formulas as combinations of uninterpreted atoms

What the SAT solver sees: the relations of a formula are arbitrary truth values.
-/

namespace Verif.Proof
open Verif Verif.Model Verif.Spec

/-- Truth values for relations, variables and quantified formulas. -/
structure BMod where
  T : RelOp → Expr → Expr → Prop
  B : Variable → Prop
  Q : List Variable → Fml → Prop

mutual
/-- Truth of a formula when its atoms have the given truth values. -/
def bh (M : BMod) : Fml → Prop
  | .ff => False
  | .tt => True
  | .bvar v => M.B v
  | .rel op a b => M.T op a b
  | .conj fs => bhAll M fs
  | .disj fs => bhAny M fs
  | .neg f => ¬ bh M f
  | .all vs f => M.Q vs f
def bhAll (M : BMod) : List Fml → Prop
  | [] => True
  | f :: fs => bh M f ∧ bhAll M fs
def bhAny (M : BMod) : List Fml → Prop
  | [] => False
  | f :: fs => bh M f ∨ bhAny M fs
end

@[simp] theorem bh_tt {M} : bh M .tt ↔ True := by simp [bh]
@[simp] theorem bh_ff {M} : bh M .ff ↔ False := by simp [bh]
@[simp] theorem bh_bvar {M v} : bh M (.bvar v) ↔ M.B v := by simp [bh]
@[simp] theorem bh_rel {M op a b} : bh M (.rel op a b) ↔ M.T op a b := by simp [bh]
@[simp] theorem bh_neg {M f} : bh M (.neg f) ↔ ¬ bh M f := by simp [bh]
@[simp] theorem bh_conj {M fs} : bh M (.conj fs) ↔ ∀ f ∈ fs, bh M f := by
  simp only [bh]
  induction fs with
  | nil => simp [bhAll]
  | cons f fs ih => simp [bhAll, ih]
@[simp] theorem bh_disj {M fs} : bh M (.disj fs) ↔ ∃ f ∈ fs, bh M f := by
  simp only [bh]
  induction fs with
  | nil => simp [bhAny]
  | cons f fs ih => simp [bhAny, ih]

theorem bh_mergeConj {M f s} :
    (∀ g ∈ mergeConj f s, bh M g) ↔ bh M f ∧ ∀ g ∈ s, bh M g := by
  unfold mergeConj
  split
  · simp only [mem_foldl_insertF, bh_conj]
    constructor
    · intro h; exact ⟨fun g hg => h g (Or.inl hg), fun g hg => h g (Or.inr hg)⟩
    · rintro ⟨h1, h2⟩ g (hg | hg); exacts [h1 g hg, h2 g hg]
  · simp only [mem_insertF]
    constructor
    · intro h; exact ⟨h _ (Or.inl rfl), fun g hg => h g (Or.inr hg)⟩
    · rintro ⟨h1, h2⟩ g (rfl | hg); exacts [h1, h2 g hg]

theorem bh_mergeDisj {M f s} :
    (∃ g ∈ mergeDisj f s, bh M g) ↔ bh M f ∨ ∃ g ∈ s, bh M g := by
  unfold mergeDisj
  split
  · simp only [mem_foldl_insertF, bh_disj]
    constructor
    · rintro ⟨g, hg | hg, h⟩
      exacts [Or.inl ⟨g, hg, h⟩, Or.inr ⟨g, hg, h⟩]
    · rintro (⟨g, hg, h⟩ | ⟨g, hg, h⟩)
      exacts [⟨g, Or.inl hg, h⟩, ⟨g, Or.inr hg, h⟩]
  · simp only [mem_insertF]
    constructor
    · rintro ⟨g, rfl | hg, h⟩
      exacts [Or.inl h, Or.inr ⟨g, hg, h⟩]
    · rintro (h | ⟨g, hg, h⟩)
      exacts [⟨_, Or.inl rfl, h⟩, ⟨g, Or.inr hg, h⟩]

@[simp] theorem bh_andF {M f g} : bh M (andF f g) ↔ bh M f ∧ bh M g := by
  unfold andF
  split_ifs with h1 h2 h3 h4 h5
  · subst h1; simp
  · subst h2; simp
  · subst h3; simp
  · subst h4; simp
  · subst h5; simp
  · split
    · rw [bh_conj, bh_mergeConj, bh_conj]; tauto
    · rw [bh_conj, bh_mergeConj, bh_conj]
    · simp only [bh_conj, mem_insertF, List.not_mem_nil, or_false]
      constructor
      · intro h; exact ⟨h _ (Or.inr rfl), h _ (Or.inl rfl)⟩
      · rintro ⟨h, h'⟩ x (rfl | rfl) <;> assumption

@[simp] theorem bh_orF {M f g} : bh M (orF f g) ↔ bh M f ∨ bh M g := by
  unfold orF
  split_ifs with h1 h2 h3 h4 h5
  · subst h1; simp
  · subst h2; simp
  · subst h3; simp
  · subst h4; simp
  · subst h5; simp
  · split
    · rw [bh_disj, bh_mergeDisj, bh_disj, or_comm]
    · rw [bh_disj, bh_mergeDisj, bh_disj]
    · simp only [bh_disj, mem_insertF, List.not_mem_nil, or_false]
      constructor
      · rintro ⟨x, rfl | rfl, h⟩
        exacts [Or.inr h, Or.inl h]
      · rintro (h | h)
        exacts [⟨_, Or.inr rfl, h⟩, ⟨_, Or.inl rfl, h⟩]

@[simp] theorem bh_notF {M f} : bh M (notF f) ↔ ¬ bh M f := by
  unfold notF
  split_ifs with h1 h2
  · subst h1; simp
  · subst h2; simp
  · split <;> simp

theorem conjLoop_bh {M} (fs ops : List Fml) :
    (match conjLoop fs ops with
      | none => False
      | some l => ∀ g ∈ l, bh M g) ↔
    (∀ g ∈ fs, bh M g) ∧ ∀ g ∈ ops, bh M g := by
  induction fs generalizing ops with
  | nil => simp [conjLoop]
  | cons f fs ih =>
    unfold conjLoop
    split_ifs with h1 h2
    · subst h1; simp
    · subst h2; rw [ih]; simp
    · rw [ih, bh_mergeConj]; simp only [List.mem_cons, forall_eq_or_imp]; tauto

@[simp] theorem bh_mkConj {M fs} :
    bh M (mkConj fs) ↔ ∀ f ∈ fs, bh M f := by
  have := conjLoop_bh (M := M) fs []
  unfold mkConj
  split at this
  · rename_i h; rw [h]; simp at this ⊢
    obtain ⟨x, hx, h'⟩ := this
    exact ⟨x, hx, h'⟩
  · rename_i l h; rw [h]
    simp only [List.not_mem_nil, false_imp_iff, implies_true, and_true] at this
    rw [← this]
    match l with
    | [] => simp
    | [a] => simp
    | a :: b :: l => simp

theorem disjLoop_bh {M} (fs ops : List Fml) :
    (match disjLoop fs ops with
      | none => True
      | some l => ∃ g ∈ l, bh M g) ↔
    (∃ g ∈ fs, bh M g) ∨ ∃ g ∈ ops, bh M g := by
  induction fs generalizing ops with
  | nil => simp [disjLoop]
  | cons f fs ih =>
    unfold disjLoop
    split_ifs with h1 h2
    · subst h1; simp
    · subst h2; rw [ih]; simp
    · rw [ih, bh_mergeDisj]; simp only [List.mem_cons, exists_eq_or_imp]; rw [or_left_comm, or_assoc]

@[simp] theorem bh_mkDisj {M fs} :
    bh M (mkDisj fs) ↔ ∃ f ∈ fs, bh M f := by
  have := disjLoop_bh (M := M) fs []
  unfold mkDisj
  split at this
  · rename_i h; rw [h]; simp at this ⊢
    exact this
  · rename_i l h; rw [h]
    simp only [List.not_mem_nil, false_and, exists_false, or_false] at this
    rw [← this]
    match l with
    | [] => simp
    | [a] => simp
    | a :: b :: l => simp

@[simp] theorem bh_implyF {M f g} :
    bh M (implyF f g) ↔ (bh M f → bh M g) := by
  simp only [implyF, bh_orF, bh_notF]; tauto

/-! ### Tseitin clauses -/

theorem bh_getClauses {M g} : (∀ c ∈ g.getClauses, bh M c) ↔ bh M g := by
  unfold Fml.getClauses
  split <;> simp

theorem tsAdd_bh {M f} : (∀ c ∈ tsAdd f, bh M c) ↔ bh M f := by
  unfold tsAdd
  split_ifs with h
  · subst h; simp
  · simp

theorem cnfize_bh {M : BMod} {b f cs} (h : cnfize b f = .ok cs) :
    (∀ c ∈ cs, bh M c) ↔ (M.B b ↔ bh M f) := by
  unfold cnfize at h
  split at h <;> simp only [Outcome.ok.injEq, reduceCtorEq] at h <;> subst h
  · rename_i fs
    simp only [List.mem_append, or_imp, forall_and, tsAdd_bh, List.mem_flatMap,
      forall_exists_index, and_imp]
    rw [forall_comm]
    have : (∀ (b_1 : Fml), b_1 ∈ fs → ∀ a ∈ tsAdd (orF (notF (.bvar b)) b_1), bh M a) ↔
        (M.B b → ∀ g ∈ fs, bh M g) := by
      simp only [tsAdd_bh, bh_orF, bh_notF, bh_bvar]
      constructor
      · intro h hb g hg; exact (h g hg).resolve_left (fun h => h hb)
      · intro h g hg
        by_cases hb : M.B b
        exacts [Or.inr (h hb g hg), Or.inl hb]
    have this' : (∀ (a b_1 : Fml), b_1 ∈ fs → a ∈ tsAdd (orF (notF (.bvar b)) b_1) →
        bh M a) ↔ (M.B b → ∀ g ∈ fs, bh M g) := by
      rw [← this]
      constructor
      · intro h g hg a ha; exact h a g hg ha
      · intro h a g hg ha; exact h g hg a ha
    rw [forall_comm, this']
    simp only [bh_orF, bh_mkDisj, mem_toSet, List.mem_map, bh_bvar, bh_conj]
    constructor
    · rintro ⟨h1, h2⟩
      refine ⟨h1, fun h => h2.resolve_left ?_⟩
      rintro ⟨x, ⟨g, hg, rfl⟩, hx⟩
      rw [bh_notF] at hx
      exact hx (h g hg)
    · intro h
      refine ⟨h.mp, ?_⟩
      by_cases hb : M.B b
      · exact Or.inr hb
      · left
        have : ¬ ∀ g ∈ fs, bh M g := fun hh => hb (h.mpr hh)
        push Not at this
        obtain ⟨g, hg, hng⟩ := this
        exact ⟨_, ⟨g, hg, rfl⟩, by rw [bh_notF]; exact hng⟩
  · rename_i fs
    simp only [List.mem_append, or_imp, forall_and, tsAdd_bh, List.mem_flatMap,
      forall_exists_index, and_imp, bh_orF, bh_notF, bh_bvar, mem_toSet, List.mem_map,
      bh_disj]
    constructor
    · rintro ⟨h1, h2⟩
      refine ⟨fun hb => h1.resolve_left (fun h => h hb), ?_⟩
      rintro ⟨g, hg, hh⟩
      have := tsAdd_bh.mp (fun c hc => h2 c (notF g) g hg rfl hc)
      simp only [bh_orF, bh_notF, bh_bvar] at this
      exact this.resolve_left (fun h => h hh)
    · intro h
      refine ⟨?_, ?_⟩
      · by_cases hb : M.B b
        exacts [Or.inr (h.mp hb), Or.inl hb]
      · intro c x g hg hx hc
        subst hx
        refine tsAdd_bh.mpr ?_ c hc
        simp only [bh_orF, bh_notF, bh_bvar]
        by_cases hh : bh M g
        exacts [Or.inr (h.mpr ⟨g, hg, hh⟩), Or.inl hh]
  · simp only [List.mem_append, or_imp, forall_and, tsAdd_bh, bh_implyF, bh_bvar]
    exact ⟨fun h => ⟨h.1, h.2⟩, fun h => ⟨h.mp, h.mpr⟩⟩

theorem tsClauses_bh {M : BMod} {head m cs} (h : tsClauses head m = .ok cs)
    : (∀ c ∈ cs, bh M c) ↔
      ∀ p ∈ m, if p.1 = head then bh M p.2 else (M.B p.1 ↔ bh M p.2) := by
  induction m generalizing cs with
  | nil => simp [tsClauses] at h; subst h; simp
  | cons p m ih =>
    obtain ⟨b, f⟩ := p
    simp only [tsClauses] at h
    cases h1 : tsEntry head b f with
    | throw => rw [h1] at h; simp at h
    | ub => rw [h1] at h; simp at h
    | ok c1 =>
      rw [h1] at h
      simp only [Outcome.bind_ok] at h
      cases h2 : tsClauses head m with
      | throw => rw [h2] at h; simp at h
      | ub => rw [h2] at h; simp at h
      | ok c2 =>
        rw [h2] at h
        simp only [Outcome.bind_ok, Outcome.ok.injEq] at h
        subst h
        simp only [List.mem_append, or_imp, forall_and, List.mem_cons, forall_eq]
        rw [ih h2]
        refine and_congr_left (fun _ => ?_)
        unfold tsEntry at h1
        split_ifs at h1 ⊢ with hb
        · simp only [Outcome.ok.injEq] at h1
          subst h1
          exact bh_getClauses
        · exact cnfize_bh h1

/-- The defined variables mean their definitions. -/
def DefsB (M : BMod) (m : List (Variable × Fml)) : Prop := ∀ p ∈ m, M.B p.1 ↔ bh M p.2

theorem DefsB.sub {M m m'} (h : DefsB M m') (hs : m <+: m') : DefsB M m :=
  fun p hp => h p (hs.subset hp)

mutual
theorem tsVisit_bh {M : BMod} (f : Fml) {s : TsState} {r : Fml × TsState}
    (hf : ForAtoms (fun _ _ _ => True) (fun _ => True) NoQ f)
    (h : tsVisit f s = .ok r) (hd : DefsB M r.2.map) : bh M r.1 ↔ bh M f := by
  cases f with
  | ff => simp only [tsVisit] at h; cases h; exact Iff.rfl
  | tt => simp only [tsVisit] at h; cases h; exact Iff.rfl
  | bvar v => simp only [tsVisit] at h; cases h; exact Iff.rfl
  | rel op a b => simp only [tsVisit] at h; cases h; exact Iff.rfl
  | all vs f => exact absurd hf id
  | conj fs =>
    simp only [tsVisit] at h
    obtain ⟨q, hq, h⟩ := bindO_ok h
    cases h
    have h1 := tsVisitList_bh fs hf hq (hd.sub (List.prefix_append _ _))
    have h2 := hd (q.2.freshVar, mkConj (toSet q.1)) (by simp [TsState.define])
    simp only [TsState.define, bh_bvar]
    rw [h2, bh_mkConj, bh_conj]
    simp only [mem_toSet]
    exact h1.1
  | disj fs =>
    simp only [tsVisit] at h
    obtain ⟨q, hq, h⟩ := bindO_ok h
    cases h
    have h1 := tsVisitList_bh fs hf hq (hd.sub (List.prefix_append _ _))
    have h2 := hd (q.2.freshVar, mkDisj (toSet q.1)) (by simp [TsState.define])
    simp only [TsState.define, bh_bvar]
    rw [h2, bh_mkDisj, bh_disj]
    simp only [mem_toSet]
    exact h1.2
  | neg f =>
    simp only [tsVisit] at h
    split at h
    · cases h; exact Iff.rfl
    · obtain ⟨q, hq, h⟩ := bindO_ok h
      cases h
      have h1 := tsVisit_bh f hf hq (hd.sub (List.prefix_append _ _))
      have h2 := hd (s.freshVar, notF q.1) (by simp)
      simp only [bh_bvar]
      rw [h2, bh_notF, bh_neg, h1]
theorem tsVisitList_bh {M : BMod} (fs : List Fml) {s : TsState} {r : List Fml × TsState}
    (hf : ForAtomsL (fun _ _ _ => True) (fun _ => True) NoQ fs)
    (h : tsVisitList fs s = .ok r) (hd : DefsB M r.2.map) :
    ((∀ g ∈ r.1, bh M g) ↔ ∀ g ∈ fs, bh M g) ∧ ((∃ g ∈ r.1, bh M g) ↔ ∃ g ∈ fs, bh M g) := by
  cases fs with
  | nil => simp only [tsVisitList] at h; cases h; simp
  | cons f fs =>
    simp only [tsVisitList] at h
    obtain ⟨q, hq, h⟩ := bindO_ok h
    obtain ⟨q2, hq2, h⟩ := bindO_ok h
    cases h
    have hp := tsVisitList_pre hq2
    have h1 := tsVisit_bh f hf.1 hq (hd.sub hp)
    have h2 := tsVisitList_bh fs hf.2 hq2 hd
    constructor
    · simp only [List.mem_cons, forall_eq_or_imp, h1, h2.1]
    · simp only [List.mem_cons, exists_eq_or_imp, h1, h2.2]
end

theorem bh_congr {M : BMod} {B' : Variable → Prop} (f : Fml)
    (h : ∀ v ∈ f.fv, B' v ↔ M.B v) : bh { M with B := B' } f ↔ bh M f := by
  have key : ∀ (n : Nat) (f : Fml), sizeOf f ≤ n → (∀ v ∈ f.fv, B' v ↔ M.B v) →
      (bh { M with B := B' } f ↔ bh M f) := by
    intro n
    induction n with
    | zero => intro f hs; cases f <;> simp at hs
    | succ n ih =>
      intro f hs h
      cases f with
      | ff => simp
      | tt => simp
      | bvar w => simpa using h w (by simp [Fml.fv])
      | rel op a b => simp
      | all vs f => simp [bh]
      | neg f =>
        simp only [bh_neg]
        rw [ih f (by simp at hs; omega) (by simpa [Fml.fv] using h)]
      | conj fs =>
        simp only [bh_conj]
        refine forall₂_congr fun g hg => ih g ?_ fun v hv => h v ?_
        · have := List.sizeOf_lt_of_mem hg; simp at hs; omega
        · simp only [Fml.fv, Fml.mem_fvList]; exact ⟨g, hg, hv⟩
      | disj fs =>
        simp only [bh_disj]
        refine exists_congr fun g => and_congr_right fun hg => ih g ?_ fun v hv => h v ?_
        · have := List.sizeOf_lt_of_mem hg; simp at hs; omega
        · simp only [Fml.fv, Fml.mem_fvList]; exact ⟨g, hg, hv⟩
  exact key _ f le_rfl h

/-- The clauses entail the formula. -/
theorem tseitin_bh {M : BMod} {next f r}
    (hf : ForAtoms (fun _ _ _ => True) (fun _ => True) NoQ f) (hfv : ∀ v ∈ f.fv, v.id < next)
    (h : tseitin next f = .ok r) (hc : ∀ c ∈ r.1, bh M c) : bh M f := by
  unfold tseitin at h
  obtain ⟨q, hq, h⟩ := bindO_ok h
  obtain ⟨g, s⟩ := q
  obtain ⟨m, hm, hmap, -⟩ := tsVisit_spec ⟨fun _ _ => 0, fun _ _ _ => 0⟩ f _ g s hq
  simp only [List.nil_append] at hm
  obtain ⟨hts, hgfv, hhead⟩ := hmap (fun v => v ∈ f.fv) (fun v hv => hv) hfv
  simp only at h
  split at h
  · rename_i hnil
    cases h
    refine (tsVisit_bh f hf hq ?_).mp (by simpa using hc)
    simp only [hnil]
    exact fun p hp => absurd hp (by simp)
  · rename_i hnil
    rw [hm] at hnil h
    rcases hhead with hhead | ⟨hd, φ, rfl, hmem, hnot⟩
    · exact absurd hhead hnil
    · obtain ⟨cs, h1, h⟩ := bindO_ok h
      cases h
      have h2 := (tsClauses_bh (M := M) h1).mp hc
      let B2 : Variable → Prop := fun w => w = hd ∨ M.B w
      have hB : ∀ w, w ≠ hd → (B2 w ↔ M.B w) := fun w hw => by simp [B2, hw]
      have hdefs : DefsB { M with B := B2 } m := by
        intro p hp
        rw [bh_congr p.2 (fun v hv => hB v (fun e => hnot p hp (e ▸ hv)))]
        have := h2 p hp
        split_ifs at this with hph
        · simp [B2, hph, this]
        · simpa [B2, hph] using this
      have h3 := (tsVisit_bh (M := { M with B := B2 }) f hf hq (by simpa [hm] using hdefs)).mp
        (by simp [B2])
      rwa [bh_congr f (fun v hv => hB v (fun e => ?_))] at h3
      have i1 := (hts.ids _ hmem).1
      have i2 := hfv v hv
      simp only [← e] at i1
      omega

/-! ### Abstraction and if-then-else -/

/-- Relations come in complementary pairs. -/
structure Compl (M : BMod) : Prop where
  neq : ∀ a b, M.T .neq a b ↔ ¬ M.T .eq a b
  gt : ∀ a b, M.T .gt a b ↔ ¬ M.T .leq a b
  geq : ∀ a b, M.T .geq a b ↔ ¬ M.T .lt a b

/-- The difference of the two sides is not recognised as constant. -/
def Open (_ : RelOp) (a b : Expr) : Prop := constDiff a b = none

theorem mkRel_open {op a b} (h : constDiff a b = none) : mkRel op a b = .rel op a b := by
  unfold mkRel; rw [h]

theorem absAtomic_bh {M f s} (hd : DefsB M (absAtomic f s).2.table) :
    bh M (absAtomic f s).1 ↔ bh M f := by
  unfold absAtomic at hd ⊢
  split
  · rename_i b hb
    rw [hb] at hd
    exact hd (b, f) (find_some hb)
  · rename_i hb
    rw [hb] at hd
    exact hd (s.freshVar, f) (by simp)

theorem absRel_bh {M op a b s} (hM : Compl M) (hf : constDiff a b = none)
    (hd : DefsB M (absRel op a b s).2.table) : bh M (absRel op a b s).1 ↔ M.T op a b := by
  cases op <;> simp only [absRel, mkRel_open hf, bh_notF] at hd ⊢ <;> rw [absAtomic_bh hd, bh_rel]
  · rw [hM.neq]
  · rw [hM.gt]
  · rw [hM.geq]

mutual
theorem absVisit_bh {M : BMod} (hM : Compl M) (f : Fml) (s : AbsState)
    (hf : ForAtoms Open (fun _ => True) NoQ f) (hd : DefsB M (absVisit f s).2.table) :
    bh M (absVisit f s).1 ↔ bh M f := by
  unfold absVisit at hd ⊢
  split
  · rename_i b hb
    rw [hb] at hd
    exact hd (b, f) (find_some hb)
  · rename_i hb
    rw [hb] at hd
    cases f with
    | ff => exact Iff.rfl
    | tt => exact Iff.rfl
    | bvar v => exact Iff.rfl
    | rel op a b => exact (absRel_bh hM hf hd).trans bh_rel.symm
    | all vs f => exact absurd hf id
    | conj fs =>
      have h := absVisitList_bh hM fs s hf hd
      simp only [bh_mkConj, mem_toSet, bh_conj]
      exact h.1
    | disj fs =>
      have h := absVisitList_bh hM fs s hf hd
      simp only [bh_mkDisj, mem_toSet, bh_disj]
      exact h.2
    | neg f =>
      have h := absVisit_bh hM f s hf hd
      simp only [bh_notF, bh_neg, h]
theorem absVisitList_bh {M : BMod} (hM : Compl M) (fs : List Fml) (s : AbsState)
    (hf : ForAtomsL Open (fun _ => True) NoQ fs) (hd : DefsB M (absVisitList fs s).2.table) :
    ((∀ g ∈ (absVisitList fs s).1, bh M g) ↔ ∀ g ∈ fs, bh M g) ∧
    ((∃ g ∈ (absVisitList fs s).1, bh M g) ↔ ∃ g ∈ fs, bh M g) := by
  cases fs with
  | nil => simp [absVisitList]
  | cons f fs =>
    simp only [absVisitList] at hd ⊢
    have hp := (absVisitList_named (P := Open) (B := fun _ => True) (fun _ _ _ h => h) fs
      (absVisit f s).2 (forAtomsL_iff.mp hf.2)).1
    have h1 := absVisit_bh hM f s hf.1 (hd.sub hp)
    have h2 := absVisitList_bh hM fs _ hf.2 hd
    simp only [List.mem_cons, forall_eq_or_imp, exists_eq_or_imp, h1, h2.1, h2.2, and_self]
end

/-- A relation of one of the three kinds the abstractor names. -/
def Canon (P : RelOp → Expr → Expr → Prop) (f : Fml) : Prop :=
  ∃ op a b, f = .rel op a b ∧ (op = .eq ∨ op = .lt ∨ op = .leq) ∧ P op a b

section
variable {P : RelOp → Expr → Expr → Prop} {B : Variable → Prop}

theorem absAtomic_tab {f s} (hs : ∀ p ∈ s.table, Canon P p.2) (hf : Canon P f) :
    ∀ p ∈ (absAtomic f s).2.table, Canon P p.2 := by
  unfold absAtomic
  split
  · exact hs
  · intro p hp
    rcases List.mem_append.mp hp with hp | hp
    · exact hs p hp
    · simp only [List.mem_singleton] at hp; subst hp; exact hf

theorem absRel_tab (hP : ∀ op a b, P op a b → P op.neg a b ∧ constDiff a b = none) {op a b s}
    (hs : ∀ p ∈ s.table, Canon P p.2) (hf : P op a b) :
    ∀ p ∈ (absRel op a b s).2.table, Canon P p.2 := by
  obtain ⟨h1, h2⟩ := hP op a b hf
  cases op <;> simp only [absRel, mkRel_open h2, RelOp.neg] at h1 ⊢ <;>
    refine absAtomic_tab hs ⟨_, a, b, rfl, by simp, by assumption⟩

mutual
theorem absVisit_tab (hP : ∀ op a b, P op a b → P op.neg a b ∧ constDiff a b = none) (f : Fml)
    (s : AbsState) (hs : ∀ p ∈ s.table, Canon P p.2) (hf : ForAtoms P B NoQ f) :
    ∀ p ∈ (absVisit f s).2.table, Canon P p.2 := by
  unfold absVisit
  split
  · exact hs
  · cases f with
    | ff => exact hs
    | tt => exact hs
    | bvar v => exact hs
    | rel op a b => exact absRel_tab hP hs hf
    | all vs f => exact absurd hf id
    | conj fs => exact absVisitList_tab hP fs s hs hf
    | disj fs => exact absVisitList_tab hP fs s hs hf
    | neg f => exact absVisit_tab hP f s hs hf
theorem absVisitList_tab (hP : ∀ op a b, P op a b → P op.neg a b ∧ constDiff a b = none)
    (fs : List Fml) (s : AbsState) (hs : ∀ p ∈ s.table, Canon P p.2) (hf : ForAtomsL P B NoQ fs) :
    ∀ p ∈ (absVisitList fs s).2.table, Canon P p.2 := by
  cases fs with
  | nil => exact hs
  | cons f fs =>
    simp only [absVisitList]
    exact absVisitList_tab hP fs _ (absVisit_tab hP f s hs hf.1) hf.2
end
end

/-- A relation without if-then-else whose two sides do not differ by a constant. -/
def FreeOpen (P : RelOp → Expr → Expr → Prop) (op : RelOp) (a b : Expr) : Prop :=
  P op a b ∧ IteFreeE a ∧ IteFreeE b ∧ constDiff a b = none

section
variable {P : RelOp → Expr → Expr → Prop} {B : Variable → Prop}

mutual
/-- The elimination of if-then-else terms leaves such formulas as they are. -/
theorem iteF_free (f : Fml) (g : Fml) (s : IteState) (hf : ForAtoms (FreeOpen P) B NoQ f) :
    (iteF f g s).2 = s ∧ ForAtoms (FreeOpen P) B NoQ (iteF f g s).1 ∧
      ∀ M, bh M (iteF f g s).1 ↔ bh M f := by
  cases f with
  | ff => exact ⟨by simp [iteF], by simp [iteF, ForAtoms], fun M => by simp [iteF]⟩
  | tt => exact ⟨by simp [iteF], by simp [iteF, ForAtoms], fun M => by simp [iteF]⟩
  | bvar v => exact ⟨by simp [iteF], by simpa [iteF] using hf, fun M => by simp [iteF]⟩
  | rel op a b =>
    obtain ⟨-, h1, h2, h3⟩ := id hf
    simp only [iteF, iteE_free a _ _ h1, iteE_free b _ _ h2, mkRel_open h3]
    exact ⟨trivial, hf, fun M => trivial⟩
  | all vs f => exact absurd hf id
  | conj fs =>
    obtain ⟨h1, h2, h3⟩ := iteList_free fs g s hf
    simp only [iteF]
    refine ⟨h1, .mkConj fun x hx => h2 x (mem_toSet.mp hx), fun M => ?_⟩
    simp only [bh_mkConj, mem_toSet, bh_conj]
    exact (h3 M).1
  | disj fs =>
    obtain ⟨h1, h2, h3⟩ := iteList_free fs g s hf
    simp only [iteF]
    refine ⟨h1, .mkDisj fun x hx => h2 x (mem_toSet.mp hx), fun M => ?_⟩
    simp only [bh_mkDisj, mem_toSet, bh_disj]
    exact (h3 M).2
  | neg f =>
    obtain ⟨h1, h2, h3⟩ := iteF_free f g s hf
    simp only [iteF]
    exact ⟨h1, h2.notF, fun M => by rw [bh_notF, bh_neg, h3 M]⟩
theorem iteList_free (fs : List Fml) (g : Fml) (s : IteState)
    (hf : ForAtomsL (FreeOpen P) B NoQ fs) :
    (iteList fs g s).2 = s ∧ (∀ x ∈ (iteList fs g s).1, ForAtoms (FreeOpen P) B NoQ x) ∧
      ∀ M, ((∀ x ∈ (iteList fs g s).1, bh M x) ↔ ∀ x ∈ fs, bh M x) ∧
        ((∃ x ∈ (iteList fs g s).1, bh M x) ↔ ∃ x ∈ fs, bh M x) := by
  cases fs with
  | nil => simp [iteList]
  | cons f fs =>
    obtain ⟨h1, h2, h3⟩ := iteF_free f g s hf.1
    obtain ⟨k1, k2, k3⟩ := iteList_free fs g s hf.2
    simp only [iteList, h1]
    refine ⟨k1, ?_, fun M => ?_⟩
    · intro x hx
      rcases List.mem_cons.mp hx with rfl | hx
      exacts [h2, k2 x hx]
    · simp only [List.mem_cons, forall_eq_or_imp, exists_eq_or_imp, h3 M, (k3 M).1, (k3 M).2,
        and_self]
end

theorem iteProcess_free {next : Nat} {f : Fml} (hf : ForAtoms (FreeOpen P) B NoQ f) :
    (iteProcess next f).2 = ([], next) ∧ ForAtoms (FreeOpen P) B NoQ (iteProcess next f).1 ∧
      ∀ M, bh M (iteProcess next f).1 ↔ bh M f := by
  obtain ⟨h1, h2, h3⟩ := iteF_free f .tt { next := next } hf
  unfold iteProcess
  simp only [h1]
  refine ⟨trivial, .iteResult h2 (by simp), fun M => ?_⟩
  unfold iteResult
  split
  · exact Iff.rfl
  · simp only [bh_andF, bh_mkConj, h3 M]
    simp
end

end Verif.Proof
