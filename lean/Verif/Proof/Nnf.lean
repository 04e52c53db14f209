import Verif.Model.Nnf
import Verif.Spec.Shape
import Verif.Proof.Sem

/-! Helper lemmas for negation normal form and distributive CNF. -/

namespace Verif.Proof
open Verif Verif.Model Verif.Spec

/-! ### NNF: meaning -/

mutual
theorem nnfVisit_holds (I : Interp) (ρ : Valuation) (push pol : Bool) (f : Fml) :
    holds I ρ (nnfVisit push pol f) ↔ (if pol then holds I ρ f else ¬ holds I ρ f) := by
  cases f with
  | ff => cases pol <;> simp [nnfVisit]
  | tt => cases pol <;> simp [nnfVisit]
  | bvar v => cases pol <;> simp [nnfVisit]
  | rel op a b => cases pol <;> cases push <;> simp [nnfVisit, relSem_neg]
  | conj fs =>
    have h := nnfVisitList_holds I ρ push pol fs
    cases pol
    · simp only [nnfVisit, Bool.false_eq_true, if_false, holds_mkDisj, mem_toSet, holds_conj] at h ⊢
      rw [h.2]; simp
    · simp only [nnfVisit, if_true, holds_mkConj, mem_toSet, h.1, holds_conj]
  | disj fs =>
    have h := nnfVisitList_holds I ρ push pol fs
    cases pol
    · simp only [nnfVisit, Bool.false_eq_true, if_false, holds_mkConj, mem_toSet, holds_disj] at h ⊢
      rw [h.1]; simp
    · simp only [nnfVisit, if_true, holds_mkDisj, mem_toSet, h.2, holds_disj]
  | neg f =>
    simp only [nnfVisit]
    rw [nnfVisit_holds I ρ push (!pol) f]
    cases pol <;> simp
  | all vs f => cases pol <;> simp [nnfVisit]
theorem nnfVisitList_holds (I : Interp) (ρ : Valuation) (push pol : Bool) (fs : List Fml) :
    ((∀ g ∈ nnfVisitList push pol fs, holds I ρ g) ↔
      ∀ g ∈ fs, if pol then holds I ρ g else ¬ holds I ρ g) ∧
    ((∃ g ∈ nnfVisitList push pol fs, holds I ρ g) ↔
      ∃ g ∈ fs, if pol then holds I ρ g else ¬ holds I ρ g) := by
  cases fs with
  | nil => simp [nnfVisitList]
  | cons f fs =>
    have h := nnfVisitList_holds I ρ push pol fs
    have h' := nnfVisit_holds I ρ push pol f
    simp only [nnfVisitList, List.mem_cons, forall_eq_or_imp, exists_eq_or_imp]
    rw [h.1, h.2, h']
    exact ⟨Iff.rfl, Iff.rfl⟩
end

/-! ### Shapes under the smart constructors -/

section
variable {P : Fml → Prop}

theorem mergeConj_mem {Q : Fml → Prop} (hQ : ∀ fs, Q (.conj fs) → ∀ g ∈ fs, Q g) {f s}
    (hf : Q f) (hs : ∀ g ∈ s, Q g) : ∀ g ∈ mergeConj f s, Q g := by
  intro g hg
  unfold mergeConj at hg
  split at hg
  · rw [mem_foldl_insertF] at hg
    rcases hg with hg | hg
    exacts [hQ _ hf g hg, hs g hg]
  · rw [mem_insertF] at hg
    rcases hg with rfl | hg
    exacts [hf, hs g hg]

theorem mergeDisj_mem {Q : Fml → Prop} (hQ : ∀ fs, Q (.disj fs) → ∀ g ∈ fs, Q g) {f s}
    (hf : Q f) (hs : ∀ g ∈ s, Q g) : ∀ g ∈ mergeDisj f s, Q g := by
  intro g hg
  unfold mergeDisj at hg
  split at hg
  · rw [mem_foldl_insertF] at hg
    rcases hg with hg | hg
    exacts [hQ _ hf g hg, hs g hg]
  · rw [mem_insertF] at hg
    rcases hg with rfl | hg
    exacts [hf, hs g hg]

theorem conjLoop_mem {Q : Fml → Prop} (hQ : ∀ fs, Q (.conj fs) → ∀ g ∈ fs, Q g) {fs ops l}
    (hf : ∀ g ∈ fs, Q g) (ho : ∀ g ∈ ops, Q g) (h : conjLoop fs ops = some l) :
    ∀ g ∈ l, Q g := by
  induction fs generalizing ops with
  | nil => simp [conjLoop] at h; subst h; exact ho
  | cons f fs ih =>
    unfold conjLoop at h
    split_ifs at h
    · exact ih (fun g hg => hf g (by simp [hg])) ho h
    · exact ih (fun g hg => hf g (by simp [hg])) (mergeConj_mem hQ (hf f (by simp)) ho) h

theorem disjLoop_mem {Q : Fml → Prop} (hQ : ∀ fs, Q (.disj fs) → ∀ g ∈ fs, Q g) {fs ops l}
    (hf : ∀ g ∈ fs, Q g) (ho : ∀ g ∈ ops, Q g) (h : disjLoop fs ops = some l) :
    ∀ g ∈ l, Q g := by
  induction fs generalizing ops with
  | nil => simp [disjLoop] at h; subst h; exact ho
  | cons f fs ih =>
    unfold disjLoop at h
    split_ifs at h
    · exact ih (fun g hg => hf g (by simp [hg])) ho h
    · exact ih (fun g hg => hf g (by simp [hg])) (mergeDisj_mem hQ (hf f (by simp)) ho) h

/-- Introduction rule for `mkConj`. -/
theorem mkConj_ind {Q R : Fml → Prop} (hQ : ∀ fs, Q (.conj fs) → ∀ g ∈ fs, Q g)
    (hff : R .ff) (htt : R .tt) (h1 : ∀ f, Q f → R f)
    (hc : ∀ fs, (∀ g ∈ fs, Q g) → R (.conj fs)) {fs} (h : ∀ g ∈ fs, Q g) :
    R (mkConj fs) := by
  unfold mkConj
  have := fun l => conjLoop_mem (l := l) hQ h (ops := []) (by simp)
  split <;> rename_i h'
  · exact hff
  · exact htt
  · exact h1 _ (this _ h' _ (by simp))
  · exact hc _ (this _ h')

theorem mkDisj_ind {Q R : Fml → Prop} (hQ : ∀ fs, Q (.disj fs) → ∀ g ∈ fs, Q g)
    (hff : R .ff) (htt : R .tt) (h1 : ∀ f, Q f → R f)
    (hc : ∀ fs, (∀ g ∈ fs, Q g) → R (.disj fs)) {fs} (h : ∀ g ∈ fs, Q g) :
    R (mkDisj fs) := by
  unfold mkDisj
  have := fun l => disjLoop_mem (l := l) hQ h (ops := []) (by simp)
  split <;> rename_i h'
  · exact htt
  · exact hff
  · exact h1 _ (this _ h' _ (by simp))
  · exact hc _ (this _ h')

theorem _root_.Verif.Spec.IsNnf.conj_inv {fs} (h : IsNnf P (.conj fs)) : ∀ g ∈ fs, IsNnf P g := by
  cases h with
  | atom h => cases h
  | conj h => exact h

theorem _root_.Verif.Spec.IsNnf.disj_inv {fs} (h : IsNnf P (.disj fs)) : ∀ g ∈ fs, IsNnf P g := by
  cases h with
  | atom h => cases h
  | disj h => exact h

theorem _root_.Verif.Spec.IsNnf.mkConj {fs} (h : ∀ g ∈ fs, IsNnf P g) : IsNnf P (mkConj fs) :=
  mkConj_ind (Q := IsNnf P) (fun _ => IsNnf.conj_inv) (.atom trivial) (.atom trivial)
    (fun _ h => h) (fun _ h => .conj h) h

theorem _root_.Verif.Spec.IsNnf.mkDisj {fs} (h : ∀ g ∈ fs, IsNnf P g) : IsNnf P (mkDisj fs) :=
  mkDisj_ind (Q := IsNnf P) (fun _ => IsNnf.disj_inv) (.atom trivial) (.atom trivial)
    (fun _ h => h) (fun _ h => .disj h) h
end

theorem notF_bvar (v) : notF (.bvar v) = .neg (.bvar v) := by simp [notF]
theorem notF_rel (op a b) : notF (.rel op a b) = .neg (.rel op a b) := by simp [notF]
theorem notF_all (vs f) : notF (.all vs f) = .neg (.all vs f) := by simp [notF]

theorem mkRel_atom (op a b) : IsAtom (mkRel op a b) := by
  unfold mkRel
  split
  · split_ifs <;> trivial
  · trivial

/-- The negations left by the two modes. -/
def nnfAtom (push : Bool) : Fml → Prop := fun f => if push then IsBoolAtom f else IsAtom f

mutual
theorem nnfVisit_shape (push pol : Bool) (f : Fml) :
    IsNnf (nnfAtom push) (nnfVisit push pol f) := by
  cases f with
  | ff => cases pol <;> exact .atom (by simp [nnfVisit, IsAtom])
  | tt => cases pol <;> exact .atom (by simp [nnfVisit, IsAtom])
  | bvar v =>
    cases pol
    · simp only [nnfVisit, notF_bvar]
      exact .neg (by cases push <;> simp [nnfAtom, IsAtom, IsBoolAtom])
    · exact .atom (by simp [nnfVisit, IsAtom])
  | rel op a b =>
    cases pol
    · cases push
      · simp only [nnfVisit, notF_rel]
        exact .neg (by simp [nnfAtom, IsAtom])
      · exact .atom (by simpa [nnfVisit] using mkRel_atom _ _ _)
    · exact .atom (by simp [nnfVisit, IsAtom])
  | conj fs =>
    have h : ∀ g ∈ toSet (nnfVisitList push pol fs), IsNnf (nnfAtom push) g := by
      intro g hg; rw [mem_toSet] at hg; exact nnfVisitList_shape push pol fs g hg
    simp only [nnfVisit]
    split_ifs
    · exact IsNnf.mkConj h
    · exact IsNnf.mkDisj h
  | disj fs =>
    have h : ∀ g ∈ toSet (nnfVisitList push pol fs), IsNnf (nnfAtom push) g := by
      intro g hg; rw [mem_toSet] at hg; exact nnfVisitList_shape push pol fs g hg
    simp only [nnfVisit]
    split_ifs
    · exact IsNnf.mkDisj h
    · exact IsNnf.mkConj h
  | neg f => simp only [nnfVisit]; exact nnfVisit_shape push (!pol) f
  | all vs f =>
    cases pol
    · simp only [nnfVisit, notF_all]
      exact .neg (by cases push <;> simp [nnfAtom, IsAtom, IsBoolAtom])
    · exact .atom (by simp [nnfVisit, IsAtom])
theorem nnfVisitList_shape (push pol : Bool) (fs : List Fml) :
    ∀ g ∈ nnfVisitList push pol fs, IsNnf (nnfAtom push) g := by
  cases fs with
  | nil => simp [nnfVisitList]
  | cons f fs =>
    intro g hg
    simp only [nnfVisitList, List.mem_cons] at hg
    rcases hg with rfl | hg
    · exact nnfVisit_shape push pol f
    · exact nnfVisitList_shape push pol fs g hg
end

/-! ### CNF -/

theorem _root_.Verif.Spec.IsLit.atom {f} (h : IsAtom f) : IsLit f := Or.inl h
theorem _root_.Verif.Spec.IsClause.lit {f} (h : IsLit f) : IsClause f := Or.inl h
theorem _root_.Verif.Spec.IsCnf.clause {f} (h : IsClause f) : IsCnf f := Or.inl h

theorem _root_.Verif.Spec.IsLit.not_disj {fs} : ¬ IsLit (.disj fs) := by
  rintro (h | ⟨g, h, _⟩)
  · cases h
  · cases h
theorem _root_.Verif.Spec.IsLit.not_conj {fs} : ¬ IsLit (.conj fs) := by
  rintro (h | ⟨g, h, _⟩)
  · cases h
  · cases h
theorem _root_.Verif.Spec.IsClause.not_conj {fs} : ¬ IsClause (.conj fs) := by
  rintro (h | ⟨g, h, _⟩)
  · exact IsLit.not_conj h
  · cases h
theorem _root_.Verif.Spec.IsClause.disj_inv {fs} (h : IsClause (.disj fs)) : ∀ g ∈ fs, IsLit g := by
  rcases h with h | ⟨gs, h, h'⟩
  · exact absurd h IsLit.not_disj
  · cases h; exact h'
theorem _root_.Verif.Spec.IsCnf.conj_inv {fs} (h : IsCnf (.conj fs)) : ∀ g ∈ fs, IsClause g := by
  rcases h with h | ⟨gs, h, h'⟩
  · exact absurd h IsClause.not_conj
  · cases h; exact h'
theorem _root_.Verif.Spec.IsCnf.not_conj_clause {f} (h : IsCnf f) (hn : ∀ fs, f ≠ .conj fs) : IsClause f := by
  rcases h with h | ⟨fs, h, _⟩
  · exact h
  · exact absurd h (hn fs)

/-- Operands of a clause. -/
def lits : Fml → List Fml
  | .disj fs => fs
  | f => [f]

theorem mergeDisj_lits {f s} (hf : IsClause f) (hs : ∀ g ∈ s, IsLit g) :
    ∀ g ∈ mergeDisj f s, IsLit g := by
  intro g hg
  unfold mergeDisj at hg
  split at hg
  · rw [mem_foldl_insertF] at hg
    rcases hg with hg | hg
    exacts [hf.disj_inv g hg, hs g hg]
  · rename_i hne
    rw [mem_insertF] at hg
    rcases hg with rfl | hg
    · rcases hf with hf | ⟨gs, rfl, _⟩
      · exact hf
      · exact absurd rfl (hne gs)
    · exact hs g hg

theorem _root_.Verif.Spec.IsClause.orF {f g} (hf : IsClause f) (hg : IsClause g) : IsClause (orF f g) := by
  unfold Model.orF
  split_ifs
  · exact hf
  · exact .lit (.atom trivial)
  · exact hg
  · exact hf
  · exact hf
  · split
    · exact Or.inr ⟨_, rfl, mergeDisj_lits hg hf.disj_inv⟩
    · exact Or.inr ⟨_, rfl, mergeDisj_lits hf hg.disj_inv⟩
    · rename_i h1 h2
      refine Or.inr ⟨_, rfl, ?_⟩
      intro x hx
      simp only [mem_insertF, List.not_mem_nil, or_false] at hx
      rcases hx with rfl | rfl
      · rcases hg with hg | ⟨gs, rfl, _⟩
        · exact hg
        · exact absurd rfl (h2 gs)
      · rcases hf with hf | ⟨gs, rfl, _⟩
        · exact hf
        · exact absurd rfl (h1 gs)

theorem mergeConj_clauses {f s} (hf : IsCnf f) (hs : ∀ g ∈ s, IsClause g) :
    ∀ g ∈ mergeConj f s, IsClause g := by
  intro g hg
  unfold mergeConj at hg
  split at hg
  · rw [mem_foldl_insertF] at hg
    rcases hg with hg | hg
    exacts [hf.conj_inv g hg, hs g hg]
  · rename_i hne
    rw [mem_insertF] at hg
    rcases hg with rfl | hg
    · exact hf.not_conj_clause hne
    · exact hs g hg

theorem _root_.Verif.Spec.IsCnf.andF {f g} (hf : IsCnf f) (hg : IsCnf g) : IsCnf (andF f g) := by
  unfold Model.andF
  split_ifs
  · exact hf
  · exact .clause (.lit (.atom trivial))
  · exact hg
  · exact hf
  · exact hf
  · split
    · exact Or.inr ⟨_, rfl, mergeConj_clauses hg hf.conj_inv⟩
    · exact Or.inr ⟨_, rfl, mergeConj_clauses hf hg.conj_inv⟩
    · rename_i h1 h2
      refine Or.inr ⟨_, rfl, ?_⟩
      intro x hx
      simp only [mem_insertF, List.not_mem_nil, or_false] at hx
      rcases hx with rfl | rfl
      · exact hg.not_conj_clause h2
      · exact hf.not_conj_clause h1

theorem conjLoop_clauses {fs ops l} (hf : ∀ g ∈ fs, IsCnf g)
    (ho : ∀ g ∈ ops, IsClause g) (h : conjLoop fs ops = some l) : ∀ g ∈ l, IsClause g := by
  induction fs generalizing ops with
  | nil => simp [conjLoop] at h; subst h; exact ho
  | cons f fs ih =>
    unfold conjLoop at h
    split_ifs at h
    · exact ih (fun g hg => hf g (by simp [hg])) ho h
    · exact ih (fun g hg => hf g (by simp [hg])) (mergeConj_clauses (hf f (by simp)) ho) h

theorem _root_.Verif.Spec.IsCnf.mkConj {fs} (h : ∀ g ∈ fs, IsCnf g) : IsCnf (mkConj fs) := by
  unfold Model.mkConj
  have := fun l => conjLoop_clauses (l := l) h (ops := []) (by simp)
  split <;> rename_i h'
  · exact .clause (.lit (.atom trivial))
  · exact .clause (.lit (.atom trivial))
  · exact .clause (this _ h' _ (by simp))
  · exact Or.inr ⟨_, rfl, this _ h'⟩

theorem _root_.Verif.Spec.IsCnf.distribute {f g} (hf : IsCnf f) (hg : IsCnf g) : IsCnf (distribute f g) := by
  unfold Model.distribute
  refine IsCnf.mkConj ?_
  intro x hx
  rw [mem_toSet] at hx
  refine .clause ?_
  split at hx
  · simp only [List.mem_flatMap, List.mem_map] at hx
    obtain ⟨a, ha, b, hb, rfl⟩ := hx
    exact (hf.conj_inv a ha).orF (hg.conj_inv b hb)
  · rename_i hne
    simp only [List.mem_map] at hx
    obtain ⟨a, ha, rfl⟩ := hx
    exact (hf.conj_inv a ha).orF (hg.not_conj_clause hne)
  · rename_i hne
    simp only [List.mem_map] at hx
    obtain ⟨a, ha, rfl⟩ := hx
    exact (hf.not_conj_clause hne).orF (hg.conj_inv a ha)
  · rename_i h1 h2 h3
    simp only [List.mem_singleton] at hx
    subst hx
    exact (hf.not_conj_clause h1).orF (hg.not_conj_clause h2)

theorem holds_distribute {I ρ f g} :
    holds I ρ (distribute f g) ↔ holds I ρ f ∨ holds I ρ g := by
  unfold Model.distribute
  rw [holds_mkConj]
  simp only [mem_toSet]
  split
  · simp only [List.mem_flatMap, List.mem_map, holds_conj]
    constructor
    · intro h
      by_contra hc
      push Not at hc
      obtain ⟨⟨a, ha, hna⟩, ⟨b, hb, hnb⟩⟩ := hc
      have := h _ ⟨a, ha, b, hb, rfl⟩
      rw [holds_orF] at this
      tauto
    · rintro h x ⟨a, ha, b, hb, rfl⟩
      rw [holds_orF]
      rcases h with h | h
      exacts [Or.inl (h a ha), Or.inr (h b hb)]
  · simp only [List.mem_map, holds_conj]
    constructor
    · intro h
      by_contra hc
      push Not at hc
      obtain ⟨⟨a, ha, hna⟩, hnb⟩ := hc
      have := h _ ⟨a, ha, rfl⟩
      rw [holds_orF] at this
      tauto
    · rintro h x ⟨a, ha, rfl⟩
      rw [holds_orF]
      rcases h with h | h
      exacts [Or.inl (h a ha), Or.inr h]
  · simp only [List.mem_map, holds_conj]
    constructor
    · intro h
      by_contra hc
      push Not at hc
      obtain ⟨hna, ⟨b, hb, hnb⟩⟩ := hc
      have := h _ ⟨b, hb, rfl⟩
      rw [holds_orF] at this
      tauto
    · rintro h x ⟨a, ha, rfl⟩
      rw [holds_orF]
      rcases h with h | h
      exacts [Or.inl h, Or.inr (h a ha)]
  · simp

theorem foldl_distribute {I ρ} (l : List Fml) (acc : Fml) :
    holds I ρ (l.foldl distribute acc) ↔ holds I ρ acc ∨ ∃ g ∈ l, holds I ρ g := by
  induction l generalizing acc with
  | nil => simp
  | cons f l ih =>
    simp only [List.foldl_cons, ih, holds_distribute, List.mem_cons, exists_eq_or_imp]
    rw [or_assoc]

theorem foldl_distribute_cnf (l : List Fml) (acc : Fml) (ha : IsCnf acc)
    (h : ∀ g ∈ l, IsCnf g) : IsCnf (l.foldl distribute acc) := by
  induction l generalizing acc with
  | nil => exact ha
  | cons f l ih =>
    simp only [List.foldl_cons]
    exact ih _ (ha.distribute (h f (by simp))) (fun g hg => h g (by simp [hg]))

/-- What `naiveVisit` delivers. -/
def NaiveOK (f : Fml) (r : Outcome Fml) : Prop :=
  ∃ g, r = .ok g ∧ IsCnf g ∧ ∀ I ρ, holds I ρ g ↔ holds I ρ f

def NaiveListOK (fs : List Fml) (r : Outcome (List Fml)) : Prop :=
  ∃ gs, r = .ok gs ∧ (∀ g ∈ gs, IsCnf g) ∧ ∀ I ρ,
    ((∀ g ∈ gs, holds I ρ g) ↔ ∀ f ∈ fs, holds I ρ f) ∧
    ((∃ g ∈ gs, holds I ρ g) ↔ ∃ f ∈ fs, holds I ρ f)

theorem holds_forallF_congr {I ρ vs f g} (h : ∀ σ, holds I σ g ↔ holds I σ f) :
    holds I ρ (forallF vs g) ↔ holds I ρ (.all vs f) := by
  rw [holds_forallF, holds_all, holds_all]
  simp only [h]

theorem nnf_ok (f : Fml) : IsNnf IsBoolAtom (nnf true f) := nnfVisit_shape true true f

mutual
theorem naiveVisit_ok (f : Fml) (hf : IsNnf IsBoolAtom f) : NaiveOK f (naiveVisit f) := by
  match f with
  | .ff => exact ⟨.ff, by simp [naiveVisit], .clause (.lit (.atom trivial)), by simp⟩
  | .tt => exact ⟨.tt, by simp [naiveVisit], .clause (.lit (.atom trivial)), by simp⟩
  | .bvar v => exact ⟨.bvar v, by simp [naiveVisit], .clause (.lit (.atom trivial)), by simp⟩
  | .rel op a b =>
    cases op
    · refine ⟨_, by simp only [naiveVisit]; rfl, ?_, ?_⟩
      · exact (IsCnf.clause (.lit (.atom (mkRel_atom _ _ _)))).andF
          (.clause (.lit (.atom (mkRel_atom _ _ _))))
      · intro I ρ; simp only [holds_andF, holds_mkRel, holds_rel, relSem]
        constructor
        · rintro ⟨h1, h2⟩; exact le_antisymm h2 h1
        · intro h; exact ⟨h.ge, h.le⟩
    · refine ⟨_, by simp only [naiveVisit]; rfl, ?_, ?_⟩
      · exact .clause ((IsClause.lit (.atom (mkRel_atom _ _ _))).orF
          (.lit (.atom (mkRel_atom _ _ _))))
      · intro I ρ; simp only [holds_orF, holds_mkRel, holds_rel, relSem]
        constructor
        · rintro (h | h)
          exacts [ne_of_gt h, ne_of_lt h]
        · intro h; exact (lt_or_gt_of_ne h).symm
    all_goals
      refine ⟨_, by simp only [naiveVisit], ?_, fun I ρ => Iff.rfl⟩
      exact .clause (.lit (.atom trivial))
  | .all vs f =>
    obtain ⟨g, hg, _, hm⟩ := naiveVisit_ok (nnf true f) (nnf_ok f)
    refine ⟨forallF vs g, by simp [naiveVisit, hg], .clause (.lit (.atom ?_)), ?_⟩
    · simp [forallF, IsAtom]
    · intro I ρ
      refine holds_forallF_congr (fun σ => ?_)
      rw [hm, nnf, nnfVisit_holds]; simp
  | .conj fs =>
    obtain ⟨gs, hgs, hc, hm⟩ := naiveVisitList_ok fs hf.conj_inv
    refine ⟨_, by simp [naiveVisit, hgs]; rfl, ?_, ?_⟩
    · exact IsCnf.mkConj (fun g hg => hc g (mem_toSet.mp hg))
    · intro I ρ
      simp only [holds_mkConj, mem_toSet, holds_conj]
      exact (hm I ρ).1
  | .disj fs =>
    obtain ⟨gs, hgs, hc, hm⟩ := naiveVisitList_ok fs hf.disj_inv
    refine ⟨_, by simp [naiveVisit, hgs]; rfl, ?_, ?_⟩
    · exact foldl_distribute_cnf _ _ (.clause (.lit (.atom trivial)))
        (fun g hg => hc g (mem_toSet.mp hg))
    · intro I ρ
      rw [foldl_distribute]
      simp only [mem_toSet, holds_disj, holds_ff, false_or]
      exact (hm I ρ).2
  | .neg f =>
    have hb : IsBoolAtom f := by
      cases hf with
      | atom h => cases h
      | neg h => exact h
    have ha : f.isAtomic = true ∧ IsAtom f := by
      cases f <;> first | exact absurd hb id | exact ⟨rfl, trivial⟩
    refine ⟨.neg f, by simp [naiveVisit, ha.1], ?_, fun I ρ => Iff.rfl⟩
    exact .clause (.lit (Or.inr ⟨f, rfl, ha.2⟩))
termination_by (f.qdepth, sizeOf f)
decreasing_by
  · have := nnfVisit_qdepth true true f
    simp only [Fml.qdepth, nnf]
    exact Prod.Lex.left _ _ (Nat.lt_succ_of_le this)
  · simp only [Fml.qdepth]
    exact Prod.Lex.right _ (by simp)
  · simp only [Fml.qdepth]
    exact Prod.Lex.right _ (by simp)
theorem naiveVisitList_ok (fs : List Fml) (hf : ∀ f ∈ fs, IsNnf IsBoolAtom f) :
    NaiveListOK fs (naiveVisitList fs) := by
  match fs with
  | [] => exact ⟨[], by simp [naiveVisitList], by simp, by simp⟩
  | f :: fs =>
    obtain ⟨g, hg, hc, hm⟩ := naiveVisit_ok f (hf f (by simp))
    obtain ⟨gs, hgs, hcs, hms⟩ := naiveVisitList_ok fs (fun x hx => hf x (by simp [hx]))
    refine ⟨g :: gs, by simp [naiveVisitList, hg, hgs], ?_, ?_⟩
    · intro x hx
      simp only [List.mem_cons] at hx
      rcases hx with rfl | hx
      exacts [hc, hcs x hx]
    · intro I ρ
      simp only [List.mem_cons, forall_eq_or_imp, exists_eq_or_imp]
      rw [hm, (hms I ρ).1, (hms I ρ).2]
      exact ⟨Iff.rfl, Iff.rfl⟩
termination_by (Fml.qdepthList fs, sizeOf fs)
decreasing_by
  · simp only [Fml.qdepthList]
    rcases Nat.lt_or_ge f.qdepth (Fml.qdepthList fs) with h | h
    · rw [Nat.max_eq_right (Nat.le_of_lt h)]; exact Prod.Lex.left _ _ h
    · rw [Nat.max_eq_left h]; exact Prod.Lex.right _ (by simp; omega)
  · simp only [Fml.qdepthList]
    rcases Nat.lt_or_ge (Fml.qdepthList fs) f.qdepth with h | h
    · rw [Nat.max_eq_left (Nat.le_of_lt h)]; exact Prod.Lex.left _ _ h
    · rw [Nat.max_eq_right h]; exact Prod.Lex.right _ (by simp)
end

end Verif.Proof
