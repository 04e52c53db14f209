import Verif.Proof.Nnf

/-! Free variables of the results of constructors and conversions. -/

namespace Verif.Proof
open Verif Verif.Model Verif.Spec

/-- All free variables satisfy `P`. -/
def FvIn (P : Variable → Prop) (f : Fml) : Prop := ∀ v ∈ f.fv, P v

variable {P : Variable → Prop}

theorem FvIn.mono {Q : Variable → Prop} {f} (h : FvIn P f) (hPQ : ∀ v, P v → Q v) : FvIn Q f :=
  fun v hv => hPQ v (h v hv)

@[simp] theorem FvIn_ff : FvIn P .ff := by simp [FvIn, Fml.fv]
@[simp] theorem FvIn_tt : FvIn P .tt := by simp [FvIn, Fml.fv]
@[simp] theorem FvIn_bvar {v} : FvIn P (.bvar v) ↔ P v := by simp [FvIn, Fml.fv]
@[simp] theorem FvIn_neg {f} : FvIn P (.neg f) ↔ FvIn P f := by simp [FvIn, Fml.fv]
theorem FvIn_conj {fs} : FvIn P (.conj fs) ↔ ∀ g ∈ fs, FvIn P g := by
  simp only [FvIn, Fml.fv, Fml.mem_fvList]
  constructor
  · intro h g hg v hv; exact h v ⟨g, hg, hv⟩
  · rintro h v ⟨g, hg, hv⟩; exact h g hg v hv
theorem FvIn_disj {fs} : FvIn P (.disj fs) ↔ ∀ g ∈ fs, FvIn P g := by
  simp only [FvIn, Fml.fv, Fml.mem_fvList]
  constructor
  · intro h g hg v hv; exact h v ⟨g, hg, hv⟩
  · rintro h v ⟨g, hg, hv⟩; exact h g hg v hv
theorem FvIn_all {vs f} : FvIn P (.all vs f) ↔ FvIn (fun v => v ∈ vs ∨ P v) f := by
  simp only [FvIn, Fml.fv, List.mem_filter, decide_eq_true_eq]
  constructor
  · intro h v hv
    by_cases hvs : v ∈ vs
    exacts [Or.inl hvs, Or.inr (h v ⟨hv, hvs⟩)]
  · rintro h v ⟨hv, hvs⟩; exact (h v hv).resolve_left hvs

theorem FvIn.notF {f} (h : FvIn P f) : FvIn P (notF f) := by
  unfold Model.notF
  split_ifs
  · simp
  · simp
  · split
    · simpa using h
    · simpa using h

theorem notF_FvIn_iff {f} : FvIn P (notF f) ↔ FvIn P f := by
  unfold Model.notF
  split_ifs with h1 h2
  · subst h1; simp
  · subst h2; simp
  · split <;> simp

theorem FvIn.mkConj {fs} (h : ∀ g ∈ fs, FvIn P g) : FvIn P (mkConj fs) :=
  mkConj_ind (Q := FvIn P) (fun _ => FvIn_conj.mp) (by simp) (by simp) (fun _ h => h)
    (fun _ h => FvIn_conj.mpr h) h

theorem FvIn.mkDisj {fs} (h : ∀ g ∈ fs, FvIn P g) : FvIn P (mkDisj fs) :=
  mkDisj_ind (Q := FvIn P) (fun _ => FvIn_disj.mp) (by simp) (by simp) (fun _ h => h)
    (fun _ h => FvIn_disj.mpr h) h

theorem FvIn.andF {f g} (hf : FvIn P f) (hg : FvIn P g) : FvIn P (andF f g) := by
  unfold Model.andF
  split_ifs
  · exact hf
  · simp
  · exact hg
  · exact hf
  · exact hf
  · split
    · exact FvIn_conj.mpr (mergeConj_mem (fun _ => FvIn_conj.mp) hg (FvIn_conj.mp hf))
    · exact FvIn_conj.mpr (mergeConj_mem (fun _ => FvIn_conj.mp) hf (FvIn_conj.mp hg))
    · refine FvIn_conj.mpr (fun x hx => ?_)
      simp only [mem_insertF, List.not_mem_nil, or_false] at hx
      rcases hx with rfl | rfl <;> assumption

theorem FvIn.orF {f g} (hf : FvIn P f) (hg : FvIn P g) : FvIn P (orF f g) := by
  unfold Model.orF
  split_ifs
  · exact hf
  · simp
  · exact hg
  · exact hf
  · exact hf
  · split
    · exact FvIn_disj.mpr (mergeDisj_mem (fun _ => FvIn_disj.mp) hg (FvIn_disj.mp hf))
    · exact FvIn_disj.mpr (mergeDisj_mem (fun _ => FvIn_disj.mp) hf (FvIn_disj.mp hg))
    · refine FvIn_disj.mpr (fun x hx => ?_)
      simp only [mem_insertF, List.not_mem_nil, or_false] at hx
      rcases hx with rfl | rfl <;> assumption

theorem FvIn.implyF {f g} (hf : FvIn P f) (hg : FvIn P g) : FvIn P (implyF f g) :=
  hf.notF.orF hg

theorem FvIn.mkRel {op op' a b} (h : FvIn P (.rel op a b)) : FvIn P (mkRel op' a b) := by
  unfold Model.mkRel
  split
  · split_ifs <;> simp
  · exact h

theorem FvIn_forallF {vs f} (h : FvIn (fun v => v ∈ vs ∨ P v) f) : FvIn P (forallF vs f) := by
  unfold forallF
  rw [FvIn_all]
  intro v hv
  rcases h v hv with h | h
  · left; simp [h, hv]
  · exact Or.inr h

mutual
theorem FvIn.nnfVisit {f} (push pol : Bool) (h : FvIn P f) : FvIn P (nnfVisit push pol f) := by
  cases f with
  | ff => cases pol <;> simp [Model.nnfVisit]
  | tt => cases pol <;> simp [Model.nnfVisit]
  | bvar v =>
    cases pol <;> simp only [Model.nnfVisit, Bool.false_eq_true, if_false, if_true]
    exacts [h.notF, h]
  | rel op a b =>
    simp only [Model.nnfVisit]
    split_ifs
    exacts [h, h.mkRel, h.notF]
  | conj fs =>
    have h' : ∀ g ∈ toSet (Model.nnfVisitList push pol fs), FvIn P g := by
      intro g hg; rw [mem_toSet] at hg; exact FvIn.nnfVisitList push pol (FvIn_conj.mp h) g hg
    simp only [Model.nnfVisit]
    split_ifs
    exacts [FvIn.mkConj h', FvIn.mkDisj h']
  | disj fs =>
    have h' : ∀ g ∈ toSet (Model.nnfVisitList push pol fs), FvIn P g := by
      intro g hg; rw [mem_toSet] at hg; exact FvIn.nnfVisitList push pol (FvIn_disj.mp h) g hg
    simp only [Model.nnfVisit]
    split_ifs
    exacts [FvIn.mkDisj h', FvIn.mkConj h']
  | neg f =>
    simp only [Model.nnfVisit]
    exact FvIn.nnfVisit push (!pol) (FvIn_neg.mp h)
  | all vs f =>
    cases pol <;> simp only [Model.nnfVisit, Bool.false_eq_true, if_false, if_true]
    exacts [h.notF, h]
theorem FvIn.nnfVisitList {fs : List Fml} (push pol : Bool) (h : ∀ g ∈ fs, FvIn P g) :
    ∀ g ∈ nnfVisitList push pol fs, FvIn P g := by
  cases fs with
  | nil => simp [Model.nnfVisitList]
  | cons f fs =>
    intro g hg
    simp only [Model.nnfVisitList, List.mem_cons] at hg
    rcases hg with rfl | hg
    · exact FvIn.nnfVisit push pol (h f (by simp))
    · exact FvIn.nnfVisitList push pol (fun g hg => h g (by simp [hg])) g hg
end

theorem FvIn.distribute {f g} (hf : FvIn P f) (hg : FvIn P g) : FvIn P (distribute f g) := by
  unfold Model.distribute
  refine FvIn.mkConj ?_
  intro x hx
  rw [mem_toSet] at hx
  split at hx
  · simp only [List.mem_flatMap, List.mem_map] at hx
    obtain ⟨a, ha, b, hb, rfl⟩ := hx
    exact (FvIn_conj.mp hf a ha).orF (FvIn_conj.mp hg b hb)
  · simp only [List.mem_map] at hx
    obtain ⟨a, ha, rfl⟩ := hx
    exact (FvIn_conj.mp hf a ha).orF hg
  · simp only [List.mem_map] at hx
    obtain ⟨a, ha, rfl⟩ := hx
    exact hf.orF (FvIn_conj.mp hg a ha)
  · simp only [List.mem_singleton] at hx
    subst hx
    exact hf.orF hg

theorem FvIn.foldl_distribute {l : List Fml} {acc} (ha : FvIn P acc) (h : ∀ g ∈ l, FvIn P g) :
    FvIn P (l.foldl Model.distribute acc) := by
  induction l generalizing acc with
  | nil => exact ha
  | cons f l ih =>
    simp only [List.foldl_cons]
    exact ih (ha.distribute (h f (by simp))) (fun g hg => h g (by simp [hg]))

mutual
theorem FvIn.naiveVisit (f : Fml) {g} (P : Variable → Prop) (h : FvIn P f)
    (hr : naiveVisit f = .ok g) : FvIn P g := by
  match f with
  | .ff => simp only [Model.naiveVisit, Outcome.ok.injEq] at hr; subst hr; exact h
  | .tt => simp only [Model.naiveVisit, Outcome.ok.injEq] at hr; subst hr; exact h
  | .bvar v => simp only [Model.naiveVisit, Outcome.ok.injEq] at hr; subst hr; exact h
  | .rel op a b =>
    cases op <;> simp only [Model.naiveVisit, Outcome.ok.injEq] at hr <;> subst hr
    · exact h.mkRel.andF h.mkRel
    · exact h.mkRel.orF h.mkRel
    all_goals exact h
  | .all vs f =>
    simp only [Model.naiveVisit] at hr
    cases hr' : Model.naiveVisit (nnf true f) with
    | throw => rw [hr'] at hr; simp at hr
    | ub => rw [hr'] at hr; simp at hr
    | ok g' => ?_
    rw [hr'] at hr
    simp only [Outcome.bind_ok, Outcome.ok.injEq] at hr
    subst hr
    exact FvIn_forallF
      (FvIn.naiveVisit (nnf true f) _ ((FvIn_all.mp h).nnfVisit true true) hr')
  | .conj fs =>
    simp only [Model.naiveVisit] at hr
    cases hr' : Model.naiveVisitList fs <;> rw [hr'] at hr <;> simp at hr
    subst hr
    exact FvIn.mkConj (fun g hg => FvIn.naiveVisitList fs P (FvIn_conj.mp h) hr' g
      (mem_toSet.mp hg))
  | .disj fs =>
    simp only [Model.naiveVisit] at hr
    cases hr' : Model.naiveVisitList fs <;> rw [hr'] at hr <;> simp at hr
    subst hr
    exact FvIn.foldl_distribute (by simp) (fun g hg => FvIn.naiveVisitList fs P
      (FvIn_disj.mp h) hr' g (mem_toSet.mp hg))
  | .neg f =>
    simp only [Model.naiveVisit] at hr
    split_ifs at hr
    simp at hr; subst hr; exact h
termination_by (f.qdepth, sizeOf f)
decreasing_by
  · have := nnfVisit_qdepth true true f
    simp only [Fml.qdepth, nnf]
    exact Prod.Lex.left _ _ (Nat.lt_succ_of_le this)
  · simp only [Fml.qdepth]
    exact Prod.Lex.right _ (by simp)
  · simp only [Fml.qdepth]
    exact Prod.Lex.right _ (by simp)
theorem FvIn.naiveVisitList (fs : List Fml) {gs} (P : Variable → Prop)
    (h : ∀ f ∈ fs, FvIn P f) (hr : naiveVisitList fs = .ok gs) : ∀ g ∈ gs, FvIn P g := by
  match fs with
  | [] => simp only [Model.naiveVisitList, Outcome.ok.injEq] at hr; subst hr; simp
  | f :: fs =>
    simp only [Model.naiveVisitList] at hr
    cases h1 : Model.naiveVisit f <;> rw [h1] at hr <;> simp at hr
    cases h2 : Model.naiveVisitList fs <;> rw [h2] at hr <;> simp at hr
    subst hr
    intro g hg
    simp only [List.mem_cons] at hg
    rcases hg with rfl | hg
    · exact FvIn.naiveVisit f P (h f (by simp)) h1
    · exact FvIn.naiveVisitList fs P (fun g hg => h g (by simp [hg])) h2 g hg
termination_by (Fml.qdepthList fs, sizeOf fs)
decreasing_by
  · simp only [Fml.qdepthList]
    rcases Nat.lt_or_ge f.qdepth (Fml.qdepthList fs) with h | h
    · rw [Nat.max_eq_right (Nat.le_of_lt h)]; exact Prod.Lex.left _ _ h
    · rw [Nat.max_eq_left h]; exact Prod.Lex.right _ (by simp; omega)
  · simp only [Fml.qdepthList]
    rcases Nat.lt_or_ge (Fml.qdepthList fs) f.qdepth with h | h
    · rw [Nat.max_eq_left (Nat.le_of_lt h)]; exact Prod.Lex.left _ _ h
    · rw [Nat.max_eq_right h]; exact Prod.Lex.right _ (by simp)
end

theorem FvIn.naiveCnf {f g : Fml} (h : FvIn P f) (hr : naiveCnf f = .ok g) : FvIn P g :=
  FvIn.naiveVisit _ P (h.nnfVisit true true) hr

end Verif.Proof
