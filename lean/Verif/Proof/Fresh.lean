import Verif.Proof.Session

/-!
# The counter of variable ids only grows
-/

namespace Verif.Proof
open Verif Verif.Model Verif.Spec

theorem absAtomic_next (f s) : s.next ≤ (absAtomic f s).2.next := by
  unfold absAtomic
  split
  · exact le_rfl
  · exact Nat.le_succ _

theorem absRel_next (op a b s) : s.next ≤ (absRel op a b s).2.next := by
  unfold absRel
  split <;> exact absAtomic_next _ _

mutual
theorem absVisit_next (f : Fml) (s) : s.next ≤ (absVisit f s).2.next := by
  unfold absVisit
  split
  · exact le_rfl
  · cases f with
    | ff => exact le_rfl
    | tt => exact le_rfl
    | bvar v => exact le_rfl
    | rel op a b => exact absRel_next _ _ _ _
    | all vs f => exact absAtomic_next _ _
    | conj fs => exact absVisitList_next fs s
    | disj fs => exact absVisitList_next fs s
    | neg f => exact absVisit_next f s
theorem absVisitList_next (fs : List Fml) (s) : s.next ≤ (absVisitList fs s).2.next := by
  unfold absVisitList
  cases fs with
  | nil => exact le_rfl
  | cons f fs => exact (absVisit_next f s).trans (absVisitList_next fs _)
end

mutual
theorem tsVisit_next : ∀ (f : Fml) {s r}, tsVisit f s = .ok r → s.next ≤ r.2.next
  | .ff, s, r, h => by simp only [tsVisit, Outcome.ok.injEq] at h; subst h; exact le_rfl
  | .tt, s, r, h => by simp only [tsVisit, Outcome.ok.injEq] at h; subst h; exact le_rfl
  | .bvar v, s, r, h => by simp only [tsVisit, Outcome.ok.injEq] at h; subst h; exact le_rfl
  | .rel op a b, s, r, h => by simp only [tsVisit, Outcome.ok.injEq] at h; subst h; exact le_rfl
  | .all vs f, s, r, h => by
    simp only [tsVisit] at h
    obtain ⟨g, -, h2⟩ := bindO_ok h
    split at h2
    · split at h2
      · simp only [Outcome.ok.injEq] at h2; subst h2; exact le_rfl
      · simp only [Outcome.ok.injEq] at h2; subst h2; exact Nat.le_succ _
    · cases h2
  | .conj fs, s, r, h => by
    simp only [tsVisit] at h
    obtain ⟨⟨gs, s1⟩, h1, h2⟩ := bindO_ok h
    simp only [Outcome.ok.injEq] at h2; subst h2
    have := tsVisitList_next fs h1
    exact this.trans (Nat.le_succ _)
  | .disj fs, s, r, h => by
    simp only [tsVisit] at h
    obtain ⟨⟨gs, s1⟩, h1, h2⟩ := bindO_ok h
    simp only [Outcome.ok.injEq] at h2; subst h2
    have := tsVisitList_next fs h1
    exact this.trans (Nat.le_succ _)
  | .neg f, s, r, h => by
    simp only [tsVisit] at h
    split at h
    · simp only [Outcome.ok.injEq] at h; subst h; exact le_rfl
    · obtain ⟨⟨g, s1⟩, h1, h2⟩ := bindO_ok h
      simp only [Outcome.ok.injEq] at h2; subst h2
      have := tsVisit_next f h1
      exact (Nat.le_succ _).trans this
theorem tsVisitList_next : ∀ (fs : List Fml) {s r}, tsVisitList fs s = .ok r → s.next ≤ r.2.next
  | [], s, r, h => by simp only [tsVisitList, Outcome.ok.injEq] at h; subst h; exact le_rfl
  | f :: fs, s, r, h => by
    simp only [tsVisitList] at h
    obtain ⟨⟨g, s1⟩, h1, h2⟩ := bindO_ok h
    obtain ⟨⟨gs, s2⟩, h3, h4⟩ := bindO_ok h2
    simp only [Outcome.ok.injEq] at h4; subst h4
    have := tsVisitList_next fs h3
    exact (tsVisit_next f h1).trans this
end

theorem tseitin_next {n f cs n'} (h : tseitin n f = .ok (cs, n')) : n ≤ n' := by
  unfold tseitin at h
  obtain ⟨⟨head, s⟩, h1, h2⟩ := bindO_ok h
  have := tsVisit_next f h1
  simp only at h2
  split at h2
  · simp only [Outcome.ok.injEq, Prod.mk.injEq] at h2; rw [← h2.2]; exact this
  · split at h2
    · obtain ⟨ds, -, h4⟩ := bindO_ok h2
      simp only [Outcome.ok.injEq, Prod.mk.injEq] at h4; rw [← h4.2]; exact this
    · cases h2

theorem makeSatVar_abs (s v) : (makeSatVar s v).abs = s.abs := by
  unfold makeSatVar; split <;> rfl

theorem makeSatVars_abs : ∀ (vs : List Variable) (s), (vs.foldl makeSatVar s).abs = s.abs
  | [], _ => rfl
  | v :: vs, s => (makeSatVars_abs vs _).trans (makeSatVar_abs s v)

theorem addClause_abs {s s' f} (h : addClause s f = .ok s') : s'.abs = s.abs := by
  simp only [addClause] at h
  obtain ⟨ls, -, h2⟩ := bindO_ok h
  simp only [Outcome.ok.injEq] at h2; subst h2
  exact makeSatVars_abs _ _

theorem addClauses_abs : ∀ {fs s s'}, addClauses s fs = .ok s' → s'.abs = s.abs
  | [], s, s', h => by simp only [addClauses, Outcome.ok.injEq] at h; subst h; rfl
  | f :: fs, s, s', h => by
    simp only [addClauses] at h
    obtain ⟨s1, h1, h2⟩ := bindO_ok h
    exact (addClauses_abs h2).trans (addClause_abs h1)

theorem addFormula_next {s s' f} (h : addFormula s f = .ok s') : s.abs.next ≤ s'.abs.next := by
  simp only [addFormula] at h
  obtain ⟨r, h1, h2⟩ := bindO_ok h
  rw [addClauses_abs h2]
  have g1 := tseitin_next (n' := r.2) (cs := r.1) h1
  have g2 := absVisitList_next r.1 { s.abs with next := r.2 }
  exact g1.trans g2

theorem learnedLits_next : ∀ {fs s r}, learnedLits s fs = .ok r → s.abs.next ≤ r.2.abs.next
  | [], s, r, h => by simp only [learnedLits, Outcome.ok.injEq] at h; subst h; exact le_rfl
  | f :: fs, s, r, h => by
    simp only [learnedLits] at h
    obtain ⟨l, h1, h2⟩ := bindO_ok h
    obtain ⟨q, h3, h4⟩ := bindO_ok h2
    simp only [Outcome.ok.injEq] at h4; subst h4
    exact (absVisit_next f s.abs).trans (learnedLits_next h3)

theorem addLearned_next {s s' fs} (h : addLearned s fs = .ok s') : s.abs.next ≤ s'.abs.next := by
  simp only [addLearned] at h
  obtain ⟨r, h1, h2⟩ := bindO_ok h
  simp only [Outcome.ok.injEq] at h2; subst h2
  exact learnedLits_next h1

theorem satCheck_abs {ps s o s'} (h : satCheck ps s = .ok (o, s')) : s'.abs = s.abs := by
  simp only [satCheck] at h
  split at h
  · simp only [Outcome.ok.injEq, Prod.mk.injEq] at h; rw [← h.2]
  · simp only [Outcome.ok.injEq, Prod.mk.injEq] at h; rw [← h.2]
  · cases h

theorem checkLoop_next {cfg} : ∀ {n box s cache tick r},
    checkLoop cfg n box s cache tick = .ok r → s.abs.next ≤ r.2.1.abs.next
  | 0, _, _, _, _, _, h => by simp [checkLoop] at h
  | n + 1, box, s, cache, tick, r, h => by
    simp only [checkLoop] at h
    obtain ⟨q, h1, h2⟩ := bindR_ok h
    have hq := satCheck_abs (o := q.1) (s' := q.2) (lift_ok h1)
    cases hm : q.1 with
    | none =>
      simp only [hm, Run.ok.injEq] at h2; subst h2; exact hq ▸ le_rfl
    | some sm =>
      simp only [hm] at h2
      split at h2
      · simp only [Run.ok.injEq] at h2; subst h2; exact hq ▸ le_rfl
      · obtain ⟨fs, h3, h4⟩ := bindR_ok h2
        obtain ⟨⟨t, c', tk⟩, h5, h6⟩ := bindR_ok h4
        cases t with
        | sat b => simp only [Run.ok.injEq] at h6; subst h6; exact hq ▸ le_rfl
        | unsat e =>
          simp only at h6
          obtain ⟨s', h7, h8⟩ := bindR_ok h6
          exact (hq ▸ addLearned_next (lift_ok h7)).trans (checkLoop_next h8)

theorem checkCore_next {cfg c r} (h : checkCore cfg c = .ok r) :
    c.sat.abs.next ≤ r.2.1.abs.next := by
  unfold checkCore at h
  split at h
  · simp only [Run.ok.injEq] at h; subst h; exact le_rfl
  · split at h
    · simp only [Run.ok.injEq] at h; subst h; exact le_rfl
    · split at h
      · simp only [Run.ok.injEq] at h; subst h; exact le_rfl
      · exact checkLoop_next h

end Verif.Proof
