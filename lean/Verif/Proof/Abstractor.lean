import Verif.Spec.Abstractor
import Verif.Proof.Fv
import Mathlib.Data.List.Induction

/-! Invariant of predicate abstraction. -/

namespace Verif.Proof
open Verif Verif.Model Verif.Spec

structure AbsInv (s : AbsState) : Prop where
  boolean : ∀ p ∈ s.table, p.1.type = .boolean
  lt : ∀ p ∈ s.table, p.1.id < s.next
  sorted : s.table.Pairwise (fun p q => p.1.id < q.1.id)
  nodup : (s.table.map Prod.snd).Nodup
  fv : ∀ p ∈ s.table, ∀ v ∈ p.2.fv, v.id < p.1.id

theorem AbsInv.bump {s : AbsState} (h : AbsInv s) : AbsInv { s with next := s.next + 1 } :=
  ⟨h.boolean, fun p hp => Nat.lt_succ_of_lt (h.lt p hp), h.sorted, h.nodup, h.fv⟩

theorem find_some {s : AbsState} {f b} (h : s.find f = some b) : (b, f) ∈ s.table := by
  simp only [AbsState.find, Option.map_eq_some_iff] at h
  obtain ⟨p, hp, rfl⟩ := h
  have h1 := List.mem_of_find?_eq_some hp
  have h2 := List.find?_some hp
  simp only [decide_eq_true_eq] at h2
  subst h2; exact h1

theorem find_none {s : AbsState} {f} (h : s.find f = none) : f ∉ s.table.map Prod.snd := by
  simp only [AbsState.find, Option.map_eq_none_iff, List.find?_eq_none, decide_eq_true_eq] at h
  simp only [List.mem_map, not_exists, not_and]
  exact fun p hp => h p hp

/-- What a step of the visitor achieves. -/
structure AbsSpec (f : Fml) (s : AbsState) (g : Fml) (s' : AbsState) : Prop where
  inv : AbsInv s'
  le : s.next ≤ s'.next
  pre : s.table <+: s'.table
  prop : IsProp g
  mean : ∀ (I : Interp) (ρ : Valuation), Consistent I s'.table ρ → (holds I ρ g ↔ holds I ρ f)

theorem Consistent.mono {I T T' ρ} (h : Consistent I T' ρ) (hp : T <+: T') : Consistent I T ρ :=
  fun p hp' => h p (hp.subset hp')

theorem absAtomic_spec {f s} (hi : AbsInv s) (hf : ∀ v ∈ f.fv, v.id < s.next) :
    AbsSpec f s (absAtomic f s).1 (absAtomic f s).2 ∧
    ∃ b, (absAtomic f s).1 = .bvar b ∧ (b, f) ∈ (absAtomic f s).2.table := by
  unfold absAtomic
  split
  · rename_i b hb
    have hm := find_some hb
    refine ⟨⟨hi, le_rfl, List.prefix_rfl, .bvar, fun I ρ hc => ?_⟩, b, rfl, hm⟩
    simpa using hc _ hm
  · rename_i hn
    refine ⟨⟨⟨?_, ?_, ?_, ?_, ?_⟩, Nat.le_succ _, List.prefix_append _ _, .bvar, fun I ρ hc => ?_⟩,
      s.freshVar, rfl, by simp⟩
    · intro p hp
      rcases List.mem_append.mp hp with hp | hp
      · exact hi.boolean p hp
      · simp only [List.mem_singleton] at hp; subst hp; rfl
    · intro p hp
      rcases List.mem_append.mp hp with hp | hp
      · exact Nat.lt_succ_of_lt (hi.lt p hp)
      · simp only [List.mem_singleton] at hp; subst hp; exact Nat.lt_succ_self _
    · rw [List.pairwise_append]
      refine ⟨hi.sorted, by simp, ?_⟩
      intro p hp q hq
      simp only [List.mem_singleton] at hq; subst hq
      exact hi.lt p hp
    · rw [List.map_append, List.nodup_append]
      refine ⟨hi.nodup, by simp, ?_⟩
      intro a ha b hb hab
      simp only [List.map_cons, List.map_nil, List.mem_singleton] at hb
      subst hb; subst hab
      exact find_none hn ha
    · intro p hp
      rcases List.mem_append.mp hp with hp | hp
      · exact hi.fv p hp
      · simp only [List.mem_singleton] at hp; subst hp; exact hf
    · simpa using hc (s.freshVar, f) (by simp)

theorem IsProp.notF {f} (h : IsProp f) : IsProp (notF f) := by
  unfold Model.notF
  split_ifs
  · exact .ff
  · exact .tt
  · cases f with
    | neg g => cases h; assumption
    | _ => exact .neg h

theorem IsProp.mkConj {fs} (h : ∀ g ∈ fs, IsProp g) : IsProp (mkConj fs) :=
  mkConj_ind (Q := IsProp) (R := IsProp) (fun _ h => by cases h; assumption) .ff .tt
    (fun _ h => h) (fun _ h => .conj h) h

theorem IsProp.mkDisj {fs} (h : ∀ g ∈ fs, IsProp g) : IsProp (mkDisj fs) :=
  mkDisj_ind (Q := IsProp) (R := IsProp) (fun _ h => by cases h; assumption) .ff .tt
    (fun _ h => h) (fun _ h => .disj h) h

theorem AbsSpec.notF {f f' s g s'} (h : AbsSpec f' s g s')
    (hf : ∀ I ρ, holds I ρ f ↔ ¬ holds I ρ f') : AbsSpec f s (Model.notF g) s' :=
  ⟨h.inv, h.le, h.pre, IsProp.notF h.prop, fun I ρ hc => by rw [holds_notF, hf, h.mean I ρ hc]⟩

theorem mkRel_fv {op op' a b n} (hf : ∀ v ∈ (Fml.rel op a b).fv, v.id < n) :
    ∀ v ∈ (mkRel op' a b).fv, v.id < n :=
  FvIn.mkRel (P := fun v => v.id < n) (op := op) hf

theorem absRel_spec {op a b s} (hi : AbsInv s) (hf : ∀ v ∈ (Fml.rel op a b).fv, v.id < s.next) :
    AbsSpec (.rel op a b) s (absRel op a b s).1 (absRel op a b s).2 := by
  cases op <;> simp only [absRel]
  · exact (absAtomic_spec hi hf).1
  · exact (absAtomic_spec hi (mkRel_fv hf)).1.notF (fun I ρ => by simp [relSem])
  · exact (absAtomic_spec hi (mkRel_fv hf)).1.notF (fun I ρ => by simp [relSem])
  · exact (absAtomic_spec hi (mkRel_fv hf)).1.notF (fun I ρ => by simp [relSem])
  · exact (absAtomic_spec hi hf).1
  · exact (absAtomic_spec hi hf).1

mutual
theorem absVisit_spec (f : Fml) (s : AbsState) (hi : AbsInv s) (hf : ∀ v ∈ f.fv, v.id < s.next) :
    AbsSpec f s (absVisit f s).1 (absVisit f s).2 := by
  unfold absVisit
  split
  · rename_i b hb
    exact ⟨hi, le_rfl, List.prefix_rfl, .bvar, fun I ρ hc => by simpa using hc _ (find_some hb)⟩
  · cases f with
    | ff => exact ⟨hi, le_rfl, List.prefix_rfl, .ff, fun _ _ _ => Iff.rfl⟩
    | tt => exact ⟨hi, le_rfl, List.prefix_rfl, .tt, fun _ _ _ => Iff.rfl⟩
    | bvar v => exact ⟨hi, le_rfl, List.prefix_rfl, .bvar, fun _ _ _ => Iff.rfl⟩
    | rel op a b => exact absRel_spec hi hf
    | all vs f => exact (absAtomic_spec hi hf).1
    | conj fs =>
      obtain ⟨h1, h2, h3, h4, h5⟩ := absVisitList_spec fs s hi
        (fun f hf' v hv => hf v (Fml.mem_fvList.mpr ⟨f, hf', hv⟩))
      refine ⟨h1, h2, h3, IsProp.mkConj (fun g hg => h4 g (mem_toSet.mp hg)), fun I ρ hc => ?_⟩
      simp only [holds_mkConj, mem_toSet, holds_conj]
      exact (h5 I ρ hc).1
    | disj fs =>
      obtain ⟨h1, h2, h3, h4, h5⟩ := absVisitList_spec fs s hi
        (fun f hf' v hv => hf v (Fml.mem_fvList.mpr ⟨f, hf', hv⟩))
      refine ⟨h1, h2, h3, IsProp.mkDisj (fun g hg => h4 g (mem_toSet.mp hg)), fun I ρ hc => ?_⟩
      simp only [holds_mkDisj, mem_toSet, holds_disj]
      exact (h5 I ρ hc).2
    | neg f => exact (absVisit_spec f s hi hf).notF (fun I ρ => by simp)
theorem absVisitList_spec (fs : List Fml) (s : AbsState) (hi : AbsInv s)
    (hf : ∀ f ∈ fs, ∀ v ∈ f.fv, v.id < s.next) :
    AbsInv (absVisitList fs s).2 ∧ s.next ≤ (absVisitList fs s).2.next ∧
    s.table <+: (absVisitList fs s).2.table ∧ (∀ g ∈ (absVisitList fs s).1, IsProp g) ∧
    ∀ (I : Interp) (ρ : Valuation), Consistent I (absVisitList fs s).2.table ρ →
      ((∀ g ∈ (absVisitList fs s).1, holds I ρ g) ↔ ∀ f ∈ fs, holds I ρ f) ∧
      ((∃ g ∈ (absVisitList fs s).1, holds I ρ g) ↔ ∃ f ∈ fs, holds I ρ f) := by
  cases fs with
  | nil => simp [absVisitList, hi]
  | cons f fs =>
    have h := absVisit_spec f s hi (hf f (by simp))
    obtain ⟨h1, h2, h3, h4, h5⟩ := absVisitList_spec fs (absVisit f s).2 h.inv
      (fun x hx v hv => lt_of_lt_of_le (hf x (by simp [hx]) v hv) h.le)
    simp only [absVisitList]
    refine ⟨h1, h.le.trans h2, h.pre.trans h3, ?_, fun I ρ hc => ?_⟩
    · intro g hg
      rcases List.mem_cons.mp hg with rfl | hg
      exacts [h.prop, h4 g hg]
    · have h6 := h5 I ρ hc
      have h7 := h.mean I ρ (Consistent.mono hc h3)
      simp only [List.mem_cons, forall_eq_or_imp, exists_eq_or_imp, h7, h6.1, h6.2]
      exact ⟨trivial, trivial⟩
end

theorem absRun_spec (ops : List AbsOp) (s : AbsState) (hi : AbsInv s) (ho : AbsOk s ops) :
    AbsInv (absRun s ops).2 ∧ s.table <+: (absRun s ops).2.table ∧
    ∀ p ∈ (absRun s ops).1, IsProp p.2 ∧
      ∀ (I : Interp) (ρ : Valuation), Consistent I (absRun s ops).2.table ρ →
        (holds I ρ p.2 ↔ holds I ρ p.1) := by
  induction ops generalizing s with
  | nil => exact ⟨hi, List.prefix_rfl, by simp [absRun]⟩
  | cons op ops ih =>
    cases op with
    | newVar => exact ih _ hi.bump ho
    | convert f =>
      have h := absVisit_spec f s hi ho.1
      obtain ⟨h1, h2, h3⟩ := ih _ h.inv ho.2
      refine ⟨h1, h.pre.trans h2, ?_⟩
      intro p hp
      simp only [absRun, List.mem_cons] at hp
      rcases hp with rfl | hp
      · exact ⟨h.prop, fun I ρ hc => h.mean I ρ (Consistent.mono hc h2)⟩
      · exact h3 p hp

/-- A request for a named atom yields its variable. -/
theorem absVisit_named {f s} (hi : AbsInv s) (hf : ∀ v ∈ f.fv, v.id < s.next) (hn : IsNamed f) :
    ∃ b, (absVisit f s).1 = .bvar b ∧ (b, f) ∈ (absVisit f s).2.table := by
  unfold absVisit
  split
  · rename_i b hb; exact ⟨b, rfl, find_some hb⟩
  · unfold IsNamed at hn
    split at hn
    · exact (absAtomic_spec hi hf).2
    · exact (absAtomic_spec hi hf).2
    · exact (absAtomic_spec hi hf).2
    · exact (absAtomic_spec hi hf).2
    · cases hn

theorem absRun_named (ops : List AbsOp) (s : AbsState) (hi : AbsInv s) (ho : AbsOk s ops) :
    ∀ p ∈ (absRun s ops).1, IsNamed p.1 →
      ∃ b, p.2 = .bvar b ∧ (b, p.1) ∈ (absRun s ops).2.table := by
  induction ops generalizing s with
  | nil => simp [absRun]
  | cons op ops ih =>
    cases op with
    | newVar => exact ih _ hi.bump ho
    | convert f =>
      have h := absVisit_spec f s hi ho.1
      intro p hp hn
      simp only [absRun, List.mem_cons] at hp
      rcases hp with rfl | hp
      · obtain ⟨b, h1, h2⟩ := absVisit_named hi ho.1 hn
        exact ⟨b, h1, (absRun_spec ops _ h.inv ho.2).2.1.subset h2⟩
      · exact ih _ h.inv ho.2 p hp hn

theorem inj_of_nodup_map {α β} {f : α → β} {l : List α} (h : (l.map f).Nodup) {x y} (hx : x ∈ l)
    (hy : y ∈ l) (hxy : f x = f y) : x = y := by
  induction l with
  | nil => cases hx
  | cons a l ih =>
    simp only [List.map_cons, List.nodup_cons, List.mem_map, not_exists, not_and] at h
    rcases List.mem_cons.mp hx with h1 | h1 <;> rcases List.mem_cons.mp hy with h2 | h2
    · rw [h1, h2]
    · exact absurd (h1 ▸ hxy.symm) (h.1 y h2)
    · exact absurd (h2 ▸ hxy) (h.1 x h1)
    · exact ih h.2 h1 h2

theorem AbsInv.nodup_fst {s : AbsState} (h : AbsInv s) : (s.table.map Prod.fst).Nodup := by
  rw [List.Nodup, List.pairwise_map]
  exact h.sorted.imp (fun {p q} hlt he => by rw [he] at hlt; exact lt_irrefl _ hlt)

theorem table_inj {s : AbsState} (h : AbsInv s) {p q} (hp : p ∈ s.table) (hq : q ∈ s.table) :
    p.1 = q.1 ↔ p.2 = q.2 :=
  ⟨fun h1 => inj_of_nodup_map h.nodup_fst hp hq h1 ▸ rfl,
    fun h2 => inj_of_nodup_map h.nodup hp hq h2 ▸ rfl⟩

open Classical in
/-- Every valuation extends to a consistent one by changing recorded variables only. -/
theorem consistent_ext (I : Interp) (ρ : Valuation) (T : List (Variable × Fml))
    (hs : T.Pairwise (fun p q => p.1.id < q.1.id))
    (hfv : ∀ p ∈ T, ∀ v ∈ p.2.fv, v.id < p.1.id) :
    ∃ ρ' : Valuation, Consistent I T ρ' ∧
      (∀ v, v ∉ T.map Prod.fst → ρ' v = ρ v) ∧
      ∀ v ∈ T.map Prod.fst, ρ' v = 0 ∨ ρ' v = 1 := by
  induction T using List.reverseRecOn with
  | nil => exact ⟨ρ, by simp [Consistent], by simp, by simp⟩
  | append_singleton T p ih =>
    rw [List.pairwise_append] at hs
    obtain ⟨ρ1, h1, h2, h3⟩ := ih hs.1 (fun q hq => hfv q (by simp [hq]))
    have hlt : ∀ q ∈ T, q.1.id < p.1.id := fun q hq => hs.2.2 q hq p (by simp)
    let ρ2 : Valuation := fun v => if v = p.1 then (if holds I ρ1 p.2 then 1 else 0) else ρ1 v
    have hρ : ∀ v : Variable, v.id < p.1.id → ρ2 v = ρ1 v := by
      intro v hv
      have : v ≠ p.1 := fun h => by rw [h] at hv; exact lt_irrefl _ hv
      simp [ρ2, this]
    refine ⟨ρ2, ?_, ?_, ?_⟩
    · intro q hq
      rcases List.mem_append.mp hq with hq | hq
      · rw [hρ q.1 (hlt q hq), h1 q hq]
        exact holds_congr I q.2 ρ1 ρ2 (fun v hv =>
          (hρ v ((hfv q (by simp [hq]) v hv).trans (hlt q hq))).symm)
      · simp only [List.mem_singleton] at hq; subst hq
        rw [holds_congr I q.2 ρ2 ρ1 (fun v hv => hρ v (hfv q (by simp) v hv))]
        by_cases hh : holds I ρ1 q.2 <;> simp [ρ2, hh]
    · intro v hv
      simp only [List.map_append, List.map_cons, List.map_nil, List.mem_append,
        List.mem_singleton, not_or] at hv
      simp only [ρ2, hv.2, if_false]
      exact h2 v hv.1
    · intro v hv
      by_cases hvp : v = p.1
      · simp only [ρ2, hvp, if_true]
        split_ifs <;> simp
      · simp only [List.map_append, List.map_cons, List.map_nil, List.mem_append,
          List.mem_singleton, hvp, or_false] at hv
        simp only [ρ2, hvp, if_false]
        exact h3 v hv

end Verif.Proof
