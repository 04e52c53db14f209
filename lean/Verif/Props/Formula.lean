import Verif.Spec.Build
import Verif.Proof.Nnf

/-! # C09, C10, C14: construction, negation normal form, distributive CNF -/

namespace Verif.Props
open Verif Verif.Model Verif.Spec Verif.Proof

mutual
theorem build_holds (I : Interp) (b : Build) (ρ : Valuation) :
    holds I ρ b.run ↔ b.meaning I ρ := by
  cases b with
  | tt => simp [Build.run, Build.meaning]
  | ff => simp [Build.run, Build.meaning]
  | bvar v => simp [Build.run, Build.meaning]
  | rel op x y => simp [Build.run, Build.meaning]
  | and a b => simp only [Build.run, Build.meaning, holds_andF, build_holds I a, build_holds I b]
  | or a b => simp only [Build.run, Build.meaning, holds_orF, build_holds I a, build_holds I b]
  | not a => simp only [Build.run, Build.meaning, holds_notF, build_holds I a]
  | imply a b =>
    simp only [Build.run, Build.meaning, holds_implyF, build_holds I a, build_holds I b]
  | iff a b => simp only [Build.run, Build.meaning, holds_iffF, build_holds I a, build_holds I b]
  | eq a b => simp only [Build.run, Build.meaning, holds_eqF, build_holds I a, build_holds I b]
  | conj as => simp only [Build.run, Build.meaning, holds_mkConj, (buildList_holds I as ρ).1]
  | disj as => simp only [Build.run, Build.meaning, holds_mkDisj, (buildList_holds I as ρ).2]
  | all vs a => simp only [Build.run, Build.meaning, holds_forallF, holds_all, build_holds I a]
theorem buildList_holds (I : Interp) (as : List Build) (ρ : Valuation) :
    ((∀ f ∈ Build.runList as, holds I ρ f) ↔ Build.meaningAll I ρ as) ∧
    ((∃ f ∈ Build.runList as, holds I ρ f) ↔ Build.meaningAny I ρ as) := by
  cases as with
  | nil => simp [Build.runList, Build.meaningAll, Build.meaningAny]
  | cons a as =>
    have h := buildList_holds I as ρ
    simp only [Build.runList, Build.meaningAll, Build.meaningAny, List.mem_cons,
      forall_eq_or_imp, exists_eq_or_imp, build_holds I a, h.1, h.2]
    exact ⟨trivial, trivial⟩
end

/-- C14 (partial): whatever a caller builds with the API, in any order and nesting, means what
was written, for every interpretation and valuation.  Partial because the folding of a
relation with constant difference is modelled with exact constant arithmetic; with the
double arithmetic of the code the claim is false (`C48_rounding_changes_truth`). -/
theorem C14_construction_meaning_partial (I : Interp) (ρ : Valuation) (b : Build) :
    holds I ρ b.run ↔ b.meaning I ρ := build_holds I b ρ

/-- C14 for the Boolean connectives alone, without any restriction. -/
theorem C14_connectives (I : Interp) (ρ : Valuation) (f g : Fml) (fs : List Fml) :
    (holds I ρ (andF f g) ↔ holds I ρ f ∧ holds I ρ g) ∧
    (holds I ρ (orF f g) ↔ holds I ρ f ∨ holds I ρ g) ∧
    (holds I ρ (notF f) ↔ ¬ holds I ρ f) ∧
    (holds I ρ (implyF f g) ↔ (holds I ρ f → holds I ρ g)) ∧
    (holds I ρ (iffF f g) ↔ (holds I ρ f ↔ holds I ρ g)) ∧
    (holds I ρ (mkConj fs) ↔ ∀ h ∈ fs, holds I ρ h) ∧
    (holds I ρ (mkDisj fs) ↔ ∃ h ∈ fs, holds I ρ h) := by
  simp

/-- A script in which flattening, deduplication, double negation and constant folding all
happen: the result has three conjuncts. -/
example :
    let x : Variable := ⟨0, .continuous⟩
    let b : Variable := ⟨1, .boolean⟩
    let p : Build := .rel .gt (.var x) (.const 0)
    (Build.and (.and p (.bvar b)) (.and (.not (.not p))
      (.and (.rel .lt (.var x) (.add (.var x) (.const 1))) (.not (.bvar b))))).run =
    .conj [.rel .gt (.var x) (.const 0), .bvar b, .neg (.bvar b)] := by
  decide +kernel

/-- C09: negation normal form has the meaning of the formula, in every valuation, with and
without flipping of relations; in the result a negation stands only in front of an atom, and
only in front of a Boolean variable or a quantified formula when relations are flipped. -/
theorem C09_nnf (I : Interp) (ρ : Valuation) (f : Fml) :
    (holds I ρ (nnf false f) ↔ holds I ρ f) ∧ IsNnf IsAtom (nnf false f) ∧
    (holds I ρ (nnf true f) ↔ holds I ρ f) ∧ IsNnf IsBoolAtom (nnf true f) := by
  refine ⟨?_, nnfVisit_shape false true f, ?_, nnfVisit_shape true true f⟩ <;>
    simp [nnf, nnfVisit_holds]

/-- Flipping modes differ: `¬(x > 0 ∧ b)` becomes `¬(x > 0) ∨ ¬b` or `x ≤ 0 ∨ ¬b`. -/
example :
    let x : Variable := ⟨0, .continuous⟩
    let b : Variable := ⟨1, .boolean⟩
    let f : Fml := .neg (.conj [.rel .gt (.var x) (.const 0), .bvar b])
    nnf false f = .disj [.neg (.rel .gt (.var x) (.const 0)), .neg (.bvar b)] ∧
    nnf true f = .disj [.rel .leq (.var x) (.const 0), .neg (.bvar b)] := by
  decide +kernel

/-- C10: the distributive CNF conversion terminates without violating its assertion, keeps
the meaning in every valuation, and delivers a conjunction of clauses of literals. -/
theorem C10_naive_cnf (f : Fml) :
    ∃ g, naiveCnf f = .ok g ∧ IsCnf g ∧ ∀ I ρ, holds I ρ g ↔ holds I ρ f := by
  obtain ⟨g, hg, hc, hm⟩ := naiveVisit_ok (nnf true f) (nnf_ok f)
  refine ⟨g, hg, hc, fun I ρ => ?_⟩
  rw [hm]; simp [nnf, nnfVisit_holds]

/-- `(x > 0 ∧ b) ∨ x = 1` has the four clauses of the distributed form. -/
example :
    let x : Variable := ⟨0, .continuous⟩
    let b : Variable := ⟨1, .boolean⟩
    let p : Fml := .rel .gt (.var x) (.const 0)
    naiveCnf (.disj [.conj [p, .bvar b], .rel .eq (.var x) (.const 1)]) =
    .ok (.conj [.disj [p, .rel .geq (.var x) (.const 1)],
      .disj [p, .rel .leq (.var x) (.const 1)],
      .disj [.bvar b, .rel .geq (.var x) (.const 1)],
      .disj [.bvar b, .rel .leq (.var x) (.const 1)]]) := by
  intro x b p
  have h : nnf true (.disj [.conj [p, .bvar b], .rel .eq (.var x) (.const 1)]) =
      .disj [.conj [p, .bvar b], .rel .eq (.var x) (.const 1)] := by decide +kernel
  rw [naiveCnf, h]
  simp only [naiveVisit, naiveVisitList, p, Outcome.bind_ok]
  decide +kernel

/-- The code's own test `is_cnf` does not accept every result of the conversion: it throws on
a negated quantified formula, which is a literal. -/
theorem C10_is_cnf_throws_on_negated_forall :
    let y : Variable := ⟨0, .continuous⟩
    let f : Fml := .neg (.all [y] (.rel .gt (.var y) (.const 0)))
    naiveCnf f = .ok f ∧ f.isCnf = .throw := by
  intro y f
  have h : nnf true f = f := by decide +kernel
  rw [naiveCnf, h]
  simp only [naiveVisit, f]
  decide +kernel

end Verif.Props
