import Verif.Spec.Build
import Verif.Proof.TseitinTotal

/-! # C11: definitional CNF -/

namespace Verif.Props
open Verif Verif.Model Verif.Spec Verif.Proof

/-- C11, equisatisfiability over the user's variables: whenever the conversion returns, a
valuation satisfies the formula exactly when it satisfies all clauses after a change of the
auxiliary variables only, to Boolean values.  All formulas, quantified ones included. -/
theorem C11_tseitin_equisat (I : Interp) (next : Nat) (f : Fml) (cs : List Fml) (next' : Nat)
    (hf : ∀ v ∈ f.fv, v.id < next) (h : tseitin next f = .ok (cs, next')) (ρ : Valuation) :
    holds I ρ f ↔
      ∃ ρ' : Valuation,
        (∀ v, ρ' v ≠ ρ v → next ≤ v.id ∧ v.id < next' ∧ (ρ' v = 0 ∨ ρ' v = 1)) ∧
        ∀ c ∈ cs, holds I ρ' c :=
  tseitin_equisat I next f cs next' hf h ρ

/-- C11, totality (partial): for every formula built through the API without quantifiers, the
conversion returns, and every produced formula is a clause, by the specification and by the
code's own test.  Missing: quantified formulas, for which the claim is false
(`C11_unreachable_reached`, `C11_assertion_violated`). -/
theorem C11_tseitin_total_partial (next : Nat) (b : Build) (hq : b.run.qdepth = 0)
    (hid : ∀ v ∈ b.run.fv, v.id < next) :
    ∃ cs next', tseitin next b.run = .ok (cs, next') ∧
      ∀ c ∈ cs, IsClause c ∧ c.isClause = true := by
  obtain ⟨cs, n', h, hc⟩ := tseitin_total next b.run (build_canon b) hq hid
  exact ⟨cs, n', h, fun c h => (hc c h).isClause.symm⟩

/-- `(x > 0 ∧ b) ∨ x = 1`: one definition `c ⇔ (x > 0 ∧ b)`, four clauses. -/
example :
    let x : Variable := ⟨0, .continuous⟩
    let b : Variable := ⟨1, .boolean⟩
    let c : Variable := ⟨2, .boolean⟩
    let p : Fml := .rel .gt (.var x) (.const 0)
    let q : Fml := .rel .eq (.var x) (.const 1)
    let s : Build := .or (.and (.rel .gt (.var x) (.const 0)) (.bvar b)) (.rel .eq (.var x) (.const 1))
    s.run.qdepth = 0 ∧ (∀ v ∈ s.run.fv, v.id < 2) ∧
    tseitin 2 s.run = .ok ([.disj [.neg (.bvar c), p], .disj [.neg (.bvar c), .bvar b],
      .disj [.neg p, .neg (.bvar b), .bvar c], .disj [.bvar c, q]], 4) := by
  decide +kernel

/-- The formula `(x > 0 ∧ ∀y. x > 0) ∨ b` as built through the API. -/
def unreachableCase : Build :=
  .or (.and (.rel .gt (.var ⟨0, .continuous⟩) (.const 0))
    (.all [⟨1, .continuous⟩] (.rel .gt (.var ⟨0, .continuous⟩) (.const 0))))
    (.bvar ⟨2, .boolean⟩)

/-- C11 is false in general: with a quantified formula whose variable does not occur, the
definition of the conjunction collapses and the conversion reaches its unreachable branch. -/
theorem C11_unreachable_reached :
    (∀ v ∈ unreachableCase.run.fv, v.id < 3) ∧ tseitin 3 unreachableCase.run = .throw := by
  constructor
  · decide +kernel
  · let p : Fml := .rel .gt (.var ⟨0, .continuous⟩) (.const 0)
    have h : unreachableCase.run = .disj [.conj [p, .all [] p], .bvar ⟨2, .boolean⟩] := by
      decide +kernel
    have hn : naiveCnf p = .ok p := by
      have : nnf true p = p := by decide +kernel
      rw [naiveCnf, this]; simp only [naiveVisit, p]
    rw [h]
    simp only [tseitin, tsVisit, tsVisitList, p, hn, Outcome.bind_ok]
    decide +kernel

/-- The formula `∀y. (y > 0 ∨ ¬∀z. z > y)` as built through the API. -/
def assertionCase : Build :=
  .all [⟨0, .continuous⟩] (.or (.rel .gt (.var ⟨0, .continuous⟩) (.const 0))
    (.not (.all [⟨1, .continuous⟩] (.rel .gt (.var ⟨1, .continuous⟩) (.var ⟨0, .continuous⟩)))))

/-- C11 is false in general: a negated quantified formula inside a quantified one is not
accepted as a literal by `is_clause`, and the conversion violates its assertion. -/
theorem C11_assertion_violated : tseitin 2 assertionCase.run = .ub := by
  let y : Variable := ⟨0, .continuous⟩
  let z : Variable := ⟨1, .continuous⟩
  let p : Fml := .rel .gt (.var y) (.const 0)
  let q : Fml := .neg (.all [z] (.rel .gt (.var z) (.var y)))
  have h : assertionCase.run = .all [y] (.disj [p, q]) := by decide +kernel
  have hn : naiveCnf (.disj [p, q]) = .ok (.disj [p, q]) := by
    have : nnf true (.disj [p, q]) = .disj [p, q] := by decide +kernel
    rw [naiveCnf, this]
    simp only [naiveVisit, naiveVisitList, p, q, Outcome.bind_ok]
    decide +kernel
  rw [h]
  simp only [tseitin, tsVisit, hn, Outcome.bind_ok]
  decide +kernel

end Verif.Props
