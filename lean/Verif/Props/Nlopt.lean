import Mathlib.Tactic.Linarith
import Mathlib.Tactic.NormNum
import Verif.Spec.Nlopt

/-! # C46: constraints of the local optimiser -/

namespace Verif.Props
open Verif Verif.Model Verif.Spec

theorem eval_sub (I : Interp) (ρ : Valuation) (a b : Expr) :
    eval I ρ (a.sub b) = eval I ρ a - eval I ρ b := by
  simp [Expr.sub, eval, sub_eq_add_neg]

theorem addRelational_feasible {op : RelOp} (h : op ≠ .neq) (a b : Expr) :
    ∃ c, addRelational (.rel op a b) = .ok c ∧ ∀ I tol ρ,
      NlFeasible I tol ρ c ↔ nearRel tol op (eval I ρ a) (eval I ρ b) := by
  cases op with
  | neq => exact absurd rfl h
  | eq => exact ⟨_, rfl, fun I tol ρ => by simp [NlFeasible, nearRel, eval_sub]⟩
  | gt => exact ⟨_, rfl, fun I tol ρ => by simp [NlFeasible, nearRel, eval_sub]; constructor <;> intro <;> linarith⟩
  | geq => exact ⟨_, rfl, fun I tol ρ => by simp [NlFeasible, nearRel, eval_sub]; constructor <;> intro <;> linarith⟩
  | lt => exact ⟨_, rfl, fun I tol ρ => by simp [NlFeasible, nearRel, eval_sub]; constructor <;> intro <;> linarith⟩
  | leq => exact ⟨_, rfl, fun I tol ρ => by simp [NlFeasible, nearRel, eval_sub]; constructor <;> intro <;> linarith⟩

mutual
theorem addConstraint_positive : (f : Fml) → Positive f → ∃ cs, addConstraint f = .ok cs ∧
    ∀ I tol ρ, (∀ c ∈ cs, NlFeasible I tol ρ c) ↔ NearHolds I tol ρ f
  | .rel op a b, h => by
    obtain ⟨c, hc, hf⟩ := addRelational_feasible h a b
    exact ⟨[c], by rw [addConstraint, hc]; rfl, fun I tol ρ => by simp [NearHolds, hf]⟩
  | .conj fs, h => by
    obtain ⟨cs, hc, hf⟩ := addConstraintList_positive fs h
    exact ⟨cs, by rw [addConstraint, hc], fun I tol ρ => by rw [hf, NearHolds]⟩
  | .ff, h | .tt, h | .bvar _, h | .disj _, h | .neg _, h | .all .., h => by cases h
theorem addConstraintList_positive : (fs : List Fml) → PositiveAll fs →
    ∃ cs, addConstraintList fs = .ok cs ∧
    ∀ I tol ρ, (∀ c ∈ cs, NlFeasible I tol ρ c) ↔ NearHoldsAll I tol ρ fs
  | [], _ => ⟨[], rfl, fun I tol ρ => by simp [NearHoldsAll]⟩
  | f :: fs, h => by
    obtain ⟨cs, hc, hf⟩ := addConstraint_positive f h.1
    obtain ⟨ds, hd, hg⟩ := addConstraintList_positive fs h.2
    refine ⟨cs ++ ds, by rw [addConstraintList, hc, hd]; rfl, fun I tol ρ => ?_⟩
    simp only [List.mem_append, or_imp, forall_and, hf, hg, NearHoldsAll]
end

mutual
theorem near_zero (I : Interp) (ρ : Valuation) : (f : Fml) → Closed f →
    (NearHolds I 0 ρ f ↔ holds I ρ f)
  | .rel op a b, h => by
    rcases h with rfl | rfl | rfl <;> simp [NearHolds, nearRel, holds, relSem, sub_eq_zero]
  | .conj fs, h => by simpa [NearHolds, holds] using near_zero_all I ρ fs h
  | .ff, h | .tt, h | .bvar _, h | .disj _, h | .neg _, h | .all .., h => by cases h
theorem near_zero_all (I : Interp) (ρ : Valuation) : (fs : List Fml) → ClosedAll fs →
    (NearHoldsAll I 0 ρ fs ↔ holdsAll I ρ fs)
  | [], _ => by simp [NearHoldsAll, holdsAll]
  | f :: fs, h => by
    simp only [NearHoldsAll, holdsAll, near_zero I ρ f h.1, near_zero_all I ρ fs h.2]
end

mutual
theorem closed_positive : (f : Fml) → Closed f → Positive f
  | .rel op a b, h => by rcases h with rfl | rfl | rfl <;> simp [Positive]
  | .conj fs, h => closed_positive_all fs h
  | .ff, h | .tt, h | .bvar _, h | .disj _, h | .neg _, h | .all .., h => by cases h
theorem closed_positive_all : (fs : List Fml) → ClosedAll fs → PositiveAll fs
  | [], _ => trivial
  | f :: fs, h => ⟨closed_positive f h.1, closed_positive_all fs h.2⟩
end

mutual
theorem holds_near (I : Interp) (ρ : Valuation) {tol : ℝ} (ht : 0 ≤ tol) : (f : Fml) → Positive f →
    holds I ρ f → NearHolds I tol ρ f
  | .rel op a b, _, hh => by
    cases op <;> simp only [holds, relSem] at hh <;> simp only [NearHolds, nearRel]
    · rw [hh]; simpa using ht
    all_goals linarith
  | .conj fs, h, hh => holds_near_all I ρ ht fs h (by simpa [holds] using hh)
  | .ff, h, _ | .tt, h, _ | .bvar _, h, _ | .disj _, h, _ | .neg _, h, _ | .all .., h, _ => by cases h
theorem holds_near_all (I : Interp) (ρ : Valuation) {tol : ℝ} (ht : 0 ≤ tol) : (fs : List Fml) →
    PositiveAll fs → holdsAll I ρ fs → NearHoldsAll I tol ρ fs
  | [], _, _ => trivial
  | f :: fs, h, hh =>
    ⟨holds_near I ρ ht f h.1 hh.1, holds_near_all I ρ ht fs h.2 hh.2⟩
end

/-- C46 without negations: the optimiser is given constraints that are feasible, up to any
tolerance, exactly where the formula holds up to that tolerance.  Missing: negated relations, for
which the code is wrong (`C46_negated`); the evaluation of the functions in doubles. -/
theorem C46_positive_partial (f : Fml) (h : Positive f) : ∃ cs, addConstraint f = .ok cs ∧
    ∀ I tol ρ, (∀ c ∈ cs, NlFeasible I tol ρ c) ↔ NearHolds I tol ρ f :=
  addConstraint_positive f h

/-- Every solution is feasible, and without tolerance and strict relations nothing else is. -/
theorem C46_solutions_partial (f : Fml) (h : Positive f) : ∃ cs, addConstraint f = .ok cs ∧
    (∀ I tol ρ, 0 ≤ tol → holds I ρ f → ∀ c ∈ cs, NlFeasible I tol ρ c) ∧
    (Closed f → ∀ I ρ, (∀ c ∈ cs, NlFeasible I 0 ρ c) ↔ holds I ρ f) := by
  obtain ⟨cs, hc, hf⟩ := addConstraint_positive f h
  exact ⟨cs, hc, fun I tol ρ ht hh => (hf I tol ρ).mpr (holds_near I ρ ht f h hh),
    fun hcl I ρ => (hf I 0 ρ).trans (near_zero I ρ f hcl)⟩

/-- `x = y ∧ (x ≤ 2 ∧ y ≥ 1)`, and a point at which it holds. -/
example : Closed (.conj [.rel .eq (.var ⟨0, .continuous⟩) (.var ⟨1, .continuous⟩),
      .conj [.rel .leq (.var ⟨0, .continuous⟩) (.const 2),
        .rel .geq (.var ⟨1, .continuous⟩) (.const 1)]]) ∧
    holds ⟨fun _ _ => 0, fun _ _ _ => 0⟩ (fun _ => 1)
      (.conj [.rel .eq (.var ⟨0, .continuous⟩) (.var ⟨1, .continuous⟩),
      .conj [.rel .leq (.var ⟨0, .continuous⟩) (.const 2),
        .rel .geq (.var ⟨1, .continuous⟩) (.const 1)]]) := by
  constructor
  · simp [Closed, ClosedAll]
  · norm_num [holds, holdsAll, relSem, eval]

/-- The code drops the negation of a relation: the constraint given to the optimiser is that of the
relation itself.  So for a negated inequality every point that satisfies it beyond the tolerance is
infeasible, and every point that violates it is feasible. -/
theorem C46_negated (op : RelOp) (a b : Expr) (h : op ≠ .neq) :
    ∃ c, addConstraint (.neg (.rel op a b)) = .ok [c] ∧
      (∀ I tol ρ, NlFeasible I tol ρ c ↔ nearRel tol op (eval I ρ a) (eval I ρ b)) ∧
      ∀ I ρ, ¬ holds I ρ (.neg (.rel op a b)) → NlFeasible I 0 ρ c := by
  obtain ⟨c, hc, hf⟩ := addRelational_feasible h a b
  refine ⟨c, ?_, hf, fun I ρ hn => ?_⟩
  · rw [addConstraint]
    have : nnf false (.rel op a b) = .rel op a b := by simp [nnf, nnfVisit]
    rw [this, hc]
    rfl
  · rw [hf]
    rw [holds, not_not] at hn
    simpa [NearHolds] using holds_near I ρ le_rfl (.rel op a b) h hn

/-- For `¬(x ≤ 0)` the point 1, a solution, is infeasible and the point -1, not a solution, is
feasible. -/
theorem C46_negated_example : ∃ (I : Interp) (f : Fml) (cs : List NlCon) (ρ σ : Valuation),
    addConstraint f = .ok cs ∧
    (holds I ρ f ∧ ¬ ∀ c ∈ cs, NlFeasible I 0 ρ c) ∧
    (¬ holds I σ f ∧ ∀ c ∈ cs, NlFeasible I 0 σ c) := by
  refine ⟨⟨fun _ _ => 0, fun _ _ _ => 0⟩, .neg (.rel .leq (.var ⟨0, .continuous⟩) (.const 0)),
    [.le ((Expr.var ⟨0, .continuous⟩).sub (.const 0))], fun _ => 1, fun _ => -1, rfl, ?_, ?_⟩ <;>
    norm_num [holds, relSem, eval, NlFeasible, eval_sub]

end Verif.Props
