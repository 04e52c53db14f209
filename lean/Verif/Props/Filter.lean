import Verif.Proof.Filter

/-!
# C20: absorbing a bound keeps the solutions
-/

namespace Verif.Props
open Verif Verif.Model Verif.Spec

/-- The doubles of a toy format: multiples of 1/4 between -100 and 100. -/
def quarterDbl : Dbl := ⟨fun q => q + 1/4, fun q => q - 1/4, 100, 1/4⟩

theorem quarterDbl_ok : DblOk quarterDbl :=
  ⟨fun q => by simp [quarterDbl], fun q => by simp [quarterDbl], by decide +kernel,
    by decide +kernel⟩

/-- C20, non-strict bounds and equalities with a literal that is one double: a bound is always
absorbed, and the points of the new box are exactly the points of the old one that satisfy it.
(For every variable type, both sides, with any number of negations.) -/
theorem C20_nonstrict_exact (I : Interp) (d : Dbl) (f : Fml) (b b' : Box) (r : FilterRes)
    (v : Variable) (op : RelOp) (q : ℚ) (wf : BoxWf b) (hv : v ∈ b.vars)
    (hf : asBound f = some (v, op, q, q, q)) (hop : op = .geq ∨ op = .leq ∨ op = .eq)
    (h : Filter.filter d f b = .ok (r, b')) :
    r ≠ .notFiltered ∧ (r = .withoutChange → b' = b) ∧
    ∀ ρ, InBox ρ b' ↔ InBox ρ b ∧ holds I ρ f := by
  rcases Proof.filter_cases h with ⟨h1, -, -⟩ | ⟨w, op', lo, hi, ex, h1, h2⟩
  · rw [h1] at hf; cases hf
  · rw [hf] at h1; cases h1
    obtain ⟨a1, a2, a3⟩ := Proof.acts_ok wf hv h2
    refine ⟨fun hr => ?_, a2, fun ρ => ?_⟩
    · rcases hop with rfl | rfl | rfl <;> simpa using a3 hr
    · rw [(Proof.asBound_holds hf).1, Proof.updOk_in a1 hv]
      rcases hop with rfl | rfl | rfl
      · exact Iff.rfl
      · exact Iff.rfl
      · exact and_congr_right fun _ => ⟨fun h => le_antisymm h.2 h.1, fun h => by
          constructor <;> exact le_of_eq (by first | exact h | exact h.symm)⟩

/-- C20, strict bounds on a continuous variable, with a literal that is one double, for points
that are not strictly between the literal and the neighbouring double in that direction (in particular for points
that are doubles): exact for lower bounds, and for upper bounds with a literal above the smallest
normal double.  Missing: points in the gap are lost (`C20_strict_loses_reals`), and smaller
literals of an upper bound are not handled exactly (`C20_strict_upper_negative`). -/
theorem C20_strict_exact_partial (I : Interp) (d : Dbl) (hd : DblOk d) (f : Fml) (b b' : Box)
    (r : FilterRes) (v : Variable) (op : RelOp) (q : ℚ) (wf : BoxWf b) (hv : v ∈ b.vars)
    (ht : v.type = .continuous) (hf : asBound f = some (v, op, q, q, q))
    (hop : (op = .gt ∧ q < d.maxv) ∨ (op = .lt ∧ d.minv < q))
    (h : Filter.filter d f b = .ok (r, b')) :
    r ≠ .notFiltered ∧ (r = .withoutChange → b' = b) ∧
    ∀ ρ, NoGap d ρ f → (InBox ρ b' ↔ InBox ρ b ∧ holds I ρ f) := by
  rcases Proof.filter_cases h with ⟨h1, -, -⟩ | ⟨w, op', lo, hi, ex, h1, h2⟩
  · rw [h1] at hf; cases hf
  · rw [hf] at h1; cases h1
    obtain ⟨a1, a2, a3⟩ := Proof.acts_ok wf hv h2
    refine ⟨fun hr => ?_, a2, fun ρ hg => ?_⟩
    · rcases hop with ⟨rfl, -⟩ | ⟨rfl, -⟩ <;> simpa [ht] using a3 hr
    · rw [(Proof.asBound_holds hf).1, Proof.updOk_in a1 hv]
      obtain ⟨g1, g2⟩ := hg _ _ _ _ _ hf ht
      refine and_congr_right fun _ => ?_
      rcases hop with ⟨rfl, hq⟩ | ⟨rfl, hq⟩
      · simp only [Proof.keeps, ht, if_true, Dbl.nextafter, ne_of_lt hq, if_false, hq, relSem]
        have : (q : ℝ) < (d.succ q : ℚ) := by exact_mod_cast hd.succ q
        constructor
        · intro h; linarith
        · intro h; by_contra hlt; exact g1 rfl ⟨h, not_le.mp hlt⟩
      · simp only [Proof.keeps, ht, if_true, Dbl.nextafter, ne_of_gt hq, if_false,
          not_lt.mpr (le_of_lt hq), relSem]
        have : ((d.pred q : ℚ) : ℝ) < q := by exact_mod_cast hd.pred q
        constructor
        · intro h; linarith
        · intro h; by_contra hlt; exact g2 rfl ⟨not_le.mp hlt, h⟩

/-- C20, all constraints: whatever the filter answers, the new box has the same variables and no
new points, and every solution that avoids the gaps is kept.  A constraint is reported as not
absorbed only if it is not a bound, is a disequality, or is a strict bound on an integer or binary
variable. -/
theorem C20_no_loss_partial (I : Interp) (d : Dbl) (hd : DblOk d) (f : Fml) (b b' : Box)
    (r : FilterRes) (wf : BoxWf b) (hv : ∀ v ∈ f.fv, v ∈ b.vars) (hrc : RcOkF f)
    (h : Filter.filter d f b = .ok (r, b')) :
    b'.vars = b.vars ∧ BoxWf b' ∧ (∀ ρ, InBox ρ b' → InBox ρ b) ∧
    (∀ ρ, InBox ρ b → holds I ρ f → NoGap d ρ f → InBox ρ b') ∧
    (r = .withoutChange → b' = b) ∧
    (r = .notFiltered → b' = b ∨ ∃ v op n, asBound f = some (v, op, n) ∧
      (op = .gt ∨ op = .lt) ∧ (v.type = .integer ∨ v.type = .binary)) :=
  Proof.filter_spec hd wf hv hrc h

/-- C20 fails for reals between doubles: `x > 0` on `[0, 1]` is absorbed as `x ≥ 1/4` (in the toy
format), which excludes the solution `x = 1/8`. -/
theorem C20_strict_loses_reals : ∃ (d : Dbl) (f : Fml) (b b' : Box) (ρ : Valuation),
    DblOk d ∧ BoxWf b ∧ Filter.filter d f b = .ok (.withChange, b') ∧ InBox ρ b ∧
    (∀ I, holds I ρ f) ∧ ¬ InBox ρ b' := by
  refine ⟨quarterDbl, .rel .gt (.var ⟨0, .continuous⟩) (.const 0),
    ⟨[⟨0, .continuous⟩], [⟨.fin 0, .fin 1⟩], false⟩,
    ⟨[⟨0, .continuous⟩], [⟨.fin (1/4), .fin 1⟩], false⟩, fun _ => 1/8, quarterDbl_ok,
    ⟨rfl, by decide⟩, by decide +kernel, ⟨rfl, ?_⟩, ?_, ?_⟩
  · intro i w hi
    have : i = 0 := by
      by_contra hne
      rw [List.getElem?_eq_none (by simp; omega)] at hi; cases hi
    subst this
    constructor <;> norm_num [Box.get, below, above]
  · intro I; simp only [holds, eval, relSem]; norm_num
  · rintro ⟨-, h⟩
    have := (h 0 ⟨0, .continuous⟩ rfl).1
    norm_num [Box.get, below] at this

/-- C20 fails for strict upper bounds at or below zero: `nextafter(v, min())` goes *up* there, so
`x < 0` on `[-1, 1]` is reported as absorbed although the new box has the points 0 and 1/4. -/
theorem C20_strict_upper_negative : ∃ (d : Dbl) (f : Fml) (b b' : Box) (ρ : Valuation),
    DblOk d ∧ BoxWf b ∧ Filter.filter d f b = .ok (.withChange, b') ∧ InBox ρ b' ∧
    NoGap d ρ f ∧ ∀ I, ¬ holds I ρ f := by
  refine ⟨quarterDbl, .rel .lt (.var ⟨0, .continuous⟩) (.const 0),
    ⟨[⟨0, .continuous⟩], [⟨.fin (-1), .fin 1⟩], false⟩,
    ⟨[⟨0, .continuous⟩], [⟨.fin (-1), .fin (1/4)⟩], false⟩, fun _ => 1/4, quarterDbl_ok,
    ⟨rfl, by decide⟩, by decide +kernel, ⟨rfl, ?_⟩, ?_, ?_⟩
  · intro i w hi
    have : i = 0 := by
      by_contra hne
      rw [List.getElem?_eq_none (by simp; omega)] at hi; cases hi
    subst this
    constructor <;> norm_num [Box.get, below, above]
  · intro v op lo hi ex h _
    simp only [asBound, asRel, asNum, Option.map_some, Option.some.injEq, Prod.mk.injEq] at h
    obtain ⟨-, -, rfl, rfl, -⟩ := h
    constructor <;> norm_num [quarterDbl]
  · intro I; simp only [holds, eval, relSem]; norm_num

/-- Concrete cases: a negated bound with the variable on the right, a strict bound on a continuous
and on an integer variable, and a bound that contradicts the box. -/
example :
    asBound (.neg (.rel .gt (.const 3) (.var ⟨0, .continuous⟩))) =
      some (⟨0, .continuous⟩, .geq, 3, 3, 3) ∧
    Filter.filter quarterDbl (.neg (.rel .gt (.const 3) (.var ⟨0, .continuous⟩)))
      ⟨[⟨0, .continuous⟩], [⟨.fin 0, .fin 5⟩], false⟩ =
      .ok (.withChange, ⟨[⟨0, .continuous⟩], [⟨.fin 3, .fin 5⟩], false⟩) ∧
    Filter.filter quarterDbl (.rel .lt (.var ⟨0, .continuous⟩) (.const 3))
      ⟨[⟨0, .continuous⟩], [⟨.fin 0, .fin 5⟩], false⟩ =
      .ok (.withChange, ⟨[⟨0, .continuous⟩], [⟨.fin 0, .fin (11/4)⟩], false⟩) ∧
    Filter.filter quarterDbl (.rel .lt (.var ⟨0, .integer⟩) (.const 3))
      ⟨[⟨0, .integer⟩], [⟨.fin 0, .fin 5⟩], false⟩ =
      .ok (.notFiltered, ⟨[⟨0, .integer⟩], [⟨.fin 0, .fin 3⟩], false⟩) ∧
    Filter.filter quarterDbl (.rel .eq (.var ⟨0, .integer⟩) (.const 7))
      ⟨[⟨0, .integer⟩], [⟨.fin 0, .fin 5⟩], false⟩ =
      .ok (.withChange, ⟨[⟨0, .integer⟩], [⟨.fin 0, .fin 5⟩], true⟩) ∧
    Filter.filter quarterDbl (.rel .eq (.var ⟨0, .integer⟩) (.const 4))
      ⟨[⟨0, .integer⟩], [⟨.fin 4, .fin 4⟩], false⟩ =
      .ok (.withoutChange, ⟨[⟨0, .integer⟩], [⟨.fin 4, .fin 4⟩], false⟩) := by
  decide +kernel

/-- Boolean variables have no strict bounds: the code throws. -/
theorem C20_boolean_throws : Filter.filter quarterDbl (.rel .lt (.var ⟨0, .boolean⟩) (.const 1))
    ⟨[⟨0, .boolean⟩], [⟨.fin 0, .fin 1⟩], false⟩ = .throw := by decide +kernel

end Verif.Props
