import Verif.Proof.Subst

/-! # C15: substitution

The claim includes substitution under quantifiers.  The code does not rename bound variables, so
the claim holds when no quantifier captures a variable of a substitute, and fails otherwise
(`C15_capture`). -/

namespace Verif.Props
open Verif Verif.Model Verif.Spec Verif.Proof

theorem rebind_nil {I : Interp} {ρ : Valuation} {s : Subst}
    (h : (s.ex.isEmpty && s.fm.isEmpty) = true) : rebind I ρ s = ρ := by
  obtain ⟨ex, fm⟩ := s
  simp only [Bool.and_eq_true, List.isEmpty_iff] at h
  obtain ⟨rfl, rfl⟩ := h
  funext v
  simp [rebind, lookupV]

/-- C15 for formulas, without capture: substituting and evaluating is evaluating in the valuation
that gives the variables the values of their substitutes, also with Boolean variables replaced by
formulas and under quantifiers that bind some of the variables. -/
theorem C15_formula_partial (I : Interp) (ρ : Valuation) (s : Subst) (f : Fml)
    (hf : SortedF f) (hc : NoCaptureF s f) :
    holds I ρ (f.substitute s) ↔ holds I (rebind I ρ s) f := by
  unfold Fml.substitute
  split
  · rename_i h; rw [rebind_nil h]
  · exact (sub_spec _).2 f s le_rfl hf hc ρ

/-- C15 for expressions, without capture (in the conditions of if-then-else terms). -/
theorem C15_expression_partial (I : Interp) (ρ : Valuation) (s : Subst) (e : Expr)
    (he : SortedE e) (hc : NoCaptureE s e) :
    eval I ρ (e.substitute s) = eval I (rebind I ρ s) e := by
  unfold Expr.substitute
  split
  · rename_i h; rw [rebind_nil h]
  · exact (sub_spec _).1 e s ρ le_rfl he hc

/-- `x ↦ x + z`, `y ↦ 2`, `b ↦ z > 0` in `(b ∨ x = y) ∧ ∀y. (if b then x else y) ≤ x`: both `x`
are replaced simultaneously, the bound `y` is not. -/
example :
    let x : Variable := ⟨0, .continuous⟩
    let y : Variable := ⟨1, .continuous⟩
    let z : Variable := ⟨2, .continuous⟩
    let b : Variable := ⟨3, .boolean⟩
    let xz : Expr := .add (.var x) (.var z)
    let p : Fml := .rel .gt (.var z) (.const 0)
    let s : Subst := ⟨[(x, xz), (y, .const 2)], [(b, p)]⟩
    let f : Fml := .conj [.disj [.bvar b, .rel .eq (.var x) (.var y)],
      .all [y] (.rel .leq (.ite (.bvar b) (.var x) (.var y)) (.var x))]
    SortedF f ∧ NoCaptureF s f ∧ f.substitute s =
      .conj [.disj [p, .rel .eq xz (.const 2)], .all [y] (.rel .leq (.ite p xz (.var y)) xz)] := by
  intro x y z b xz p s f
  refine ⟨by simp [f, SortedF, SortedFs, SortedE, x, y, b], ?_, by decide +kernel⟩
  simp [f, s, NoCaptureF, NoCaptureFs, NoCaptureE, Fml.fv, Expr.vars, substVars, lookupV, x, y, z,
    b, p, xz]

/-- With capture the claim fails: substituting `y` for `x` in `∀y. y ≥ x → x ≤ 0`, which says
`x ≤ 0`, gives `∀y. y ≥ y → y ≤ 0`, which is false also where `y` is `-1`. -/
theorem C15_capture :
    ∃ (f : Fml) (s : Subst), SortedF f ∧ ∃ (I : Interp) (ρ : Valuation),
      holds I (rebind I ρ s) f ∧ ¬ holds I ρ (f.substitute s) := by
  let x : Variable := ⟨0, .continuous⟩
  let y : Variable := ⟨1, .continuous⟩
  let f : Fml := .all [y] (.disj [.rel .lt (.var y) (.var x), .rel .leq (.var x) (.const 0)])
  refine ⟨f, ⟨[(x, .var y)], []⟩, by simp [f, SortedF, SortedFs, SortedE, x, y],
    ⟨fun _ _ => 0, fun _ _ _ => 0⟩, fun _ => -1, ?_, ?_⟩
  · rw [holds_all]
    intro ρ' h1 _
    have hx : ρ' x = -1 := by
      rw [h1 x (by simp [x, y])]
      simp [rebind, lookupV, x, eval]
    rw [holds_disj]
    exact ⟨_, by simp; right; rfl, by simp [holds, relSem, eval, hx]⟩
  · have hs : f.substitute ⟨[(x, .var y)], []⟩ = .all [y] (.rel .leq (.var y) (.const 0)) := by
      decide +kernel
    rw [hs, holds_all]
    intro h
    have := h (fun v => if v = y then 1 else -1) (by intro v hv; simp at hv; simp [hv])
      (by intro v hv; simp at hv; simp [hv, y, typeOk])
    simp [relSem, eval, y] at this
    linarith

end Verif.Props
