import Verif.Proof.StrengthenWeak

/-! # C17: strengthening and weakening by δ

The claim is about every formula.  It holds for formulas without if-then-else terms
(`C17_strengthen_partial`, `C17_weaken_partial`) and fails with them (`C17_ite`); on quantified
formulas the code throws. -/

namespace Verif.Props
open Verif Verif.Model Verif.Spec Verif.Proof

/-- C17, strengthening, without if-then-else: the code answers, and the answer implies the
formula.  `P` stands for the doubles and `rnd` for rounding to them. -/
theorem C17_strengthen_partial {P : ℚ → Prop} {rnd : ℚ → ℚ} (hr : RoundsTo P rnd) {δ : ℚ}
    (hδ : 0 < δ) {f : Fml} (hf : BasicF P f) :
    ∃ g, deltaStrengthen rnd δ f = .ok g ∧
      ∀ (I : Interp) (ρ : Valuation), holds I ρ g → holds I ρ f := by
  obtain ⟨g, h, _, _⟩ := strF_spec (I := ⟨fun _ _ => 0, fun _ _ _ => 0⟩) (ρ := fun _ => 0) hr _ f
    le_rfl hf δ hδ.ne'
  refine ⟨g, by simp [deltaStrengthen, strengthen, hδ, hδ.ne', h], fun I ρ hg => ?_⟩
  obtain ⟨g', h', h1, _⟩ := strF_spec (I := I) (ρ := ρ) hr _ f le_rfl hf δ hδ.ne'
  rw [h] at h'
  cases h'
  exact h1 hδ hg

/-- C17, weakening, without if-then-else: the code answers, and the formula implies the answer. -/
theorem C17_weaken_partial {P : ℚ → Prop} {rnd : ℚ → ℚ} (hr : RoundsTo P rnd) {δ : ℚ}
    (hδ : 0 < δ) {f : Fml} (hf : BasicF P f) :
    ∃ g, deltaWeaken rnd δ f = .ok g ∧
      ∀ (I : Interp) (ρ : Valuation), holds I ρ f → holds I ρ g := by
  have hn : -δ ≠ 0 := neg_ne_zero.mpr hδ.ne'
  obtain ⟨g, h, _, _⟩ := strF_spec (I := ⟨fun _ _ => 0, fun _ _ _ => 0⟩) (ρ := fun _ => 0) hr _ f
    le_rfl hf (-δ) hn
  refine ⟨g, by simp [deltaWeaken, strengthen, hδ, hδ.ne', h], fun I ρ hg => ?_⟩
  obtain ⟨g', h', _, h1⟩ := strF_spec (I := I) (ρ := ρ) hr _ f le_rfl hf (-δ) hn
  rw [h] at h'
  cases h'
  exact h1 (neg_neg_iff_pos.mpr hδ) hg

/-- Neither goes too far: where the strengthened formula fails, the negation of the formula holds
up to `δ`, and where the weakened formula holds, the formula holds up to `δ`; in both cases plus
the error `η` of rounding the shifted constants. -/
theorem C17_close_partial {P : ℚ → Prop} {rnd : ℚ → ℚ} {η : ℝ} (h0 : 0 ≤ η) {δ : ℚ} (hδ : 0 < δ)
    (hη : ∀ q, P q → |((rnd (q + δ) : ℚ) : ℝ) - (q + δ)| ≤ η)
    (hη' : ∀ q, P q → |((rnd (q + -δ) : ℚ) : ℝ) - (q + -(δ : ℝ))| ≤ η) {f g : Fml}
    (hf : BasicF P f) (I : Interp) (ρ : Valuation) :
    (deltaStrengthen rnd δ f = .ok g → ¬ holds I ρ g → weakF I (δ + η) ρ false f) ∧
    (deltaWeaken rnd δ f = .ok g → holds I ρ g → weakF I (δ + η) ρ true f) := by
  have h := strF_near (I := I) (ρ := ρ) hδ h0 hη hη' _ f le_rfl hf g
  constructor <;> intro e
  · simp only [deltaStrengthen, strengthen, hδ, hδ.ne', if_true, if_false] at e
    exact h.1 e
  · simp only [deltaWeaken, strengthen, hδ, neg_ne_zero.mpr hδ.ne', if_true, if_false] at e
    exact h.2 e

/-- `¬(x = 1) ∧ (x ≥ 2·y ∨ 3 < x)` strengthened and weakened by a half. -/
example :
    let x : Variable := ⟨0, .continuous⟩
    let y : Variable := ⟨1, .continuous⟩
    let f : Fml := .conj [.neg (.rel .eq (.var x) (.const 1)),
      .disj [.rel .geq (.var x) (.mul (.const 2) (.var y)), .rel .lt (.const 3) (.var x)]]
    RoundsTo (fun _ => True) id ∧ BasicF (fun _ => True) f ∧
    deltaStrengthen id (1/2) f = .ok (.conj [
      .neg (.conj [.rel .geq (.var x) (.const (1/2)), .rel .leq (.var x) (.const (3/2))]),
      .disj [.rel .geq (.var x) (.add (.mul (.const 2) (.var y)) (.const (1/2))),
        .rel .lt (.const (7/2)) (.var x)]]) ∧
    deltaWeaken id (1/2) f = .ok (.conj [.neg (.rel .eq (.var x) (.const 1)),
      .disj [.rel .geq (.var x) (.add (.mul (.const 2) (.var y)) (.const (-1/2))),
        .rel .lt (.const (5/2)) (.var x)]]) := by
  intro x y f
  refine ⟨⟨fun _ _ h => h, fun _ _ => rfl⟩, ?_, by decide +kernel, by decide +kernel⟩
  simp [f, BasicF, BasicFs, BasicE]
  decide +kernel

/-- With an if-then-else term the claim fails: `(if x > 0 then 0 else 5) ≥ 1` strengthened by a
half is `(if x > 1/2 then 0 else 5) ≥ 3/2`, which holds at `x = 1/4`, where the formula does
not.  (The condition is strengthened whichever way the term depends on it.) -/
theorem C17_ite :
    ∃ f g : Fml, deltaStrengthen id (1/2) f = .ok g ∧
      ∃ (I : Interp) (ρ : Valuation), holds I ρ g ∧ ¬ holds I ρ f := by
  let x : Variable := ⟨0, .continuous⟩
  refine ⟨.rel .geq (.ite (.rel .gt (.var x) (.const 0)) (.const 0) (.const 5)) (.const 1),
    .rel .geq (.ite (.rel .gt (.var x) (.const (1/2))) (.const 0) (.const 5)) (.const (3/2)),
    by decide +kernel, ⟨fun _ _ => 0, fun _ _ _ => 0⟩, fun _ => 1/4, ?_, ?_⟩
  · have h : ¬ (1/2 : ℝ) < 1/4 := by norm_num
    simp [holds, eval, relSem, h]
    norm_num
  · simp [holds, eval, relSem]

/-- Quantified formulas are refused. -/
theorem C17_forall (rnd : ℚ → ℚ) {δ : ℚ} (hδ : 0 < δ) (vs : List Variable) (f : Fml) :
    deltaStrengthen rnd δ (.all vs f) = .throw ∧ deltaWeaken rnd δ (.all vs f) = .throw := by
  simp [deltaStrengthen, deltaWeaken, strengthen, hδ, hδ.ne', strF]

end Verif.Props
