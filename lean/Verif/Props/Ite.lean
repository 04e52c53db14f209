import Verif.Proof.Ite

/-! # C13: if-then-else elimination -/

namespace Verif.Props
open Verif Verif.Model Verif.Spec Verif.Proof

/-- C13: eliminating if-then-else terms from any formula, nested, guarded or below quantifiers,
gives a formula free of them; a valuation satisfies the input exactly when some valuation that
differs from it only on the reported variables satisfies the output; the reported variables are
new, continuous and distinct. -/
theorem C13_ite_elimination (next : Nat) (f : Fml) (hf : Old next f) :
    let r := iteProcess next f
    IteFree r.1 ∧
    (∀ v ∈ r.2.1, next ≤ v.id ∧ v.id < r.2.2 ∧ v.type = .continuous) ∧ r.2.1.Nodup ∧
    ∀ (I : Interp) (ρ : Valuation), holds I ρ f ↔
      ∃ ρ' : Valuation, (∀ v, v ∉ r.2.1 → ρ' v = ρ v) ∧ holds I ρ' r.1 := by
  intro r
  obtain ⟨_, h2, h3, h4, h5⟩ := ProcSpec.of (iteF_spec next f .tt { next := next } hf le_rfl) le_rfl hf
  exact ⟨h4, h2, h3, h5⟩

/-- `if x > 0 then (if b then 1 else x) else 2 = 3`: two variables, four definitions, the inner
ones guarded. -/
example :
    let x : Variable := ⟨0, .continuous⟩
    let b : Variable := ⟨1, .boolean⟩
    let p : Fml := .rel .gt (.var x) (.const 0)
    let f : Fml := .rel .eq (.ite p (.ite (.bvar b) (.const 1) (.var x)) (.const 2)) (.const 3)
    let u : Variable := ⟨2, .continuous⟩
    let w : Variable := ⟨3, .continuous⟩
    Old 2 f ∧ iteProcess 2 f =
      (.conj [
        .disj [.neg (.conj [p, .bvar b]), .rel .eq (.var w) (.const 1)],
        .disj [.neg (.conj [p, .neg (.bvar b)]), .rel .eq (.var w) (.var x)],
        .disj [.neg p, .rel .eq (.var u) (.var w)],
        .disj [p, .rel .eq (.var u) (.const 2)],
        .rel .eq (.var u) (.const 3)], [u, w], 4) := by
  intro x b p f u w
  refine ⟨by simp [f, p, Old, OldE, x, b], ?_⟩
  decide +kernel

/-- Below a quantifier the new variable is quantified too:
`∀y. (if y > 0 then y else 0) ≥ 0`. -/
example :
    let y : Variable := ⟨0, .continuous⟩
    let p : Fml := .rel .gt (.var y) (.const 0)
    let f : Fml := .all [y] (.rel .geq (.ite p (.var y) (.const 0)) (.const 0))
    let u : Variable := ⟨1, .continuous⟩
    iteProcess 1 f =
      (.all [y, u] (.disj [
        .conj [p, .neg (.rel .eq (.var u) (.var y))],
        .conj [.neg p, .neg (.rel .eq (.var u) (.const 0))],
        .rel .geq (.var u) (.const 0)]), [], 2) := by
  decide +kernel

end Verif.Props
