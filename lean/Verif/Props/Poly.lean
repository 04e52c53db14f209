import Verif.Proof.PolyZero
import Verif.Props.Expand

/-!
# C64: the identity test for polynomials
-/

namespace Verif.Props
open Verif.Model Verif.Spec Verif.Proof

/-- **C64, the identity test.**  For polynomials, the test of
`symbolic/symbolic_expression.h:211-215` says that two expressions are equal exactly when they have
the same value for all values of the variables.  `_partial`: arithmetic on constants is exact;
degrees are below `2³¹`; no product is raised to a power of 2 or more (`C64_incomplete`), no
expression is divided by a constant (`C64_quotient`). -/
theorem C64_identity_partial {A : Arith} (hA : Arith.Exact A) {n D : Nat} (hD : D < 2 ^ 31)
    (p q p' q' r : Cell) (np : NF p) (nq : NF q) (hp : PolyE (expandC A n) p D)
    (hq : PolyE (expandC A n) q D) (ep : expandC A n p = .ok p') (eq : expandC A n q = .ok q')
    (h : minusE A n p' q' = .ok r) :
    r.equalTo (.const 0) = true ↔ ∀ v, StdOps v → ev v p = ev v q := by
  have hS : Apart fun _ : RC => False := fun _ _ h => h.elim
  have hI : NoInt fun _ : RC => False := fun _ h => h.elim
  obtain ⟨w1, r1, t1⟩ := polyE_plain (S := fun _ => False) p D hp
  obtain ⟨w2, r2, t2⟩ := polyE_plain (S := fun _ => False) q D hq
  refine ⟨fun h0 v hv => ?_, fun hv => ?_⟩
  · obtain ⟨x, hx⟩ := t1 v
    obtain ⟨y, hy⟩ := t2 v
    rw [hx, hy, C64_test_partial hA hS hI p q p' q' r ⟨r1, np⟩ ⟨r2, nq⟩ w1 w2 ep eq h h0 v hv x y
      hx hy]
  · obtain ⟨g1, v1⟩ := expand_cell hA hS hI p p' ⟨r1, np⟩ (rooted_whole _ p w1) ep
    obtain ⟨g2, v2⟩ := expand_cell hA hS hI q q' ⟨r2, nq⟩ (rooted_whole _ q w2) eq
    obtain ⟨g, w⟩ := minusE_ok hA hS hI g1 g2 h
    rw [equalTo_iff]
    refine poly_zero (minusE_mono hA (expand_poly hA p p' D hD hp ep)
      (expand_poly hA q q' D hD hq eq) h) g.2 fun f => ⟨pointVal f, rfl, ?_⟩
    obtain ⟨x, hx⟩ := t1 (pointVal f)
    have hy := (hv _ (pointVal_std f)).symm.trans hx
    have := w _ x x (v1 _ (pointVal_std f) x hx) (v2 _ (pointVal_std f) x hy)
    simpa using this

/-- `x₁² + 2x₁x₂ + x₂²` -/
def squareXY : Cell :=
  .add 0 (.cons (.mul 1 (.cons (.var 1) (.const 1) (.cons (.var 2) (.const 1) .nil))) 2
    (.cons (.bin .pow (.var 1) (.const 2)) 1 (.cons (.bin .pow (.var 2) (.const 2)) 1 .nil)))

/-- The hypotheses of `C64_identity_partial` are met by `(x + y)²` and `x² + 2xy + y²`. -/
example : let p : Cell := .bin .pow sumXY (.const 2)
    NF p ∧ NF squareXY ∧ PolyE (expandC exactA 30) p 2 ∧ PolyE (expandC exactA 30) squareXY 2 ∧
      expandC exactA 30 p = .ok squareXY ∧ expandC exactA 30 squareXY = .ok squareXY ∧
      minusE exactA 30 squareXY squareXY = .ok (.const 0) := by
  have e1 : expandC exactA 30 sumXY = .ok sumXY := of_gives (by decide +kernel)
  have e2 : expandC exactA 30 (.var 1) = .ok (.var 1) := of_gives (by decide +kernel)
  have e3 : expandC exactA 30 (.var 2) = .ok (.var 2) := of_gives (by decide +kernel)
  refine ⟨⟨?_, trivial, fun _ => ⟨?_, by simp⟩⟩, ⟨?_, ?_, by simp [squareXY], by simp [keysT]⟩, ?_, ?_,
    of_gives (by decide +kernel), of_gives (by decide +kernel), of_gives (by decide +kernel)⟩
  · refine ⟨?_, ?_, by simp, by simp [keysT]⟩
    · simp [NFT, NF, Cell.isConst]
    · simp only [keysT, Sorted]
      decide +kernel
  · rintro ⟨b, q, h, _⟩
    simp [sumXY] at h
  · simp [NFT, NF, Cell.isConst, NFG, PowInt, keysG, Sorted, less_vars]
  · simp only [keysT, Sorted]
    decide +kernel
  · simp only [PolyE]
    refine ⟨2, 1, by norm_num, by norm_num, by norm_num, le_refl _, by simp [sumXY, PolyE, PolyET],
      fun _ x h => ?_⟩
    rw [e1] at h
    cases h
    exact id
  · simp only [squareXY, PolyE, PolyET, PolyEG]
    refine ⟨⟨1, 1, 1, by norm_num, by norm_num, by norm_num, le_refl _, le_refl _, by simp,
      1, 1, 0, by norm_num, by norm_num, by norm_num, le_refl _, le_refl _, by simp, trivial⟩,
      ⟨2, 1, by norm_num, by norm_num, by norm_num, le_refl _, le_refl _, fun _ x h => ?_⟩,
      ⟨2, 1, by norm_num, by norm_num, by norm_num, le_refl _, le_refl _, fun _ x h => ?_⟩, trivial⟩
    · rw [e2] at h
      cases h
      exact id
    · rw [e3] at h
      cases h
      exact id

/-- The test tells `x/2` and `½·x` apart: a quotient is not expanded. -/
theorem C64_quotient :
    let p : Cell := .bin .div (.var 1) (.const 2)
    let q : Cell := .mul (1 / 2) (.cons (.var 1) (.const 1) .nil)
    build exactA 30 (.div (.var 1) (.const 2)) = .ok p ∧
      build exactA 30 (.mul (.const (1 / 2)) (.var 1)) = .ok q ∧ (∀ v, ev v p = ev v q) ∧
      expandC exactA 30 p = .ok p ∧ expandC exactA 30 q = .ok q ∧
      ∃ r, minusE exactA 30 p q = .ok r ∧ r.equalTo (.const 0) = false := by
  refine ⟨of_gives (by decide +kernel), of_gives (by decide +kernel), fun v => ?_,
    of_gives (by decide +kernel), of_gives (by decide +kernel),
    .add 0 (.cons (.var 1) (-1 / 2) (.cons (.bin .div (.var 1) (.const 2)) 1 .nil)),
    of_gives (by decide +kernel), by decide +kernel⟩
  simp [ev, evG, quo, pw_one]
  ring

end Verif.Props
