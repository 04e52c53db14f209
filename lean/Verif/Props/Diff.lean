import Verif.Proof.Diff
import Verif.Props.ExprNorm

/-!
# C52: derivatives of expressions
-/

namespace Verif.Props
open Verif.Model Verif.Spec Verif.Proof
open scoped Topology

/-- **C52.**  If the differentiation of an expression in normal form returns, the value of the
result, at a point where the expression has a value and its parts are differentiable, is the
derivative of its value.  `_partial`: bases of products may not be 0 at the point (it is false
otherwise, `C52_zero`), and as in `C48_sum_partial`. -/
theorem C52_derivative_partial {A : Arith} (hA : Arith.Exact A) {S : RC → Prop} (hS : Apart S)
    (hI : NoInt S) (n x : Nat) (e r : Cell) (he : RcC S e ∧ NF e) (h : diffC A n x e = .ok r)
    (w : ℝ → CVal) (hw : Along x w) (hf : ∀ t, StdFun (w t)) (t y : ℝ)
    (hy : ev (w t) e = some y) (hs : Smooth (w t) e) :
    RcC S r ∧ NF r ∧ ∃ d, ev (w t) r = some d ∧ DerivAt w e t d := by
  obtain ⟨g, F, d, h1, h2, h3⟩ := diff_cell hA hS hI hw hf e r he h hs y hy
  exact ⟨g.1, g.2, d, h3, F, h1, h2⟩

/-- **C52.**  The derivative with respect to a variable that does not occur is 0, in value. -/
theorem C52_absent_partial {A : Arith} (hA : Arith.Exact A) {S : RC → Prop} (hS : Apart S)
    (hI : NoInt S) (n x : Nat) (e r : Cell) (he : RcC S e ∧ NF e) (h : diffC A n x e = .ok r)
    (ho : e.occurs x = false) (w : ℝ → CVal) (hw : Along x w) (hf : ∀ t, StdFun (w t)) (t y : ℝ)
    (hy : ev (w t) e = some y) (hs : Smooth (w t) e) : ev (w t) r = some 0 := by
  obtain ⟨_, _, d, h3, F, h1, h2⟩ := C52_derivative_partial hA hS hI n x e r he h w hw hf t y hy hs
  rw [h3, Option.some.injEq]
  refine h2.unique ((hasDerivAt_const t y).congr_of_eventuallyEq ?_)
  filter_upwards [h1] with s e1
  rw [ev_along hw s t e ho, hy, Option.some.injEq] at e1
  exact e1.symm

/-- **C52.**  Differentiation only returns if the variable occurs nowhere in `abs`, `min`, `max`,
if-then-else and uninterpreted functions; otherwise it throws, at any depth. -/
theorem C52_refused (A : Arith) (n x : Nat) (e r : Cell) (h : diffC A n x e = .ok r) :
    Supported x e :=
  supported_cell e r h

/-- `x + |y·x|` is refused, `x + |y·z|` is not. -/
example : ¬ Supported 1 (.add 0 (.cons (.var 1) 1 (.cons (.un .abs (.mul 1 (.cons (.var 1)
      (.const 1) (.cons (.var 2) (.const 1) .nil)))) 1 .nil))) ∧
    (∃ r, diffC exactA 30 1 (.add 0 (.cons (.var 1) 1 (.cons (.un .abs (.mul 1 (.cons (.var 2)
      (.const 1) (.cons (.var 3) (.const 1) .nil)))) 1 .nil))) = .ok r) :=
  ⟨by simp [Supported, SupportedT, Cell.occurs, CFactors.occurs],
    .const 1, of_gives (by decide +kernel)⟩

/-! ## The usual functions -/

open Classical in
/-- The usual functions, with the given values of variables. -/
noncomputable def stdVal (p : Nat → ℝ) : CVal where
  var := p
  rc l _ _ := l
  un f x := match f with
    | .log => if 0 < x then some (Real.log x) else none
    | .abs => some |x|
    | .exp => some (Real.exp x)
    | .sqrt => if 0 ≤ x then some (Real.sqrt x) else none
    | .sin => some (Real.sin x)
    | .cos => some (Real.cos x)
    | .tan => if Real.cos x ≠ 0 then some (Real.tan x) else none
    | .asin => if -1 ≤ x ∧ x ≤ 1 then some (Real.arcsin x) else none
    | .acos => if -1 ≤ x ∧ x ≤ 1 then some (Real.arccos x) else none
    | .atan => some (Real.arctan x)
    | .sinh => some (Real.sinh x)
    | .cosh => some (Real.cosh x)
    | .tanh => some (Real.tanh x)
  bin f y x := match f with
    | .atan2 => if x = 0 ∧ y = 0 then none else some (Complex.arg ⟨x, y⟩)
    | .min => some (min y x)
    | .max => some (max y x)
    | _ => none
  cond _ := true
  uf _ _ := none

theorem stdVal_std (p : Nat → ℝ) : StdFun (stdVal p) := by
  constructor <;> intros <;> simp_all [stdVal]

theorem stdVal_along (x : Nat) (p : Nat → ℝ) : Along x fun t => stdVal (Function.update p x t) := by
  constructor <;> intros <;> simp_all [stdVal, Function.update]

/-! ## Cases -/

/-- `2·atan(x)`, its derivative, and that it is in normal form. -/
theorem twice_atan :
    diffC exactA 30 1 (.mul 2 (.cons (.un .atan (.var 1)) (.const 1) .nil)) =
      .ok (.mul 2 (.cons (.bin .div (.un .atan (.var 1))
        (.add 1 (.cons (.bin .pow (.var 1) (.const 2)) 1 .nil))) (.const 1)
        (.cons (.un .atan (.var 1)) (.const (-1)) .nil))) ∧
    RcC (fun _ => False) (.mul 2 (.cons (.un .atan (.var 1)) (.const 1) .nil)) ∧
    NF (.mul 2 (.cons (.un .atan (.var 1)) (.const 1) .nil)) := by
  refine ⟨of_gives (by decide +kernel), ?_, ?_⟩
  · simp [RcC, RcG]
  · simp [NF, NFG, PowInt, keysG, Sorted]

/-- The hypotheses of `C52_derivative_partial` are met: at all points but 0. -/
example (t : ℝ) (ht : t ≠ 0) :
    let e : Cell := .mul 2 (.cons (.un .atan (.var 1)) (.const 1) .nil)
    let w := fun t => stdVal (Function.update (fun _ => 0) 1 t)
    ∃ y, ev (w t) e = some y ∧ Smooth (w t) e ∧
      ∃ r d, diffC exactA 30 1 e = .ok r ∧ ev (w t) r = some d ∧ DerivAt w e t d := by
  intro e w
  have hy : ev (w t) e = some (2 * (Real.arctan t * 1)) := by
    simp [e, w, ev, evG, stdVal, pw_one]
  have hs : Smooth (w t) e := by
    simp only [e, w, Smooth, SmoothG, ev, stdVal, UnSmooth]
    refine ⟨.inr ⟨trivial, fun x _ => trivial⟩, trivial, fun x hx => ?_, trivial⟩
    simp only [Function.update_self, Option.bind_some, Option.some.injEq] at hx
    subst hx
    have h0 : Real.arctan t ≠ 0 := by simpa [Real.arctan_eq_zero_iff] using ht
    exact ⟨.inr ⟨1, rfl, rfl, .inl h0⟩, h0⟩
  obtain ⟨h1, h2⟩ := twice_atan
  obtain ⟨_, _, d, h3, h4⟩ := C52_derivative_partial exactA_exact (S := fun _ => False)
    (fun _ _ h => h.elim) (fun _ h => h.elim) 30 1 e _ h2 h1 w (stdVal_along 1 _) (fun t => stdVal_std _) t _ hy hs
  exact ⟨_, hy, hs, _, d, h1, h3, h4⟩

/-! ## Where it fails -/

/-- **C52 is false** where a factor is 0: the derivative of `2·atan(x)` is
`2·(atan(x)/(1+x²))·atan(x)^(-1)`, which has no value at 0; the derivative there is 2. -/
theorem C52_zero :
    let e : Cell := .mul 2 (.cons (.un .atan (.var 1)) (.const 1) .nil)
    let w := fun t => stdVal (Function.update (fun _ => 0) 1 t)
    ∃ r, diffC exactA 30 1 e = .ok r ∧ ev (w 0) r = none ∧ DerivAt w e 0 2 := by
  intro e w
  refine ⟨_, twice_atan.1, ?_, fun t => 2 * Real.arctan t, ?_, ?_⟩
  · have : pw 0 (-1) = none := by
      have := pw_int 0 (-1)
      simpa using this
    simp [w, ev, evG, evT, stdVal, pw_two, quo, pw_one, this]
  · refine Filter.Eventually.of_forall fun t => ?_
    simp [e, w, ev, evG, stdVal, pw_one]
  · have := (Real.hasDerivAt_arctan 0).const_mul 2
    simpa using this

end Verif.Props
