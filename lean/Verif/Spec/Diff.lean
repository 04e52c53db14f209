import Verif.Spec.ExprNorm
import Verif.Model.Diff
import Mathlib.Analysis.SpecialFunctions.Trigonometric.DerivHyp
import Mathlib.Analysis.SpecialFunctions.Trigonometric.Inverse
import Mathlib.Analysis.SpecialFunctions.Trigonometric.Arctan
import Mathlib.Analysis.SpecialFunctions.Complex.Arg

/-!
# Derivatives of the values of expressions
-/

namespace Verif.Spec
open Verif.Model
open scoped Topology

/-- The functions are the usual ones, where these are defined. -/
structure StdFun (v : CVal) : Prop where
  log : ∀ x, 0 < x → v.un .log x = some (Real.log x)
  abs : ∀ x, v.un .abs x = some |x|
  exp : ∀ x, v.un .exp x = some (Real.exp x)
  sqrt : ∀ x, v.un .sqrt x = if 0 ≤ x then some (Real.sqrt x) else none
  sin : ∀ x, v.un .sin x = some (Real.sin x)
  cos : ∀ x, v.un .cos x = some (Real.cos x)
  tan : ∀ x, Real.cos x ≠ 0 → v.un .tan x = some (Real.tan x)
  asin : ∀ x, -1 ≤ x → x ≤ 1 → v.un .asin x = some (Real.arcsin x)
  acos : ∀ x, -1 ≤ x → x ≤ 1 → v.un .acos x = some (Real.arccos x)
  atan : ∀ x, v.un .atan x = some (Real.arctan x)
  sinh : ∀ x, v.un .sinh x = some (Real.sinh x)
  cosh : ∀ x, v.un .cosh x = some (Real.cosh x)
  tanh : ∀ x, v.un .tanh x = some (Real.tanh x)
  /-- `atan2 y x` is the angle of the point `(x, y)`. -/
  atan2 : ∀ y x, ¬ (x = 0 ∧ y = 0) → v.bin .atan2 y x = some (Complex.arg ⟨x, y⟩)

/-- Only the variable `x` changes along `w`, and with it conditions and uninterpreted functions of
it. -/
structure Along (x : Nat) (w : ℝ → CVal) : Prop where
  self : ∀ t, (w t).var x = t
  var : ∀ i, i ≠ x → ∀ s t, (w s).var i = (w t).var i
  rc : ∀ s t, (w s).rc = (w t).rc
  un : ∀ s t, (w s).un = (w t).un
  bin : ∀ s t, (w s).bin = (w t).bin
  cond : ∀ f, f.occurs x = false → ∀ s t, (w s).cond f = (w t).cond f
  uf : ∀ n vs, vs.contains x = false → ∀ s t, (w s).uf n vs = (w t).uf n vs

/-- The value of `e` along `w` is defined around `t` and its derivative at `t` is `d`. -/
def DerivAt (w : ℝ → CVal) (e : Cell) (t d : ℝ) : Prop :=
  ∃ F : ℝ → ℝ, (∀ᶠ s in 𝓝 t, ev (w s) e = some (F s)) ∧ HasDerivAt F d t

/-- Where a unary function is differentiable. -/
def UnSmooth (f : Fn1) (x : ℝ) : Prop :=
  match f with
  | .log => 0 < x
  | .sqrt => 0 < x
  | .tan => Real.cos x ≠ 0
  | .asin => -1 < x ∧ x < 1
  | .acos => -1 < x ∧ x < 1
  | _ => True

/-- Where powers of `x` are differentiable; the exponent is `b`. -/
def PowSmooth (x : ℝ) (b : Cell) : Prop :=
  0 < x ∨ ∃ q : ℚ, b = .const q ∧ q.den = 1 ∧ (x ≠ 0 ∨ 1 ≤ q)

mutual
/-- All parts of the expression are differentiable at the point, and the bases of products are not
0. -/
def Smooth (v : CVal) : Cell → Prop
  | .add _ ts => SmoothT v ts
  | .mul _ fs => SmoothG v fs
  | .un f a => f = .abs ∨ (Smooth v a ∧ ∀ x, ev v a = some x → UnSmooth f x)
  | .bin f a b =>
    match f with
    | .div => Smooth v a ∧ Smooth v b
    | .pow => Smooth v a ∧ Smooth v b ∧ ∀ x, ev v a = some x → PowSmooth x b
    | .atan2 => Smooth v a ∧ Smooth v b ∧
        ∀ y x, ev v a = some y → ev v b = some x → 0 < x ∨ y ≠ 0
    | .min => True
    | .max => True
  | _ => True
/-- See `Smooth`. -/
def SmoothT (v : CVal) : CTerms → Prop
  | .nil => True
  | .cons e _ ts => Smooth v e ∧ SmoothT v ts
/-- See `Smooth`. -/
def SmoothG (v : CVal) : CFactors → Prop
  | .nil => True
  | .cons b e fs => Smooth v b ∧ Smooth v e ∧ (∀ x, ev v b = some x → PowSmooth x e ∧ x ≠ 0) ∧
      SmoothG v fs
end

mutual
/-- `x` does not occur in `abs`, `min`, `max`, if-then-else and uninterpreted functions, and there
is no NaN. -/
def Supported (x : Nat) : Cell → Prop
  | .add _ ts => SupportedT x ts
  | .mul _ fs => SupportedG x fs
  | .un f a => if f = .abs then a.occurs x = false else Supported x a
  | .bin f a b => if f = .min ∨ f = .max then a.occurs x = false ∧ b.occurs x = false
      else Supported x a ∧ Supported x b
  | .ite c a b => c.occurs x = false ∧ a.occurs x = false ∧ b.occurs x = false
  | .uf _ vs => x ∉ vs
  | .nan => False
  | _ => True
/-- See `Supported`. -/
def SupportedT (x : Nat) : CTerms → Prop
  | .nil => True
  | .cons e _ ts => Supported x e ∧ SupportedT x ts
/-- See `Supported`. -/
def SupportedG (x : Nat) : CFactors → Prop
  | .nil => True
  | .cons b e fs => Supported x b ∧ Supported x e ∧ SupportedG x fs
end

end Verif.Spec
