import Verif.Model.Dr
import Verif.Spec.Optimum
import Verif.Spec.Weak

/-!
# Meaning of a `dr` problem

Values are given to names; nothing of the translation is used.
-/

namespace Verif.Spec.Dr
open Verif Verif.Model Verif.Model.Dr Verif.Spec

/-- Values for the names of a problem. -/
abbrev Point := String → ℝ

/-- The value of an expression. -/
noncomputable def val (I : Interp) (σ : Point) : DExpr → ℝ
  | .num q => q
  | .id n => σ n
  | .add a b => val I σ a + val I σ b
  | .neg a => - val I σ a
  | .sub a b => val I σ a - val I σ b
  | .mul a b => val I σ a * val I σ b
  | .fn1 f a => I.f1 f (val I σ a)
  | .fn2 f a b => I.f2 f (val I σ a) (val I σ b)

/-- Meaning of the relations. -/
def relP : DRel → ℝ → ℝ → Prop
  | .eq, x, y => x = y
  | .lt, x, y => x < y
  | .le, x, y => x ≤ y
  | .gt, x, y => y < x
  | .ge, x, y => y ≤ x

/-- The truth of a formula. -/
def sat (I : Interp) (σ : Point) : DFml → Prop
  | .rel o a b => relP o (val I σ a) (val I σ b)
  | .and f g => sat I σ f ∧ sat I σ g
  | .or f g => sat I σ f ∨ sat I σ g
  | .imp f g => sat I σ f → sat I σ g
  | .not f => ¬ sat I σ f

/-- The point is within all declared bounds and satisfies all constraints. -/
structure Solves (I : Interp) (p : DProb) (σ : Point) : Prop where
  bounds : ∀ d ∈ p.decls, InItv (σ d.name) ⟨d.lo, d.hi⟩
  holds : ∀ f ∈ p.ctrs, sat I σ f

/-- The point solves the problem, and no other solution is better in all the costs. -/
structure Best (I : Interp) (p : DProb) (σ : Point) : Prop where
  solves : Solves I p σ
  best : ∀ τ, Solves I p τ → ∃ f ∈ p.costs, val I σ f ≤ val I τ f

/-- Every part of the expression has a value at the point. -/
def DefX (D : Dom) (I : Interp) (σ : Point) : DExpr → Prop
  | .num _ => True
  | .id _ => True
  | .add a b => DefX D I σ a ∧ DefX D I σ b
  | .neg a => DefX D I σ a
  | .sub a b => DefX D I σ a ∧ DefX D I σ b
  | .mul a b => DefX D I σ a ∧ DefX D I σ b
  | .fn1 f a => DefX D I σ a ∧ D.d1 f (val I σ a)
  | .fn2 f a b => DefX D I σ a ∧ DefX D I σ b ∧ D.d2 f (val I σ a) (val I σ b)

/-- The comparisons of a formula. -/
def atoms : DFml → List (DRel × DExpr × DExpr)
  | .rel o a b => [(o, a, b)]
  | .and f g => atoms f ++ atoms g
  | .or f g => atoms f ++ atoms g
  | .imp f g => atoms f ++ atoms g
  | .not f => atoms f

/-- The comparisons of the constraints. -/
def DProb.atoms (p : DProb) : List (DRel × DExpr × DExpr) := p.ctrs.flatMap Dr.atoms

/-- A number with any signs before it. -/
def lit : DExpr → Option ℚ
  | .num q => some q
  | .neg a => (lit a).map Neg.neg
  | _ => none

/-- The comparison with the sides exchanged. -/
def DRel.flip : DRel → DRel
  | .eq => .eq
  | .lt => .gt
  | .le => .ge
  | .gt => .lt
  | .ge => .le

/-- The comparison of a value with a number keeps off the gap between the number and the next
double, on the side of the comparison or its negation (see C20). -/
def Off (d : Dbl) : DRel → ℝ → ℚ → Prop
  | .eq, _, _ => True
  | .gt, x, q => ¬ ((q : ℝ) < x ∧ x < d.succ q)
  | .le, x, q => ¬ ((q : ℝ) < x ∧ x < d.succ q)
  | .lt, x, q => ¬ ((d.pred q : ℝ) < x ∧ x < q)
  | .ge, x, q => ¬ ((d.pred q : ℝ) < x ∧ x < q)

/-- All terms of the constraints have values at the point, and it keeps off the gaps next to the
numbers names are compared with. -/
structure Ordinary (D : Dom) (I : Interp) (d : Dbl) (p : DProb) (σ : Point) : Prop where
  values : ∀ o a b, (o, a, b) ∈ DProb.atoms p → DefX D I σ a ∧ DefX D I σ b
  left : ∀ o n b q, (o, .id n, b) ∈ DProb.atoms p → lit b = some q → Off d o (σ n) q
  right : ∀ o n a q, (o, a, .id n) ∈ DProb.atoms p → lit a = some q → Off d (DRel.flip o) (σ n) q

/-- The comparison, or if `pos` is false its negation, is strict and its number sits at or beyond
the limits of C20. -/
def Beyond (d : Dbl) (pos : Bool) (o : DRel) (q : ℚ) : Prop :=
  match pos, o with
  | true, .gt | false, .le => d.maxv ≤ q
  | true, .lt | false, .ge => q ≤ d.minv
  | _, _ => False

/-- No strict bound of the formula (`pos = true`), or of its negation, is beyond the limits. -/
def Within (d : Dbl) : Bool → DFml → Prop
  | pos, .rel o a b =>
    (∀ n q, a = .id n → lit b = some q → ¬ Beyond d pos o q) ∧
    (∀ n q, b = .id n → lit a = some q → ¬ Beyond d pos (DRel.flip o) q)
  | pos, .and f g => Within d pos f ∧ Within d pos g
  | pos, .or f g => Within d pos f ∧ Within d pos g
  | pos, .imp f g => Within d (!pos) f ∧ Within d pos g
  | pos, .not f => Within d (!pos) f

/-- The `δ`-weakening of a comparison (`pos`) or its negation. -/
def weakRelP (δ : ℝ) (pos : Bool) (o : DRel) (x y : ℝ) : Prop :=
  match pos, o with
  | true, .eq => |x - y| ≤ δ
  | true, .lt | false, .ge => x < y + δ
  | true, .le | false, .gt => x ≤ y + δ
  | true, .gt | false, .le => y < x + δ
  | true, .ge | false, .lt => y ≤ x + δ
  | false, .eq => True

/-- The `δ`-weakening of a formula (`pos`) or of its negation. -/
def weakSat (I : Interp) (δ : ℝ) (σ : Point) : Bool → DFml → Prop
  | pos, .rel o a b => weakRelP δ pos o (val I σ a) (val I σ b)
  | true, .and f g => weakSat I δ σ true f ∧ weakSat I δ σ true g
  | false, .and f g => weakSat I δ σ false f ∨ weakSat I δ σ false g
  | true, .or f g => weakSat I δ σ true f ∨ weakSat I δ σ true g
  | false, .or f g => weakSat I δ σ false f ∧ weakSat I δ σ false g
  | true, .imp f g => weakSat I δ σ false f ∨ weakSat I δ σ true g
  | false, .imp f g => weakSat I δ σ true f ∧ weakSat I δ σ false g
  | pos, .not f => weakSat I δ σ (!pos) f

/-- The names of an expression. -/
def names : DExpr → List String
  | .num _ => []
  | .id n => [n]
  | .add a b => names a ++ names b
  | .neg a => names a
  | .sub a b => names a ++ names b
  | .mul a b => names a ++ names b
  | .fn1 _ a => names a
  | .fn2 _ a b => names a ++ names b

/-- Every comparison of the constraints has a name, and if a side of it is a number the doubles next
to it are closer than `δ`. -/
structure Fine (d : Dbl) (δ : ℚ) (p : DProb) : Prop where
  named : ∀ o a b, (o, a, b) ∈ DProb.atoms p → names a ++ names b ≠ []
  left : ∀ o a b q, (o, a, b) ∈ DProb.atoms p → lit a = some q → d.succ q < q + δ ∧ q - δ < d.pred q
  right : ∀ o a b q, (o, a, b) ∈ DProb.atoms p → lit b = some q → d.succ q < q + δ ∧ q - δ < d.pred q

end Verif.Spec.Dr
