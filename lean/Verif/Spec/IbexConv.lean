import Verif.Spec.ExprNorm
import Verif.Model.IbexConv
import Mathlib.Data.Set.NAry
import Mathlib.Order.Interval.Set.Defs

/-!
# What the expressions and constraints of IBEX mean
-/

namespace Verif.Spec
open Verif.Model

/-- The values an expression of IBEX can have at the point `p`, one for every choice of values in
its interval constants.  `v` gives the meaning of functions; `g x y` are the values of the power
`x ^ y` whose exponent is not an integer constant. -/
noncomputable def inode (v : CVal) (g : ℝ → ℝ → Set ℝ) (p : Nat → ℝ) : INode → Set ℝ
  | .sym k => {p k}
  | .const l u => Set.Icc (l : ℝ) u
  | .add a b => Set.image2 (· + ·) (inode v g p a) (inode v g p b)
  | .sub a b => Set.image2 (· - ·) (inode v g p a) (inode v g p b)
  | .mul a b => Set.image2 (· * ·) (inode v g p a) (inode v g p b)
  | .div a b => {z | ∃ x ∈ inode v g p a, ∃ y ∈ inode v g p b, quo x y = some z}
  | .powInt a q => {z | ∃ x ∈ inode v g p a, pw x q = some z}
  | .powDbl a q => {z | ∃ x ∈ inode v g p a, z ∈ g x q}
  | .powCst q b => {z | ∃ y ∈ inode v g p b, z ∈ g q y}
  | .powExp a b => {z | ∃ x ∈ inode v g p a, ∃ y ∈ inode v g p b, z ∈ g x y}
  | .un f a => {z | ∃ x ∈ inode v g p a, v.un f x = some z}
  | .bin f a b => {z | ∃ x ∈ inode v g p a, ∃ y ∈ inode v g p b, v.bin f x y = some z}

/-- The bases of the powers whose exponent is not an integer constant are positive. -/
def BasesPos (v : CVal) (g : ℝ → ℝ → Set ℝ) (p : Nat → ℝ) : INode → Prop
  | .sym _ => True
  | .const _ _ => True
  | .add a b => BasesPos v g p a ∧ BasesPos v g p b
  | .sub a b => BasesPos v g p a ∧ BasesPos v g p b
  | .mul a b => BasesPos v g p a ∧ BasesPos v g p b
  | .div a b => BasesPos v g p a ∧ BasesPos v g p b
  | .powInt a _ => BasesPos v g p a
  | .powDbl a _ => BasesPos v g p a ∧ ∀ x ∈ inode v g p a, 0 < x
  | .powCst q b => BasesPos v g p b ∧ 0 < q
  | .powExp a b => BasesPos v g p a ∧ BasesPos v g p b ∧ ∀ x ∈ inode v g p a, 0 < x
  | .un _ a => BasesPos v g p a
  | .bin _ a b => BasesPos v g p a ∧ BasesPos v g p b

/-- The comparison of a value with zero. -/
def cmpHolds : ICmp → ℝ → Prop
  | .eq, x => x = 0
  | .lt, x => x < 0
  | .leq, x => x ≤ 0
  | .gt, x => 0 < x
  | .geq, x => 0 ≤ x

/-- The truth of a relation between the values of its sides, or of its negation, where both values
are defined; other formulas have none here. -/
noncomputable def truth (v : CVal) : FCell → Option Prop
  | .tt => some True
  | .ff => some False
  | .rel op a b => (ev v a).bind fun x => (ev v b).map fun y =>
      match op with
      | .eq => x = y
      | .neq => x ≠ y
      | .gt => y < x
      | .geq => y ≤ x
      | .lt => x < y
      | .leq => x ≤ y
  | .neg f => (truth v f).map Not
  | _ => none

/-- The formula is true, or says that two expressions differ (`pol = true`), or its negation is. -/
def NoConstraint : FCell → Bool → Prop
  | .tt, _ => True
  | .rel .eq _ _, pol => pol = false
  | .rel .neq _ _, pol => pol = true
  | .neg f, pol => NoConstraint f !pol
  | _, _ => False

/-- Both sides of the relation of a formula. -/
def Sides (P : Cell → Prop) : FCell → Prop
  | .rel _ a b => P a ∧ P b
  | .neg f => Sides P f
  | _ => True

end Verif.Spec
