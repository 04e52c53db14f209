import Verif.Model.VarSet
import Mathlib.Data.Finset.Basic
import Mathlib.Data.Finset.Card
import Mathlib.Data.List.Dedup

/-!
# Sets of variables: what the operations should do
-/

namespace Verif.Spec
open Verif Verif.Model

/-- In the order of the ids, every id once. -/
def Ordered (s : VarSet) : Prop := s.Pairwise fun v w => v.id < w.id

/-- The set of the ids. -/
def idSet (s : VarSet) : Finset Nat := (s.map (·.id)).toFinset

/-- Assign a set. -/
def putSet (τ : Nat → Finset Nat) (i : Nat) (s : Finset Nat) : Nat → Finset Nat :=
  fun j => if j = i then s else τ j

/-- What an operation means for sets. -/
def setStep (τ : Nat → Finset Nat) : VarCmd → Nat → Finset Nat
  | .insert i v => putSet τ i (insert v.id (τ i))
  | .insertAll i j => putSet τ i (τ i ∪ τ j)
  | .erase i v => putSet τ i ((τ i).erase v.id)
  | .eraseAll i j => putSet τ i (τ i \ τ j)
  | .add k i j => putSet τ k (τ i ∪ τ j)
  | .sub k i j => putSet τ k (τ i \ τ j)
  | .meet k i j => putSet τ k (τ i ∩ τ j)

/-- What a sequence of operations means. -/
def setRun (τ : Nat → Finset Nat) : List VarCmd → Nat → Finset Nat
  | [] => τ
  | c :: cs => setRun (setStep τ c) cs

/-- No object is inserted into itself or erased from itself. -/
def NoAlias : VarCmd → Prop
  | .insertAll i j => i ≠ j
  | .eraseAll i j => i ≠ j
  | _ => True

end Verif.Spec
