import Verif.Model.Outcome
import Verif.Model.Syntax

/-!
# Sets of variables

Models `symbolic/symbolic_variables.{h,cc}` and `HaveIntersection` of `dreal/symbolic/symbolic.cc`.
A `std::set<Variable>` is the list of its elements in its order, which is that of the ids
(`symbolic/symbolic_variable.h:70,101-107`).  The algorithms of the standard library are modelled as
specified there, by walks over both ranges.
-/

namespace Verif.Model
open Verif

/-- `vars_` (`symbolic/symbolic_variables.h:130`). -/
abbrev VarSet := List Variable

namespace VarSet

/-- `insert(const Variable&)` (`symbolic/symbolic_variables.h:86`). -/
def insert (v : Variable) : VarSet → VarSet
  | [] => [v]
  | w :: ws =>
    if v.id < w.id then v :: w :: ws
    else if w.id < v.id then w :: insert v ws
    else w :: ws

/-- `insert(const Variables&)` and `insert(first, last)` (`symbolic/symbolic_variables.h:87-93`), and
the constructor from a list (`symbolic/symbolic_variables.cc:29`). -/
def insertAll (s t : VarSet) : VarSet := t.foldl (fun s v => insert v s) s

/-- `erase(const Variable&)` (`symbolic/symbolic_variables.h:96`): the number of elements erased, and
the set. -/
def erase (v : Variable) : VarSet → Nat × VarSet
  | [] => (0, [])
  | w :: ws =>
    if !decide (v.id < w.id) && !decide (w.id < v.id) then (1, ws)
    else ((erase v ws).1, w :: (erase v ws).2)

/-- `erase(const Variables&)` (`symbolic/symbolic_variables.cc:41-47`), for another set. -/
def eraseAll (s t : VarSet) : Nat × VarSet :=
  t.foldl (fun acc v => (acc.1 + (erase v acc.2).1, (erase v acc.2).2)) (0, s)

/-- `include` (`symbolic/symbolic_variables.h:102-107`). -/
def mem (v : Variable) (s : VarSet) : Bool :=
  s.any fun w => !decide (v.id < w.id) && !decide (w.id < v.id)

/-- `std::includes`: whether the second range is in the first. -/
def includes : VarSet → VarSet → Bool
  | _, [] => true
  | [], _ :: _ => false
  | x :: xs, y :: ys =>
    if y.id < x.id then false
    else if x.id < y.id then includes xs (y :: ys)
    else includes xs ys

/-- `IsSubsetOf` (`symbolic/symbolic_variables.cc:49-52`). -/
def isSubsetOf (s t : VarSet) : Bool := includes t s

/-- `IsSupersetOf` (`symbolic/symbolic_variables.cc:54-56`). -/
def isSupersetOf (s t : VarSet) : Bool := isSubsetOf t s

/-- `operator==` (`symbolic/symbolic_variables.cc:72-75`). -/
def equal : VarSet → VarSet → Bool
  | [], [] => true
  | x :: xs, y :: ys => decide (x.id = y.id) && equal xs ys
  | _, _ => false

/-- `IsStrictSubsetOf` (`symbolic/symbolic_variables.cc:58-63`). -/
def isStrictSubsetOf (s t : VarSet) : Bool := if equal s t then false else isSubsetOf s t

/-- `IsStrictSupersetOf` (`symbolic/symbolic_variables.cc:65-70`). -/
def isStrictSupersetOf (s t : VarSet) : Bool := if equal s t then false else isSupersetOf s t

/-- `operator<` (`symbolic/symbolic_variables.cc:77-81`): `std::lexicographical_compare`. -/
def less : VarSet → VarSet → Bool
  | _, [] => false
  | [], _ :: _ => true
  | x :: xs, y :: ys =>
    if x.id < y.id then true
    else if y.id < x.id then false
    else less xs ys

/-- `std::set_intersection`: the elements in the order in which they are inserted. -/
def common : VarSet → VarSet → List Variable
  | [], _ => []
  | _ :: _, [] => []
  | x :: xs, y :: ys =>
    if x.id < y.id then common xs (y :: ys)
    else if y.id < x.id then common (x :: xs) ys
    else x :: common xs ys
termination_by s t => s.length + t.length

/-- `intersect` (`symbolic/symbolic_variables.cc:132-139`). -/
def intersect (s t : VarSet) : VarSet := insertAll [] (common s t)

/-- `HaveIntersection` (`dreal/symbolic/symbolic.cc:145-161`). -/
def haveCommon : VarSet → VarSet → Bool
  | [], _ => false
  | _ :: _, [] => false
  | x :: xs, y :: ys =>
    if x.id < y.id then haveCommon xs (y :: ys)
    else if !decide (y.id < x.id) then true
    else haveCommon (x :: xs) ys
termination_by s t => s.length + t.length

end VarSet

/-- What can be done to objects of type `Variables`; numbers name the objects.
`add`, `sub`, `meet` create a new set and assign it. -/
inductive VarCmd where
  | insert (i : Nat) (v : Variable)
  | insertAll (i j : Nat)
  | erase (i : Nat) (v : Variable)
  | eraseAll (i j : Nat)
  | add (k i j : Nat)
  | sub (k i j : Nat)
  | meet (k i j : Nat)

/-- The objects. -/
abbrev VarSets := Nat → VarSet

/-- Assign an object. -/
def VarSets.put (σ : VarSets) (i : Nat) (s : VarSet) : VarSets := fun j => if j = i then s else σ j

/-- One operation; `operator+=`, `operator-=` and `insert`, `erase` do the same
(`symbolic/symbolic_variables.cc:41-47,83-128`).  If an object is inserted into itself or erased from
itself, the loop walks over a set that changes; an iterator to an erased element is then advanced
(`symbolic/symbolic_variables.cc:43-45`), and the range given to `std::set::insert` must not be of the
same set: undefined behaviour.  `operator+` and `operator-` have a copy on the left
(`symbolic/symbolic_variables.cc:95-98,120-123`). -/
def stepVars (σ : VarSets) : VarCmd → Outcome VarSets
  | .insert i v => .ok (σ.put i ((σ i).insert v))
  | .insertAll i j => if i = j ∧ σ i ≠ [] then .ub else .ok (σ.put i ((σ i).insertAll (σ j)))
  | .erase i v => .ok (σ.put i ((σ i).erase v).2)
  | .eraseAll i j => if i = j ∧ σ i ≠ [] then .ub else .ok (σ.put i ((σ i).eraseAll (σ j)).2)
  | .add k i j => .ok (σ.put k ((σ i).insertAll (σ j)))
  | .sub k i j => .ok (σ.put k ((σ i).eraseAll (σ j)).2)
  | .meet k i j => .ok (σ.put k (VarSet.intersect (σ i) (σ j)))

/-- A sequence of operations. -/
def runVars (σ : VarSets) : List VarCmd → Outcome VarSets
  | [] => .ok σ
  | c :: cs => do
    let σ' ← stepVars σ c
    runVars σ' cs

end Verif.Model
