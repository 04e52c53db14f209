import Verif.Model.Itv
import Verif.Model.Syntax
import Verif.Model.Outcome

/-!
# Boxes

Models `dreal/util/box.{h,cc}` and `dreal/solver/brancher.cc`.
The sharing of the variable tables between copies is modelled in `BoxHeap.lean`; here a box is
a value.
-/

namespace Verif.Model

/-- `Box` (`dreal/util/box.h:130-137`): the variables in order, their intervals, and whether the
interval vector is the empty one (`set_empty`).  Simplified: the one-element interval vector of
a box without variables (`dreal/util/box.cc:46-50`) is left out; the emptiness of
`ibex::IntervalVector` is a flag of its own, set by `set_empty`. -/
structure Box where
  vars : List Variable
  vals : List Itv
  bot : Bool := false
deriving DecidableEq, Repr, Inhabited

namespace Box

/-- `Box::size` (`dreal/util/box.cc:119`). -/
def size (b : Box) : Nat := b.vars.length

/-- `Box::empty` (`dreal/util/box.cc:115`). -/
def empty (b : Box) : Bool := b.bot

/-- `Box::set_empty` (`dreal/util/box.cc:117`). -/
def setEmpty (b : Box) : Box := { b with bot := true }

/-- `Box::operator[](int)` (`dreal/util/box.cc:121-124,128-131`). -/
def get (b : Box) (i : Nat) : Itv := b.vals.getD i Itv.univ

/-- Writing through `Box::operator[](int)` (`dreal/util/box.cc:121-124`). -/
def set (b : Box) (i : Nat) (iv : Itv) : Box := { b with vals := b.vals.set i iv }

/-- `Box::index` (`dreal/util/box.cc:144`) and the look-up inside `operator[](Variable)`
(`dreal/util/box.cc:125-127,132-134`): `(*var_to_idx_)[var]` gives the position of a variable of
the box and default-inserts **0** for any other variable.  The insertion itself is modelled in
`BoxHeap.lean`. -/
def index (b : Box) (v : Variable) : Nat := if v ∈ b.vars then b.vars.idxOf v else 0

/-- Reading `Box::operator[](Variable)` (`dreal/util/box.cc:132-134`). -/
def getV (b : Box) (v : Variable) : Itv := b.get (b.index v)

/-- Writing through `Box::operator[](Variable)` (`dreal/util/box.cc:125-127`). -/
def setV (b : Box) (v : Variable) (iv : Itv) : Box := b.set (b.index v) iv

/-- `Box::has_variable` (`dreal/util/box.cc:140-142`). -/
def hasVar (b : Box) (v : Variable) : Bool := decide (v ∈ b.vars)

/-- The initial interval of a variable (`dreal/util/box.cc:86-96`). -/
def initItv : VType → Itv
  | .boolean | .binary => ⟨.fin 0, .fin 1⟩
  | .integer => ⟨.fin (-2147483647), .fin 2147483647⟩
  | .continuous => Itv.univ

/-- `Box::Add(v)` (`dreal/util/box.cc:66-97`); adding a variable twice violates the assertion.
Simplified: resizing an empty IBEX vector keeps it empty. -/
def add (b : Box) (v : Variable) : Outcome Box :=
  if v ∈ b.vars then .ub
  else .ok { b with vars := b.vars ++ [v], vals := b.vals ++ [initItv v.type] }

/-- `Box::Add(v, lb, ub)` (`dreal/util/box.cc:99-113`). -/
def addItv (b : Box) (v : Variable) (lb ub : EQ) : Outcome Box := do
  let b' ← b.add v
  if lb ≤ ub ∧ (v.type = .binary → EQ.fin 0 ≤ lb ∧ ub ≤ EQ.fin 1) ∧
      (v.type = .integer → lb.isInt = true ∧ ub.isInt = true) then
    .ok (b'.setV v ⟨lb, ub⟩)
  else .ub

/-- `Box::MaxDiam` (`dreal/util/box.cc:149-160`) and `FindMaxDiam`
(`dreal/solver/brancher.cc:26-41`): the loop over the candidate indexes `is`, with the current
best diameter and index. -/
def maxDiamLoop (fp : Fp) (b : Box) : List Nat → EQ × Option Nat → EQ × Option Nat
  | [], acc => acc
  | i :: is, acc =>
    if acc.1 < fp.diam (b.get i) ∧ fp.bisectable (b.get i) = true then
      maxDiamLoop fp b is (fp.diam (b.get i), some i)
    else maxDiamLoop fp b is acc

/-- `Box::MaxDiam` (`dreal/util/box.cc:149-160`). -/
def maxDiam (fp : Fp) (b : Box) : EQ × Option Nat :=
  maxDiamLoop fp b (List.range b.size) (.fin 0, none)

/-- `FindMaxDiam` (`dreal/solver/brancher.cc:26-41`): `active` lists the set bits in increasing
order; the assertion wants at least one. -/
def findMaxDiam (fp : Fp) (b : Box) (active : List Nat) : Outcome (EQ × Option Nat) :=
  if active = [] then .ub else .ok (maxDiamLoop fp b active (.fin 0, none))

/-- `Box::bisect_int` (`dreal/util/box.cc:191-209`).  Simplified: `mid_floor + 1` is computed
exactly. -/
def bisectInt (fp : Fp) (b : Box) (i : Nat) (iv : Itv) : Outcome (Box × Box) :=
  let lb := iv.lb.ceil
  let ub := iv.ub.floor
  let m : ℤ := ⌊fp.mid iv⌋
  if iv.lb ≤ lb ∧ lb ≤ .fin m ∧ .fin (m + 1) ≤ ub ∧ ub ≤ iv.ub then
    .ok (b.set i ⟨lb, .fin m⟩, b.set i ⟨.fin (m + 1), ub⟩)
  else .ub

/-- `Box::bisect_continuous` (`dreal/util/box.cc:211-221`). -/
def bisectCont (fp : Fp) (b : Box) (i : Nat) (iv : Itv) : Outcome (Box × Box) :=
  .ok (b.set i ⟨iv.lb, .fin (fp.cut iv)⟩, b.set i ⟨.fin (fp.cut iv), iv.ub⟩)

/-- `Box::bisect(int)` (`dreal/util/box.cc:162-179`). -/
def bisect (fp : Fp) (b : Box) (i : Nat) : Outcome (Box × Box) :=
  match b.vars[i]? with
  | none => .ub
  | some v =>
    if fp.bisectable (b.get i) = true then
      match v.type with
      | .continuous => bisectCont fp b i (b.get i)
      | .integer => bisectInt fp b i (b.get i)
      | .binary => bisectInt fp b i (b.get i)
      | .boolean => .throw
    else .throw

/-- `Box::bisect(Variable)` (`dreal/util/box.cc:181-189`). -/
def bisectV (fp : Fp) (b : Box) (v : Variable) : Outcome (Box × Box) :=
  if v ∈ b.vars then bisect fp b (b.vars.idxOf v) else .throw

/-- `Box::InplaceUnion` (`dreal/util/box.cc:223-230`); the union with an empty interval vector
is the other operand. -/
def union (a b : Box) : Outcome Box :=
  if a.vars = b.vars then
    if a.bot then .ok b
    else if b.bot then .ok a
    else .ok { a with vals := List.zipWith Itv.hull a.vals b.vals }
  else .ub

/-- `BranchLargestFirst` (`dreal/solver/brancher.cc:43-62`): the branching dimension and the two
halves, or `none` for -1. -/
def branchLargestFirst (fp : Fp) (b : Box) (active : List Nat) :
    Outcome (Option (Nat × Box × Box)) := do
  let r ← findMaxDiam fp b active
  match r.2 with
  | some i => do
    let h ← bisect fp b i
    .ok (some (i, h.1, h.2))
  | none => .ok none

end Box
end Verif.Model
