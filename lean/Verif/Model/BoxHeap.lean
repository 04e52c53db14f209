import Verif.Model.Box

/-!
# Boxes with shared variable tables

Models the sharing in `dreal/util/box.{h,cc}`: copies of a box share their variable list and the
two look-up tables (three `shared_ptr`s that are always copied and cloned together,
`dreal/util/box.cc:72-81`), and each has its own interval vector.
-/

namespace Verif.Model

/-- `unordered_map::emplace`: keeps an existing entry. -/
def emplace {κ β : Type} [BEq κ] (m : List (κ × β)) (k : κ) (b : β) : List (κ × β) :=
  match m.lookup k with
  | some _ => m
  | none => m ++ [(k, b)]

/-- The three shared tables (`dreal/util/box.h:130-137`): `variables_`, `var_to_idx_`,
`idx_to_var_`. -/
structure Tbl where
  vars : List Variable
  idx : List (Variable × Nat)
  rev : List (Nat × Variable)
deriving DecidableEq, Repr

/-- One `Box` object: which tables it points to, its interval vector, its emptiness. -/
structure Obj where
  tbl : Nat
  vals : List Itv
  bot : Bool
deriving DecidableEq, Repr

/-- All boxes of a program.  `none` is a destroyed box. -/
structure BoxHeap where
  tbls : List Tbl
  objs : List (Option Obj)
deriving DecidableEq, Repr

/-- What a program can do with boxes. -/
inductive BoxOp where
  | new
  | copy (h : Nat)
  | assign (h g : Nat)
  | drop (h : Nat)
  | add (h : Nat) (v : Variable)
  | setI (h i : Nat) (iv : Itv)
  | setV (h : Nat) (v : Variable) (iv : Itv)
  | readV (h : Nat) (v : Variable)
  | setEmpty (h : Nat)
deriving DecidableEq, Repr

namespace BoxHeap

def init : BoxHeap := ⟨[], []⟩

/-- The live object behind a handle. -/
def obj? (s : BoxHeap) (h : Nat) : Option Obj := (s.objs[h]?).join

/-- `shared_ptr::unique` on the tables (`dreal/util/box.cc:72`). -/
def unique (s : BoxHeap) (t : Nat) : Bool :=
  s.objs.countP (fun o => o.any (fun o => o.tbl == t)) == 1

/-- `IntervalVector::resize` (`dreal/util/box.cc:86`). -/
def resize (n : Nat) (l : List Itv) : List Itv :=
  l.take n ++ List.replicate (n - l.length) Itv.univ

/-- `Box::Add(v)` (`dreal/util/box.cc:66-97`). -/
def addV (s : BoxHeap) (h : Nat) (v : Variable) : Outcome BoxHeap :=
  match s.obj? h with
  | none => .ub
  | some o =>
    match s.tbls[o.tbl]? with
    | none => .ub
    | some t =>
      if v ∈ t.vars then .ub
      else
        let shared := !(s.unique o.tbl)
        let tbls := if shared then s.tbls ++ [t] else s.tbls
        let tid := if shared then s.tbls.length else o.tbl
        let n := t.vars.length
        let t' : Tbl := ⟨t.vars ++ [v], emplace t.idx v n, emplace t.rev n v⟩
        let vals := resize (n + 1) o.vals
        let vals := if v.type = .continuous then vals else vals.set n (Box.initItv v.type)
        .ok ⟨tbls.set tid t', s.objs.set h (some ⟨tid, vals, o.bot⟩)⟩

/-- `(*var_to_idx_)[var]` (`dreal/util/box.cc:125-134,144`): the position, after inserting 0 for a
variable that is not there. -/
def lookupV (s : BoxHeap) (o : Obj) (v : Variable) : Outcome (BoxHeap × Nat) :=
  match s.tbls[o.tbl]? with
  | none => .ub
  | some t =>
    match t.idx.lookup v with
    | some i => .ok (s, i)
    | none => .ok (⟨s.tbls.set o.tbl { t with idx := t.idx ++ [(v, 0)] }, s.objs⟩, 0)

/-- One operation: `Box::Box()` (`dreal/util/box.cc:44-53`), copy construction, assignment and
destruction (implicit, `dreal/util/box.h:44-58`), and the members of `Box`. -/
def step (s : BoxHeap) : BoxOp → Outcome BoxHeap
  | .new => .ok ⟨s.tbls ++ [⟨[], [], []⟩], s.objs ++ [some ⟨s.tbls.length, [Itv.univ], false⟩]⟩
  | .copy h =>
    match s.obj? h with
    | none => .ub
    | some o => .ok { s with objs := s.objs ++ [some o] }
  | .assign h g =>
    match s.obj? h, s.obj? g with
    | some _, some o => .ok { s with objs := s.objs.set h (some o) }
    | _, _ => .ub
  | .drop h =>
    match s.obj? h with
    | none => .ub
    | some _ => .ok { s with objs := s.objs.set h none }
  | .add h v => s.addV h v
  | .setI h i iv =>
    match s.obj? h with
    | none => .ub
    | some o =>
      match s.tbls[o.tbl]? with
      | none => .ub
      | some t =>
        if i < t.vars.length then
          .ok { s with objs := s.objs.set h (some { o with vals := o.vals.set i iv }) }
        else .ub
  | .setV h v iv =>
    match s.obj? h with
    | none => .ub
    | some o => do
      let r ← s.lookupV o v
      .ok { r.1 with objs := r.1.objs.set h (some { o with vals := o.vals.set r.2 iv }) }
  | .readV h v =>
    match s.obj? h with
    | none => .ub
    | some o => do
      let r ← s.lookupV o v
      .ok r.1
  | .setEmpty h =>
    match s.obj? h with
    | none => .ub
    | some o => .ok { s with objs := s.objs.set h (some { o with bot := true }) }

/-- A history of operations. -/
def run (s : BoxHeap) : List BoxOp → Outcome BoxHeap
  | [] => .ok s
  | op :: ops => do
    let s' ← s.step op
    s'.run ops

/-- `Box::variables` (`dreal/util/box.cc:136`). -/
def varsOf (s : BoxHeap) (h : Nat) : Option (List Variable) := do
  let o ← s.obj? h
  let t ← s.tbls[o.tbl]?
  some t.vars

/-- `Box::has_variable` (`dreal/util/box.cc:140-142`). -/
def hasVar (s : BoxHeap) (h : Nat) (v : Variable) : Option Bool := do
  let o ← s.obj? h
  let t ← s.tbls[o.tbl]?
  some (t.idx.lookup v).isSome

/-- `Box::operator[](int)`. -/
def getI (s : BoxHeap) (h i : Nat) : Option Itv := do
  let o ← s.obj? h
  o.vals[i]?

/-- The interval `Box::operator[](Variable)` gives. -/
def getV (s : BoxHeap) (h : Nat) (v : Variable) : Option Itv := do
  let o ← s.obj? h
  let t ← s.tbls[o.tbl]?
  o.vals[(t.idx.lookup v).getD 0]?

/-- `Box::variable(i)` (`dreal/util/box.cc:138`). -/
def varAt (s : BoxHeap) (h i : Nat) : Option Variable := do
  let o ← s.obj? h
  let t ← s.tbls[o.tbl]?
  t.rev.lookup i

/-- `Box::empty`. -/
def isBot (s : BoxHeap) (h : Nat) : Option Bool := do
  let o ← s.obj? h
  some o.bot

end BoxHeap
end Verif.Model
