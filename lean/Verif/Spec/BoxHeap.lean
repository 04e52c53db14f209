import Verif.Model.BoxHeap
import Verif.Spec.Box

/-!
# Boxes as values

The abstract meaning of a program with boxes: every handle owns its box.
-/

namespace Verif.Spec
open Verif.Model

/-- The value a handle denotes (`none`: destroyed). -/
abbrev BoxVals := List (Option Box)

/-- The live box of a handle. -/
def BoxVals.box? (s : BoxVals) (h : Nat) : Option Box := (s[h]?).join

/-- One operation on values: only the box of the named handle changes. -/
def boxValStep (s : BoxVals) : BoxOp → Outcome BoxVals
  | .new => .ok (s ++ [some ⟨[], [], false⟩])
  | .copy h =>
    match s.box? h with
    | none => .ub
    | some b => .ok (s ++ [some b])
  | .assign h g =>
    match s.box? h, s.box? g with
    | some _, some b => .ok (s.set h (some b))
    | _, _ => .ub
  | .drop h =>
    match s.box? h with
    | none => .ub
    | some _ => .ok (s.set h none)
  | .add h v =>
    match s.box? h with
    | none => .ub
    | some b =>
      if v ∈ b.vars then .ub
      else .ok (s.set h (some { b with
        vars := b.vars ++ [v], vals := b.vals ++ [newItv v.type] }))
  | .setI h i iv =>
    match s.box? h with
    | none => .ub
    | some b => if i < b.vars.length then .ok (s.set h (some (b.set i iv))) else .ub
  | .setV h v iv =>
    match s.box? h with
    | none => .ub
    | some b => .ok (s.set h (some (b.set (b.vars.idxOf v) iv)))
  | .readV h _ =>
    match s.box? h with
    | none => .ub
    | some _ => .ok s
  | .setEmpty h =>
    match s.box? h with
    | none => .ub
    | some b => .ok (s.set h (some { b with bot := true }))

/-- A history on values. -/
def boxValRun (s : BoxVals) : List BoxOp → Outcome BoxVals
  | [] => .ok s
  | op :: ops => do
    let s' ← boxValStep s op
    boxValRun s' ops

/-- Accesses by variable name variables of the box. -/
def opDeclared (s : BoxVals) : BoxOp → Prop
  | .setV h v _ => ∀ b, s.box? h = some b → v ∈ b.vars
  | .readV h v => ∀ b, s.box? h = some b → v ∈ b.vars
  | _ => True

/-- Throughout a history. -/
def opsDeclared (s : BoxVals) : List BoxOp → Prop
  | [] => True
  | op :: ops => opDeclared s op ∧ ∀ s', boxValStep s op = .ok s' → opsDeclared s' ops

/-- What the heap shows for every handle is the value of that handle: variables, presence of
each variable, intervals by position and by variable, emptiness. -/
def ShowsValues (s : BoxHeap) (vs : BoxVals) : Prop :=
  ∀ h, (s.varsOf h = (vs.box? h).map (·.vars)) ∧
    (∀ v, s.hasVar h v = (vs.box? h).map (fun b => decide (v ∈ b.vars))) ∧
    (s.isBot h = (vs.box? h).map (·.bot)) ∧
    (∀ b, vs.box? h = some b →
      (∀ i < b.vars.length, s.getI h i = b.vals[i]?) ∧
      (∀ i < b.vars.length, s.varAt h i = b.vars[i]?) ∧
      ∀ v ∈ b.vars, s.getV h v = b.vals[b.vars.idxOf v]?)

end Verif.Spec
