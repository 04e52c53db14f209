import Verif.Model.Script
import Verif.Model.Prefix

/-!
# `get-value` and `get-model`

Models `dreal/smt2/driver.cc:132-249`.  Simplified: of what `get-value` prints only the values are
kept; the text of the terms is the subject of `Prefix.lean`.
-/

namespace Verif.Model.Smt2
open Verif Verif.Model Verif.Model.Prefix

/-- `ToString` of a GMP integer (`dreal/smt2/driver.cc:173-178`). -/
def intWords (z : Int) : List Word :=
  if z < 0 then [.lp, .txt "-", .num ((-z : Int) : ℚ), .rp] else [.num (z : ℚ)]

/-- `ToRational` (`dreal/smt2/driver.cc:180-188`).  GMP ends the program when an infinity is made a
fraction. -/
def boundWords : EQ → Outcome (List Word)
  | .fin q =>
    .ok (if q.den = 1 then intWords q.num
      else [.lp, .txt "/"] ++ intWords q.num ++ intWords q.den ++ [.rp])
  | _ => .ub

/-- `ToString` of an interval (`dreal/smt2/driver.cc:190-199`).  The bounds of an empty interval are
`NaN`, which is not equal to itself and not a fraction. -/
def itvWords (iv : Itv) : Outcome (List Word) :=
  if iv.isEmpty then .ub
  else if iv.lb = iv.ub then boundWords iv.lb
  else do
    let l ← boundWords iv.lb
    let u ← boundWords iv.ub
    .ok ([.lp, .txt "interval", .lp, .txt "closed"] ++ l ++ [.rp, .lp, .txt "closed"] ++ u ++
      [.rp, .rp])

/-- The value of one term (`dreal/smt2/driver.cc:221-244`). -/
def valueWords (ops : IOps) (b : Box) : Term → Outcome (List Word)
  | .expr e => do
    let iv ← evalI ops b e
    itvWords iv
  | .fml (.bvar v) => .ok [.txt (if b.getV v = Itv.point 1 then "true" else "false")]
  | .fml _ => .throw

/-- The loop of `Smt2Driver::GetValue` (`dreal/smt2/driver.cc:215-246`). -/
def valuesWords (ops : IOps) (b : Box) : List Term → Outcome (List (List Word))
  | [] => .ok []
  | t :: ts => do
    let w ← valueWords ops b t
    let ws ← valuesWords ops b ts
    .ok (w :: ws)

/-- `Context::get_model` (`dreal/solver/context_impl.h:60`): after `unsat` the model was made empty
(`dreal/solver/context_impl.cc:217`), see `wipeBox`. -/
def modelBox (cfg : CCfg) (c : Ctx) : Box := if c.model.bot then wipeBox cfg c.model else c.model

/-- A script followed by `(get-value (…))` (`dreal/smt2/parser.yy:203-207`): the terms are read first,
which may make calls on the context, and then their values printed. -/
def getValues (cfg : CCfg) (s : List SCmd) (ts : List STerm) : Run (List (List Word)) := do
  let d ← Run.lift (run (idsTaken cfg) s {})
  let x ← Run.lift (trs (idsTaken cfg) ts d)
  let r ← runCmds cfg (Ctx.init 0) x.2.log
  Run.lift (valuesWords cfg.env.ops (modelBox cfg r.2) x.1)

/-- What `PrintModel` writes for a Boolean variable (`dreal/smt2/driver.cc:138-168`): its definition
ends with these words and a parenthesis. -/
def boolWords (iv : Itv) : List Word :=
  if iv = Itv.point 1 then [.txt "true"] else if iv = Itv.point 0 then [.txt "false"] else []

/-- A script followed by `(get-model)` (`dreal/smt2/driver.cc:202-210`): the Boolean variables of the
model with the words written for them, or `none` if the model is not available.  Simplified:
numbers are written in decimal and left out. -/
def getModelBools (cfg : CCfg) (s : List SCmd) : Run (Option (List (Variable × List Word))) := do
  let d ← Run.lift (run (idsTaken cfg) s {})
  let r ← runCmds cfg (Ctx.init 0) d.log
  let b := modelBox cfg r.2
  .ok (if b.empty then none else some
    ((b.vars.zip b.vals).filterMap fun p =>
      if p.1.type = .boolean then some (p.1, boolWords p.2) else none))

end Verif.Model.Smt2
