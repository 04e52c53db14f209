import Verif.Model.ScriptMin
import Verif.Model.Smt2Scan

/-!
# Executing the commands of an SMT-LIB file one by one

The parser executes every command when it has been read (`dreal/smt2/parser.yy:123-146`), so what a
command prints is printed before the next command is looked at.  `Main.lean` and `Script.lean` collect the
calls on the context first and lose what was printed before an exception; here nothing is collected,
and objectives (`dreal/smt2/parser.yy:209-217`) are executed like the other commands.
-/

namespace Verif.Model.Exec
open Verif Verif.Model Verif.Model.Smt2 Verif.Model.Smt2Parse

/-- The driver between two commands (`dreal/smt2/driver.h:174-187`): its names and the counter of ids
(`drv`, whose log is not used between commands), the options, and its context. -/
structure XState where
  drv : Drv := {}
  opts : Opts
  ctx : Ctx := Ctx.init 0

/-- Calls on the context made by one command. -/
def XState.calls (mk : Opts → CCfg) (st : XState) (d : Drv) : Run (List Main.Line × XState) := do
  let r ← runCmds (mk st.opts) st.ctx d.log
  .ok (r.1.map (Main.smt2Line st.opts), { st with drv := d, ctx := r.2 })

/-- New options; an exception for a rejected value (`dreal/solver/context_impl.cc:366-419`). -/
def XState.set (st : XState) (r : Opts × Bool) : Run (List Main.Line × XState) :=
  if r.2 then .throw else .ok ([], { st with opts := r.1 })

/-- One command (`dreal/smt2/parser.yy:130-282`): the answers printed, and the driver afterwards.
Simplified: the commands `get-model`, `get-value`, `get-option`, `set-info` and `set-logic` change
nothing, and what they print is left out (see `GetValue.lean` and `Options.lean`). -/
def stepP (fmt : ℚ → String) (mk : Opts → CCfg) (st : XState) : PCmd → Run (List Main.Line × XState)
  | .core c => do
    let d ← Run.lift (step (idsTakenFrom (mk st.opts) st.ctx) { st.drv with log := [] } c)
    st.calls mk d
  | .setNum k v => st.set (st.opts.setNum fmt k v)
  | .setStr k v => st.set (st.opts.setStr k v)
  | .optimise max t => do
    let x ← Run.lift (tr (idsTakenFrom (mk st.opts) st.ctx) t { st.drv with log := [] })
    match x.1 with
    | .fml _ => .throw
    | .expr e => do
      let r ← st.calls mk x.2
      let c ← optimise (mk st.opts) max r.2.ctx e
      .ok (r.1, { r.2 with drv := { x.2 with next := c.sat.abs.next }, ctx := c })
  | .exit | .info | .logic _ | .getModel | .getValue _ | .getOption _ => .ok ([], st)

/-- The commands of a file (`dreal/smt2/parser.yy:123-146,192-195`): the answers printed, and how the
execution ended. -/
def exec (fmt : ℚ → String) (mk : Opts → CCfg) : List PCmd → XState → List Main.Line × Run Unit
  | [], _ => ([], .ok ())
  | .exit :: _, _ => ([], .ok ())
  | c :: cs, st =>
    match stepP fmt mk st c with
    | .ok r => (r.1 ++ (exec fmt mk cs r.2).1, (exec fmt mk cs r.2).2)
    | .throw => ([], .throw)
    | .ub => ([], .ub)
    | .oof => ([], .oof)

/-- The program on the text of an SMT-LIB file (`dreal/smt2/run.cc:25-37`), with the options of the
command line. -/
def execText (hexVal : List Char → Option ℚ) (A : Actions) (fmt : ℚ → String) (mk : Opts → CCfg)
    (o : Opts) (text : String) : List Main.Line × Run Unit :=
  exec fmt mk (Smt2Scan.readScript hexVal A text).1 { opts := o }

/-- The program as in `Main.lean` (`dreal/dreal_main.cc:420-462,473-477`), with what is printed before an
exception: the lines, and the status it exits with if it does. -/
def programX (hexVal : List Char → Option ℚ) (A : Actions) (dr : String → Option Dr.DProb)
    (fmt : ℚ → String) (mk : Opts → CCfg) (w : Main.World) (cl : Main.CmdLine) :
    List Main.Line × Run Nat :=
  match Main.task w cl with
  | .done n => ([], .ok n)
  | .smt2 file =>
    match w.read file with
    | none => ([], .ok 0)
    | some text =>
      let r := execText hexVal A fmt mk cl.extract text
      (r.1, Run.bind r.2 fun _ => .ok 0)
  | .dr file =>
    match (w.read file).bind dr with
    | none => ([], .ok 0)
    | some p =>
      match Dr.solve (mk cl.extract) p with
      | .ok r => ([Main.drLine cl.extract r], .ok 0)
      | .throw => ([], .throw)
      | .ub => ([], .ub)
      | .oof => ([], .oof)

end Verif.Model.Exec
