import Verif.Model.Dr
import Verif.Model.Options
import Verif.Model.Script

/-!
# The program

Models `dreal/dreal_main.cc`, `dreal/smt2/run.cc`, `dreal/dr/run.cc`, `dreal/util/filesystem.cc` and
what the drivers print for a check.  Parameters: how a text is read as commands (the generated
scanners and parsers), how numbers are printed, and the solver for given options.  Not modelled: the
options that are not in `Opts` (verbosity, tracing, jobs, NLopt, phase, seed, dumps).
-/

namespace Verif.Model.Main
open Verif Verif.Model Verif.Model.Smt2

/-- `--format` (`dreal/dreal_main.cc:116-123`). -/
inductive Format where
  | auto | dr | smt2
deriving DecidableEq, Repr

/-- What `ezOptionParser` makes of the command line (`dreal/dreal_main.cc:51-55,63-229`): arguments
that belong to no option, before, among and after the options, without the name of the program;
whether the numbers and kinds of the arguments of options are right; and the options. -/
structure CmdLine where
  first : List String := []
  unknown : List String := []
  last : List String := []
  parsed : Bool := true
  version : Bool := false
  help : Bool := false
  fromIn : Bool := false
  format : Format := .auto
  precision : Option ℚ := none
  flag : BoolOpt → Bool := fun _ => false

/-- `args_` (`dreal/dreal_main.cc:258-261`). -/
def CmdLine.args (cl : CmdLine) : List String :=
  if cl.parsed then cl.first ++ cl.unknown ++ cl.last else []

/-- `ValidateOptions` (`dreal/dreal_main.cc:231-271`). -/
def CmdLine.validate (cl : CmdLine) : Bool :=
  if !cl.parsed then false
  else if cl.version then true
  else if cl.help || (cl.args.isEmpty && !cl.fromIn) || decide (1 < cl.args.length) then false
  else true

/-- `ExtractOptions` (`dreal/dreal_main.cc:273-418`). -/
def CmdLine.extract (cl : CmdLine) : Opts where
  option := fun _ => none
  precision := match cl.precision with
    | some p => Opts.init.precision.setFromCommandLine p
    | none => Opts.init.precision
  flag := fun b =>
    if cl.flag b then (Opts.init.flag b).setFromCommandLine true else Opts.init.flag b

/-- `get_extension` (`dreal/util/filesystem.cc:30-38`). -/
def extension (name : String) : String :=
  if '.' ∈ name.toList then String.ofList (name.toList.reverse.takeWhile (· ≠ '.')).reverse else ""

/-- The files that exist, and the standard input.  Simplified: exactly regular files can be opened
(`dreal/util/filesystem.cc:22-28`, `dreal/smt2/driver.cc:95-98`). -/
structure World where
  files : String → Option String
  stdin : String

/-- What `Run` decides to do (`dreal/dreal_main.cc:420-462`). -/
inductive Task where
  | done (status : Nat)
  | smt2 (file : String)
  | dr (file : String)
deriving DecidableEq, Repr

/-- `Run` (`dreal/dreal_main.cc:420-462`) up to the calls of `RunSmt2` and `RunDr`. -/
def task (w : World) (cl : CmdLine) : Task :=
  if cl.version then .done 0
  else if cl.help then .done 0
  else if !cl.validate then .done 1
  else
    let file := cl.args.headD ""
    if !cl.args.isEmpty && file = "" then .done 1
    else if !cl.fromIn && (w.files file).isNone then .done 1
    else if cl.format = .smt2 ∨ (cl.format = .auto ∧ (extension file = "smt2" ∨ cl.fromIn)) then
      .smt2 file
    else if cl.format = .dr ∨ (cl.format = .auto ∧ extension file = "dr") then .dr file
    else .done 1

/-- `parse_file` (`dreal/smt2/driver.cc:90-100`, `dreal/dr/driver.cc:53-63`): the text read. -/
def World.read (w : World) (file : String) : Option String :=
  if file = "" then some w.stdin else w.files file

/-- An answer on the standard output. -/
inductive Line where
  | unsat
  | deltaSat (δ : Option ℚ) (model : Option Box)
deriving DecidableEq

/-- `Smt2Driver::CheckSat` (`dreal/smt2/driver.cc:113-130`). -/
def smt2Line (o : Opts) : Option Box → Line
  | none => .unsat
  | some m =>
    if (o.flag .smtlib2Compliant).get then .deltaSat none none
    else .deltaSat (some o.precision.get) (if (o.flag .produceModels).get then some m else none)

/-- `DrDriver::Solve` (`dreal/dr/driver.cc:99-122`).  Simplified: the value printed for the costs is
left out. -/
def drLine (o : Opts) : Option Box → Line
  | none => .unsat
  | some m => .deltaSat (some o.precision.get)
      (if (o.flag .produceModels).get then some m else none)

/-- The commands of a file (`dreal/smt2/parser.yy:130-146`): options, `exit`, and those of
`Smt2.lean`.  Simplified: commands that only print, and `minimize`, are left out. -/
inductive FCmd where
  | setNum (key : String) (val : ℚ)
  | setStr (key val : String)
  | core (c : SCmd)
  | exit

/-- The driver while it reads a file.  `sched i` are the options in force at the call on the context
with number `i`; from the length of the log on they are the present ones. -/
structure FState where
  drv : Drv := {}
  sched : Nat → Opts

/-- The options are changed (`dreal/solver/context_impl.cc:366-419`); an exception ends the
program. -/
def FState.set (st : FState) (r : Opts × Bool) : Outcome FState :=
  if r.2 then .throw
  else .ok { st with sched := fun i => if i < st.drv.log.length then st.sched i else r.1 }

/-- Calls on a context, each with the options in force at its time (the solver keeps a reference to
the configuration, `dreal/solver/theory_solver.h:61`): what is printed, and the context afterwards. -/
def runAt (mk : Opts → CCfg) (sched : Nat → Opts) : Nat → Ctx → List Cmd → Run (List Line × Ctx)
  | _, c, [] => .ok ([], c)
  | i, c, cmd :: cmds => do
    let r ← stepCmd (mk (sched i)) c cmd
    let q ← runAt mk sched (i + 1) r.2 cmds
    .ok (r.1.map (smt2Line (sched i)) ++ q.1, q.2)

/-- As `nextAfter` and `idsTaken` of `Script.lean`. -/
def nextAt (mk : Opts → CCfg) (sched : Nat → Opts) (l : List Cmd) : Nat :=
  match runAt mk sched 0 (Ctx.init 0) l with
  | .ok r => r.2.sat.abs.next
  | _ => 0
def idsAt (mk : Opts → CCfg) (sched : Nat → Opts) (l : List Cmd) : Nat :=
  nextAt mk sched l - nextAt mk sched l.dropLast

/-- The commands of a file (`dreal/smt2/parser.yy:123-146,192-195,243-264`). -/
def runF (fmt : ℚ → String) (mk : Opts → CCfg) : List FCmd → FState → Outcome FState
  | [], st => .ok st
  | .exit :: _, st => .ok st
  | .setNum k v :: cs, st => do
    let st ← st.set ((st.sched st.drv.log.length).setNum fmt k v)
    runF fmt mk cs st
  | .setStr k v :: cs, st => do
    let st ← st.set ((st.sched st.drv.log.length).setStr k v)
    runF fmt mk cs st
  | .core c :: cs, st => do
    let d ← step (idsAt mk st.sched) st.drv c
    runF fmt mk cs { st with drv := d }

/-- What is printed for a file.  Simplified as in `solve` of `Script.lean`: an exception leaves
nothing, while the code has printed the answers before it. -/
def answers (fmt : ℚ → String) (mk : Opts → CCfg) (o : Opts) (cs : List FCmd) : Run (List Line) := do
  let st ← Run.lift (runF fmt mk cs { sched := fun _ => o })
  let r ← runAt mk st.sched 0 (Ctx.init 0) st.drv.log
  .ok r.1

/-- How texts are read: for SMT-LIB the commands before the end or the first error, which have been
executed when the error is met; for the `dr` format a problem unless there is an error. -/
structure Readers where
  smt2 : String → List FCmd
  dr : String → Option Dr.DProb

/-- The program (`dreal/dreal_main.cc:420-462,473-477`): the status it exits with and what it prints.
`RunSmt2` and `RunDr` do not look at the result of `parse_file` (`dreal/smt2/run.cc:25-37`,
`dreal/dr/run.cc:25-35`). -/
def program (rd : Readers) (fmt : ℚ → String) (mk : Opts → CCfg) (w : World) (cl : CmdLine) :
    Run (Nat × List Line) :=
  match task w cl with
  | .done n => .ok (n, [])
  | .smt2 file =>
    match w.read file with
    | none => .ok (0, [])
    | some text => do
      let ls ← answers fmt mk cl.extract (rd.smt2 text)
      .ok (0, ls)
  | .dr file =>
    match (w.read file).bind rd.dr with
    | none => .ok (0, [])
    | some p => do
      let r ← Dr.solve (mk cl.extract) p
      .ok (0, [drLine cl.extract r])

end Verif.Model.Main
