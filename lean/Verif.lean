import Verif.Props.Prefix
import Verif.Props.Scoped
import Verif.Props.OptionValue
import Verif.Props.Formula
import Verif.Props.Tseitin
import Verif.Props.Abstractor
import Verif.Props.Ite
import Verif.Props.Box
import Verif.Props.Eval
import Verif.Props.CondFront
import Verif.Props.Main
import Verif.Props.DrParse
import Verif.Props.DrScan
import Verif.Props.Smt2Parse
import Verif.Props.Smt2Scan
import Verif.Props.Exec
import Verif.Props.ExecOpts
import Verif.Props.Contractor
import Verif.Props.Icp
import Verif.Props.Filter
import Verif.Props.Explain
import Verif.Props.Theory
import Verif.Props.Session
import Verif.Props.Unsat
import Verif.Props.DeltaCond
import Verif.Props.DeltaSat
import Verif.Props.Strengthen
import Verif.Props.Subst
import Verif.Props.Smt2
import Verif.Props.Literal
import Verif.Props.Options
import Verif.Props.ThreadPool
import Verif.Props.Nlopt
import Verif.Props.Minimize
import Verif.Props.Forall
import Verif.Props.ForallEval
import Verif.Props.ForallUnsat
import Verif.Props.ForallSat
import Verif.Props.Cells
import Verif.Props.ExprNorm
import Verif.Props.IbexConv
import Verif.Props.Diff
import Verif.Props.Api
import Verif.Props.Optimum
import Verif.Props.Script
import Verif.Props.ScriptMin
import Verif.Props.GetValue
import Verif.Props.Refine
import Verif.Props.Dr
import Verif.Props.Evaluate
import Verif.Props.Expand
import Verif.Props.Attr
import Verif.Props.Poly
import Verif.Props.Terminate
import Verif.Props.TerminateForall
import Verif.Props.TerminateNested
import Verif.Props.TerminateMin
import Verif.Props.VarSet
import Verif.Props.CtcMt
import Verif.Props.Timer
import Verif.Props.IcpThrow
import Verif.Props.Signal
import Verif.Props.Cds
import Verif.Props.TaskPool
import Verif.Props.Worklist
