import Verif.Model.Abstractor
import Verif.Model.Scoped
import Verif.Model.Tseitin

/-!
# The SAT solver wrapper

Models `dreal/solver/sat_solver.{h,cc}`.  PicoSAT itself is external.
-/

namespace Verif.Model
open Verif

/-- What `picosat_sat` answers; `deref i` is the value of `picosat_deref` or
`picosat_deref_partial` for variable `i`: 1, -1, or 0 for "no value". -/
inductive SatRes where
  | sat (deref : Nat → Int)
  | unsat
  | unknown

/-- PicoSAT: the answer at the `n`-th call, given whether the values are read by `picosat_deref`,
the number of variables and the clauses in force. -/
abbrev Picosat := Nat → Bool → Nat → List (List Int) → SatRes

/-- The members of `SatSolver` (`dreal/solver/sat_solver.h:117-139`).  `abs` is
`predicate_abstractor_` with the global counter of variable ids; `clauses` and `maxVar` are the
state of PicoSAT; `calls` numbers the calls of `picosat_sat`.  `cnfizer_` keeps no state between
conversions. -/
structure SatState where
  abs : AbsState
  toSat : ScopedMap Nat Nat := {}
  toSym : ScopedMap Nat Variable := {}
  tseitinVars : ScopedSet Nat := {}
  clauses : ScopedVector (List Int) := {}
  maxVar : Nat := 0
  popUsed : Bool := false
  calls : Nat := 0

/-- `SatSolver::MakeSatVar` (`dreal/solver/sat_solver.cc:230-241`). -/
def makeSatVar (s : SatState) (v : Variable) : SatState :=
  match s.toSat.map v.id with
  | some _ => s
  | none => { s with maxVar := s.maxVar + 1
                     toSat := s.toSat.insert v.id (s.maxVar + 1)
                     toSym := s.toSym.insert (s.maxVar + 1) v }

/-- The literal passed to PicoSAT by `SatSolver::AddLiteral`
(`dreal/solver/sat_solver.cc:198-215`). -/
def satLit (s : SatState) : Fml → Outcome Int
  | .bvar v => if v.type = .boolean then do
      let n ← s.toSat.at? v.id
      .ok (n : Int)
    else .ub
  | .neg (.bvar v) => if v.type = .boolean then do
      let n ← s.toSat.at? v.id
      .ok (-(n : Int))
    else .ub
  | _ => .ub

/-- Adding a list of literals (`dreal/solver/sat_solver.cc:218-226`). -/
def satLits (s : SatState) : List Fml → Outcome (List Int)
  | [] => .ok []
  | f :: fs => do
    let l ← satLit s f
    let ls ← satLits s fs
    .ok (l :: ls)

/-- The literals of a clause (`dreal/solver/sat_solver.cc:218-226`). -/
def clauseLits : Fml → List Fml
  | .disj fs => fs
  | f => [f]

/-- `SatSolver::AddClause` with `DoAddClause` (`dreal/solver/sat_solver.cc:86-94,217-228`). -/
def addClause (s : SatState) (f : Fml) : Outcome SatState := do
  let s' := f.fv.foldl makeSatVar s
  let ls ← satLits s' (clauseLits f)
  .ok { s' with clauses := s'.clauses.pushBack ls }

/-- `SatSolver::AddClauses` (`dreal/solver/sat_solver.cc:80-84`). -/
def addClauses (s : SatState) : List Fml → Outcome SatState
  | [] => .ok s
  | f :: fs => do
    let s ← addClause s f
    addClauses s fs

/-- The keys of `cnfizer_.map()` after a conversion (`dreal/solver/sat_solver.cc:58-60`). -/
def tseitinKeys (next : Nat) (f : Fml) : List Nat :=
  match tsVisit f { next := next } with
  | .ok r => r.2.map.map fun p => p.1.id
  | _ => []

/-- `SatSolver::AddFormula` (`dreal/solver/sat_solver.cc:54-65`). -/
def addFormula (s : SatState) (f : Fml) : Outcome SatState := do
  let r ← tseitin s.abs.next f
  let a := absVisitList r.1 { s.abs with next := r.2 }
  addClauses { s with abs := a.2
                      tseitinVars := (tseitinKeys s.abs.next f).foldl ScopedSet.insert
                        s.tseitinVars } a.1

/-- The loop of `SatSolver::AddLearnedClause` (`dreal/solver/sat_solver.cc:74-76`). -/
def learnedLits (s : SatState) : List Fml → Outcome (List Int × SatState)
  | [] => .ok ([], s)
  | f :: fs => do
    let a := absConvert f s.abs
    let s' := { s with abs := a.2 }
    let l ← satLit s' (notF a.1)
    let r ← learnedLits s' fs
    .ok (l :: r.1, r.2)

/-- `SatSolver::AddLearnedClause` (`dreal/solver/sat_solver.cc:73-78`). -/
def addLearned (s : SatState) (fs : List Fml) : Outcome SatState := do
  let r ← learnedLits s fs
  .ok { r.2 with clauses := r.2.clauses.pushBack r.1 }

/-- A Boolean model and a theory model (`dreal/solver/sat_solver.h:37-40`). -/
structure SatModel where
  bool : List (Variable × Bool) := []
  theory : List (Variable × Bool) := []

/-- The loop over the PicoSAT variables (`dreal/solver/sat_solver.cc:134-167`); the argument lists
the variables left. -/
def readModel (s : SatState) (deref : Nat → Int) : List Nat → SatModel
  | [] => {}
  | i :: is =>
    let m := readModel s deref is
    if deref i = 0 then m
    else match s.toSym.map i with
      | none => m
      | some v =>
        if s.abs.table.any fun p => decide (p.1 = v) then
          { m with theory := (v, decide (deref i = 1)) :: m.theory }
        else if s.tseitinVars.set v.id then m
        else { m with bool := (v, decide (deref i = 1)) :: m.bool }

/-- `SatSolver::CheckSat` (`dreal/solver/sat_solver.cc:120-179`). -/
def satCheck (ps : Picosat) (s : SatState) : Outcome (Option SatModel × SatState) :=
  let s' := { s with calls := s.calls + 1 }
  match ps s.calls s.popUsed s.maxVar s.clauses.vec with
  | .sat deref => .ok (some (readModel s deref ((List.range s.maxVar).map (· + 1))), s')
  | .unsat => .ok (none, s')
  | .unknown => .throw

/-- `SatSolver::Pop` (`dreal/solver/sat_solver.cc:181-188`). -/
def satPop (s : SatState) : Outcome SatState := do
  let ts ← s.tseitinVars.pop
  let sym ← s.toSym.pop
  let sat ← s.toSat.pop
  let cl ← s.clauses.pop
  .ok { s with tseitinVars := ts, toSym := sym, toSat := sat, clauses := cl.1, popUsed := true }

/-- `SatSolver::Push` (`dreal/solver/sat_solver.cc:190-196`).  PicoSAT takes a variable of its own
for every scope.  Simplified: it never reuses one. -/
def satPush (s : SatState) : SatState :=
  { s with clauses := s.clauses.push, maxVar := s.maxVar + 1, toSat := s.toSat.push
           toSym := s.toSym.push, tseitinVars := s.tseitinVars.push }

/-- `SatSolver::theory_literal` (`dreal/solver/sat_solver.h:87-89`); the abstractor's
`operator[]` is `var_to_formula_map_.at` (`dreal/util/predicate_abstractor.h:49-51`). -/
def theoryLit (s : SatState) (v : Variable) : Outcome Fml :=
  match s.abs.table.find? fun p => decide (p.1 = v) with
  | some p => .ok p.2
  | none => .throw

end Verif.Model
