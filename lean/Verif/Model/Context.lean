import Verif.Model.Ite
import Verif.Model.Sat
import Verif.Model.Theory

/-!
# The solver context

Models `dreal/solver/context_impl.{h,cc}` (without `Minimize` and the options, which have files of
their own).
-/

namespace Verif.Model
open Verif

/-- What a context is run with: the configuration of the theory solver and its environment,
PicoSAT, the bound on the number of rounds of the main loop, the rounding of doubles, and whether
`IntervalVector::set_empty` of IBEX overwrites all components or only the first. -/
structure CCfg where
  env : Env
  th : TCfg
  ps : Picosat
  rounds : Nat
  rnd : ℚ → ℚ := id
  wipe : Bool := false

/-- The members of `Context::Impl` (`dreal/solver/context_impl.h:86-101`).  `cache` and `tick` are
the state of `theory_solver_`; the global counter of variable ids is `sat.abs.next`. -/
structure Ctx where
  boxes : ScopedVector Box
  stack : ScopedVector Fml
  sat : SatState
  modelVars : List Nat
  cache : Cache
  tick : Nat
  model : Box

/-- The constructor (`dreal/solver/context_impl.cc:91-96`); `next` is the value of the counter of
variable ids. -/
def Ctx.init (next : Nat) : Ctx :=
  { boxes := { vec := [⟨[], [], false⟩] }, stack := {}, sat := { abs := { next := next } }
    modelVars := [], cache := [], tick := 0, model := ⟨[], [], false⟩ }

/-- The current box, `boxes_.last()` (`dreal/solver/context_impl.h:57`). -/
def Ctx.box (c : Ctx) : Box := c.boxes.vec.getLastD ⟨[], [], false⟩

/-- Replace the current box. -/
def Ctx.setBox (c : Ctx) (b : Box) : Ctx :=
  { c with boxes := { c.boxes with vec := c.boxes.vec.dropLast ++ [b] } }

/-- `Box::set_empty` on the box of a context (`dreal/util/box.cc:117`).  IBEX keeps no flag: a
vector is empty when its first component is; this matters where components of an empty vector
are written later, and only in this file. -/
def wipeBox (cfg : CCfg) (b : Box) : Box :=
  { b with vals := if cfg.wipe then b.vals.map fun _ => Itv.empty else b.vals.set 0 Itv.empty
           bot := true }

/-- `AddToBox` (`dreal/solver/context_impl.cc:222-231`) with `Box::Add`
(`dreal/util/box.cc:66-97`).  The first variable takes over the component of the box without
variables (`dreal/util/box.cc:46-50`): the component stays as it is, possibly empty, for a
continuous variable and is overwritten for the other types. -/
def addToBox (b : Box) (v : Variable) : Box :=
  if v ∈ b.vars then b
  else if b.vars = [] ∧ b.bot = true then
    if v.type = .continuous then ⟨[v], [Itv.empty], true⟩ else ⟨[v], [Box.initItv v.type], false⟩
  else { b with vars := b.vars ++ [v], vals := b.vals ++ [Box.initItv v.type] }

/-- `DeclareVariable` (`dreal/solver/context_impl.cc:233-240`). -/
def declare (c : Ctx) (v : Variable) (isModel : Bool) : Ctx :=
  let c' := c.setBox (addToBox c.box v)
  if isModel then
    { c' with modelVars := if v.id ∈ c.modelVars then c.modelVars else v.id :: c.modelVars }
  else c'

/-- `Box::Interval{lb, ub}`: IBEX makes it the empty interval unless `lb ≤ ub` and it contains a
real. -/
def mkItv (lb ub : EQ) : Itv :=
  if (Itv.mk lb ub).isEmpty || decide (lb = .pinf) || decide (ub = .ninf) then Itv.empty
  else ⟨lb, ub⟩

/-- `SetInterval` (`dreal/solver/context_impl.cc:355-359`).  Simplified: an undeclared variable is
an error here; what the code does then is in `BoxHeap.lean`. -/
def setInterval (c : Ctx) (v : Variable) (lb ub : EQ) : Outcome Ctx :=
  if v ∈ c.box.vars then
    let b := c.box.setV v (mkItv lb ub)
    .ok (c.setBox { b with bot := if c.box.index v = 0 then (mkItv lb ub).isEmpty else b.bot })
  else .ub

/-- `Assert` (`dreal/solver/context_impl.cc:98-125`). -/
def assertF (cfg : CCfg) (c : Ctx) (f : Fml) : Outcome Ctx :=
  if f = .tt then .ok c
  else if c.box.empty then .ok c
  else if f = .ff then .ok (c.setBox (wipeBox cfg c.box))
  else do
    let r ← Filter.filter cfg.th.dbl f c.box
    let c1 := c.setBox (if r.2.bot then wipeBox cfg r.2 else r.2)
    match r.1 with
    | .notFiltered => do
      let p := iteProcess c1.sat.abs.next f
      let c2 := c1.setBox (p.2.1.foldl addToBox c1.box)
      let s ← addFormula { c2.sat with abs := { c2.sat.abs with next := p.2.2 } } p.1
      .ok { c2 with stack := c2.stack.pushBack p.1, sat := s }
    | _ => .ok c1

/-- Writing the Boolean model (`dreal/solver/context_impl.cc:159-161`). -/
def writeBools (b : Box) : List (Variable × Bool) → Box
  | [] => b
  | p :: ps => writeBools (b.setV p.1 (Itv.point (if p.2 then 1 else 0))) ps

/-- The assertions of the theory model (`dreal/solver/context_impl.cc:167-172`). -/
def theoryLits (s : SatState) : List (Variable × Bool) → Outcome (List Fml)
  | [] => .ok []
  | p :: ps => do
    let f ← theoryLit s p.1
    let fs ← theoryLits s ps
    .ok ((if p.2 then f else notF f) :: fs)

/-- The loop of `CheckSatCore` (`dreal/solver/context_impl.cc:146-205`).  `box` is the local box;
the SAT solver, the cache and the counter of nested solver uses are threaded through. -/
def checkLoop (cfg : CCfg) : Nat → Box → SatState → Cache → Nat →
    Run (Option Box × SatState × Cache × Nat)
  | 0, _, _, _, _ => .oof
  | n + 1, box, s, cache, tick => do
    let r ← Run.lift (satCheck cfg.ps s)
    match r.1 with
    | none => .ok (none, r.2, cache, tick)
    | some m =>
      let box := writeBools box m.bool
      if m.theory.isEmpty then .ok (some box, r.2, cache, tick)
      else do
        let fs ← Run.lift (theoryLits r.2 m.theory)
        let t ← theoryCheck cfg.env cfg.th cache tick box fs
        match t.1 with
        | .sat b => .ok (some b, r.2, t.2.1, t.2.2)
        | .unsat e => do
          let s' ← Run.lift (addLearned r.2 e)
          checkLoop cfg n box s' t.2.1 t.2.2

/-- `CheckSatCore` (`dreal/solver/context_impl.cc:127-206`). -/
def checkCore (cfg : CCfg) (c : Ctx) : Run (Option Box × SatState × Cache × Nat) :=
  if c.box.empty then .ok (none, c.sat, c.cache, c.tick)
  else if c.stack.vec.any fun f => decide (f = .ff) then .ok (none, c.sat, c.cache, c.tick)
  else if c.stack.vec = [] ∨ c.stack.vec = [.tt] then .ok (some c.box, c.sat, c.cache, c.tick)
  else checkLoop cfg cfg.rounds c.box c.sat c.cache c.tick

/-- Conversion of a double to `int`; outside the range of `int` it is undefined. -/
def toInt (q : ℚ) : Outcome Int :=
  let n := if 0 ≤ q then ⌊q⌋ else ⌈q⌉
  if -2147483648 ≤ n ∧ n ≤ 2147483647 then .ok n else .ub

/-- One dimension of `Tighten` (`dreal/solver/context_impl.cc:54-73`). -/
def tighten1 (fp : Fp) (rnd : ℚ → ℚ) (δ : ℚ) (t : VType) (iv : Itv) : Outcome Itv :=
  if .fin δ < fp.diam iv then
    match t with
    | .binary | .boolean => .ok (Itv.point 1)
    | .continuous =>
      .ok (iv.inter ⟨.fin (rnd (fp.mid iv - δ / 2)), .fin (rnd (fp.mid iv + δ / 2))⟩)
    | .integer => do
      let n ← toInt (fp.mid iv)
      .ok (Itv.point n)
  else .ok iv

/-- The loop of `Tighten` over the dimensions (`dreal/solver/context_impl.cc:53-74`). -/
def tightenAll (fp : Fp) (rnd : ℚ → ℚ) (δ : ℚ) : List Variable → List Itv → Outcome (List Itv)
  | v :: vs, iv :: ivs => do
    let i ← tighten1 fp rnd δ v.type iv
    let is ← tightenAll fp rnd δ vs ivs
    .ok (i :: is)
  | _, ivs => .ok ivs

/-- `Tighten` (`dreal/solver/context_impl.cc:52-75`). -/
def tighten (fp : Fp) (rnd : ℚ → ℚ) (δ : ℚ) (b : Box) : Outcome Box := do
  let vals ← tightenAll fp rnd δ b.vars b.vals
  .ok { b with vals := vals }

/-- The loop of `ExtractModel` (`dreal/solver/context_impl.cc:427-431`). -/
def extractLoop (modelVars : List Nat) (b : Box) : List Variable → Box → Outcome Box
  | [], new => .ok new
  | v :: vs, new =>
    if v.id ∈ modelVars then do
      let new' ← new.addItv v (b.getV v).lb (b.getV v).ub
      extractLoop modelVars b vs new'
    else extractLoop modelVars b vs new

/-- `ExtractModel` (`dreal/solver/context_impl.cc:421-433`). -/
def extractModel (modelVars : List Nat) (b : Box) : Outcome Box :=
  if modelVars.length = b.size then .ok b
  else extractLoop modelVars b b.vars ⟨[], [], false⟩

/-- `CheckSat` (`dreal/solver/context_impl.cc:208-220`). -/
def checkSat (cfg : CCfg) (c : Ctx) : Run (Option Box × Ctx) := do
  let r ← checkCore cfg c
  let c' := { c with sat := r.2.1, cache := r.2.2.1, tick := r.2.2.2 }
  match r.1 with
  | some b => do
    let t ← Run.lift (tighten cfg.env.fp cfg.rnd cfg.env.delta b)
    let m ← Run.lift (extractModel c.modelVars t)
    .ok (some m, { c' with model := m })
  | none => .ok (none, { c' with model := c'.model.setEmpty })

/-- `Push` (`dreal/solver/context_impl.cc:337-343`). -/
def ctxPush (c : Ctx) : Ctx :=
  { c with sat := satPush c.sat, boxes := c.boxes.push.pushBack c.box, stack := c.stack.push }

/-- `Pop` (`dreal/solver/context_impl.cc:330-335`). -/
def ctxPop (c : Ctx) : Outcome Ctx := do
  let st ← c.stack.pop
  let bs ← c.boxes.pop
  let s ← satPop c.sat
  .ok { c with stack := st.1, boxes := bs.1, sat := s }

end Verif.Model
