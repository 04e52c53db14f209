import Verif.Model.Main
import Verif.Model.Literal

/-!
# The grammar of SMT-LIB scripts

Models the rules of `dreal/smt2/parser.yy` on tokens.  The parser that `bison` generates from them is
not in the source; the rules have no conflicts, and the model follows them from the left.  The actions
are those of `Smt2.lean`.  Simplified: an exception that converting a literal, a sort, the name of a
logic or a bound throws is taken for an error of syntax, which also ends the reading.
-/

namespace Verif.Model.Smt2Parse
open Verif Verif.Model Verif.Model.Smt2

deriving instance DecidableEq for SRel

/-- Tokens (`dreal/smt2/parser.yy:70-94`, `dreal/smt2/scanner.ll:90-245`).  `unused` are the reserved
words that no rule of the grammar has, `other` is a character passed on that no rule has, and `raise`
is an exception of the scanner. -/
inductive Tok where
  | lp | rp | lb | rb | comma
  | tru | fls | eq | rel (o : SRel) | and | or | xor | not | implies | ite | all | let_
  | plus | minus | times | div | fn1 (f : Fn1) | fn2 (f : Fn2)
  | assert | checkSat | declareConst | declareFun | defineFun | exit | getModel | getValue
  | maximize | minimize | pop | push | setInfo | setLogic | setOption | getOption
  | dbl (w : List Char) | hex (q : ℚ) | int (z : Int)
  | sym (s : String) | key (s : String) | str (s : String)
  | unused (s : String) | other (c : Char) | raise
deriving DecidableEq

/-- What the actions call: the action of a decimal literal (`dreal/smt2/parser.yy:378-388`),
`std::stod` (`dreal/smt2/parser.yy:233,252`), and the value of a bound (`dreal/smt2/parser.yy:557-558`,
`dreal/smt2/driver.cc:273-277`).  Simplified: the value does not depend on the functions that are
defined. -/
structure Actions where
  literal : List Char → Option STerm
  stod : List Char → Option ℚ
  bound : STerm → Option EQ

/-- `INT` in a term (`dreal/smt2/parser.yy:390`, `dreal/util/math.cc:47-56`).  Integers up to `2^53`
are doubles. -/
def intTerm (z : Int) : Option STerm :=
  match convertInt64ToDouble id z with
  | .ok q => some (.num q)
  | _ => none

/-- The action of a decimal literal (`dreal/smt2/parser.yy:378-388`), see `Literal.lean`. -/
def decTerm (rangeErr : ℚ → Bool) (near : ℚ → ℚ) (w : List Char) : Option STerm :=
  match decLiteral rangeErr near w with
  | .ok (.point q) => some (.num q)
  | .ok (.range l u useLb) => (decVal w).map fun q => .dec ⟨l, u, useLb, q⟩
  | _ => none

/-- The actions with the conversions of the C++ library. -/
def Actions.of (rangeErr : ℚ → Bool) (near : ℚ → ℚ) (bound : STerm → Option EQ) : Actions where
  literal := decTerm rangeErr near
  stod := fun w => match Model.stod rangeErr near w with
    | .ok q => some q
    | _ => none
  bound := bound

/-- `ParseSort` (`dreal/smt2/sort.cc:25-39`). -/
def parseSort (s : String) : Option Srt :=
  if s = "Real" then some .real
  else if s = "Int" then some .int
  else if s = "Bool" then some .bool
  else if s = "Binary" then some .binary
  else none

/-- The rules `'(' TK term … ')'` of terms (`dreal/smt2/parser.yy:290-363,404-487`). -/
def build : Tok → List STerm → Option STerm
  | .eq, [a, b] => some (.eq a b)
  | .rel o, [a, b] => some (.rel o a b)
  | .and, t :: ts => some (.and (t :: ts))
  | .or, t :: ts => some (.or (t :: ts))
  | .xor, t :: ts => some (.xor (t :: ts))
  | .not, [t] => some (.not t)
  | .implies, [a, b] => some (.imp a b)
  | .ite, [c, a, b] => some (.ite c a b)
  | .plus, t :: ts => some (.add t ts)
  | .minus, [t] => some (.neg t)
  | .minus, t :: u :: ts => some (.sub t (u :: ts))
  | .times, t :: u :: ts => some (.mul t (u :: ts))
  | .div, t :: u :: ts => some (.div t (u :: ts))
  | .fn1 f, [t] => some (.fn1 f t)
  | .fn2 f, [a, b] => some (.fn2 f a b)
  | .sym n, t :: ts => some (.call n (t :: ts))
  | _, _ => none

/-- The bounds of a variable of `forall` (`dreal/smt2/parser.yy:549-560`).  Simplified: infinite bounds,
which no literal has, are refused. -/
def finBound : EQ → Option ℚ
  | .fin q => some q
  | _ => none

mutual
/-- `term` (`dreal/smt2/parser.yy:288-488`). -/
def term (A : Actions) : Nat → List Tok → Option (STerm × List Tok)
  | 0, _ => none
  | _ + 1, .tru :: ts => some (.tru, ts)
  | _ + 1, .fls :: ts => some (.fls, ts)
  | _ + 1, .dbl w :: ts => (A.literal w).map fun t => (t, ts)
  | _ + 1, .hex q :: ts => some (.num q, ts)
  | _ + 1, .int z :: ts => (intTerm z).map fun t => (t, ts)
  | _ + 1, .sym s :: ts => some (.sym s, ts)
  | n + 1, .lp :: .all :: .lp :: ts => do
    let (bs, ts) ← binds A n ts
    let (t, ts) ← term A n ts
    match ts with
    | .rp :: ts => some (.all bs t, ts)
    | _ => none
  | n + 1, .lp :: .let_ :: .lp :: ts => do
    let (ns, us, ts) ← lets A n ts
    let (t, ts) ← term A n ts
    match ts with
    | .rp :: ts => some (.let_ ns us t, ts)
    | _ => none
  | n + 1, .lp :: op :: ts => do
    let (us, ts) ← args A n ts
    let t ← build op us
    some (t, ts)
  | _ + 1, _ => none
/-- `term_list` (`dreal/smt2/parser.yy:284-286`) and the parenthesis after it. -/
def args (A : Actions) : Nat → List Tok → Option (List STerm × List Tok)
  | 0, _ => none
  | _ + 1, .rp :: ts => some ([], ts)
  | n + 1, ts => do
    let (t, ts) ← term A n ts
    let (us, ts) ← args A n ts
    some (t :: us, ts)
/-- `variable_sort_list` (`dreal/smt2/parser.yy:533-560`) and the parenthesis after it. -/
def binds (A : Actions) : Nat → List Tok → Option (List SBind × List Tok)
  | 0, _ => none
  | _ + 1, .rp :: ts => some ([], ts)
  | n + 1, .lp :: .sym x :: .sym s :: .rp :: ts => do
    let σ ← parseSort s
    let (bs, ts) ← binds A n ts
    some (⟨x, σ, none⟩ :: bs, ts)
  | n + 1, .lp :: .sym x :: .sym s :: .lb :: ts => do
    let σ ← parseSort s
    let (a, ts) ← term A n ts
    match ts with
    | .comma :: ts => do
      let (b, ts) ← term A n ts
      match ts with
      | .rb :: .rp :: ts => do
        let l ← (A.bound a).bind finBound
        let u ← (A.bound b).bind finBound
        let (bs, ts) ← binds A n ts
        some (⟨x, σ, some (l, u)⟩ :: bs, ts)
      | _ => none
    | _ => none
  | _ + 1, _ => none
/-- `var_binding_list` (`dreal/smt2/parser.yy:565-577`) and the parenthesis after it. -/
def lets (A : Actions) : Nat → List Tok → Option (List String × List STerm × List Tok)
  | 0, _ => none
  | _ + 1, .rp :: ts => some ([], [], ts)
  | n + 1, .lp :: .sym x :: ts => do
    let (t, ts) ← term A n ts
    match ts with
    | .rp :: ts => do
      let (ns, us, ts) ← lets A n ts
      some (x :: ns, t :: us, ts)
    | _ => none
  | _ + 1, _ => none
end

/-- `term`, with fuel for all tokens. -/
def readTerm (A : Actions) (ts : List Tok) : Option (STerm × List Tok) := term A ts.length ts

/-- `name_sort_list` (`dreal/smt2/parser.yy:519-530`) and the parenthesis after it. -/
def params : List Tok → Option (List (String × Srt) × List Tok)
  | .rp :: ts => some ([], ts)
  | .lp :: .sym x :: .sym s :: .rp :: ts => do
    let σ ← parseSort s
    let (ps, ts) ← params ts
    some ((x, σ) :: ps, ts)
  | _ => none

/-- Commands (`dreal/smt2/parser.yy:130-146`). -/
inductive PCmd where
  | core (c : SCmd)
  | setNum (key : String) (val : ℚ)
  | setStr (key val : String)
  | exit
  | info
  | logic (n : String)
  | getModel
  | getValue (ts : List STerm)
  | getOption (key : String)
  | optimise (max : Bool) (t : STerm)

/-- `parse_logic` knows the name (`dreal/smt2/logic.cc:25-60`). -/
def knownLogic (s : String) : Bool :=
  s ∈ ["ALL", "QF_LIA", "QF_LIRA", "QF_LRA", "QF_NIA", "QF_NIAT", "QF_NIRA", "QF_NIRAT", "QF_NRA",
    "QF_NRAT", "QF_RDL"]

/-- A term and the parenthesis after it. -/
def lastTerm (A : Actions) (mk : STerm → PCmd) (ts : List Tok) : Option (PCmd × List Tok) :=
  match readTerm A ts with
  | some (t, .rp :: ts) => some (mk t, ts)
  | _ => none

/-- The end of a declaration, after the sort (`dreal/smt2/parser.yy:158-172`). -/
def declared (A : Actions) (x : String) (σ : Srt) : List Tok → Option (PCmd × List Tok)
  | .rp :: ts => some (.core (.declare x σ none), ts)
  | .lb :: ts => do
    let (a, ts) ← readTerm A ts
    match ts with
    | .comma :: ts => do
      let (b, ts) ← readTerm A ts
      match ts with
      | .rb :: .rp :: ts => do
        let l ← A.bound a
        let u ← A.bound b
        some (.core (.declare x σ (some (l, u))), ts)
      | _ => none
    | _ => none
  | _ => none

/-- `INT` as the number of levels (`dreal/smt2/parser.yy:275,280`). -/
def levels (mk : Int → SCmd) (z : Int) : Option PCmd :=
  match convertInt64ToInt z with
  | .ok z => some (.core (mk z))
  | _ => none

/-- `command` (`dreal/smt2/parser.yy:130-282`). -/
def command (A : Actions) : List Tok → Option (PCmd × List Tok)
  | .lp :: .assert :: ts => lastTerm A (fun t => .core (.assert t)) ts
  | .lp :: .checkSat :: .rp :: ts => some (.core .check, ts)
  | .lp :: .declareFun :: .sym x :: .lp :: .rp :: .sym s :: ts =>
    (parseSort s).bind fun σ => declared A x σ ts
  | .lp :: .declareConst :: .sym x :: .sym s :: ts =>
    (parseSort s).bind fun σ => declared A x σ ts
  | .lp :: .defineFun :: .sym x :: .lp :: ts => do
    let (ps, ts) ← params ts
    match ts with
    | .sym s :: ts => (parseSort s).bind fun σ => lastTerm A (fun t => .core (.define x ps σ t)) ts
    | _ => none
  | .lp :: .exit :: .rp :: ts => some (.exit, ts)
  | .lp :: .getModel :: .rp :: ts => some (.getModel, ts)
  | .lp :: .getValue :: .lp :: ts =>
    match args A ts.length ts with
    | some (t :: us, .rp :: ts) => some (.getValue (t :: us), ts)
    | _ => none
  | .lp :: .maximize :: ts => lastTerm A (.optimise true) ts
  | .lp :: .minimize :: ts => lastTerm A (.optimise false) ts
  | .lp :: .setInfo :: .key _ :: .sym _ :: .rp :: ts => some (.info, ts)
  | .lp :: .setInfo :: .key _ :: .str _ :: .rp :: ts => some (.info, ts)
  | .lp :: .setInfo :: .key _ :: .dbl w :: .rp :: ts => (A.stod w).map fun _ => (.info, ts)
  | .lp :: .setLogic :: .sym s :: .rp :: ts => if knownLogic s then some (.logic s, ts) else none
  | .lp :: .setOption :: .key k :: .sym s :: .rp :: ts => some (.setStr k s, ts)
  | .lp :: .setOption :: .key k :: .dbl w :: .rp :: ts => (A.stod w).map fun q => (.setNum k q, ts)
  | .lp :: .setOption :: .key k :: .tru :: .rp :: ts => some (.setStr k "true", ts)
  | .lp :: .setOption :: .key k :: .fls :: .rp :: ts => some (.setStr k "false", ts)
  | .lp :: .getOption :: .key k :: .rp :: ts => some (.getOption k, ts)
  | .lp :: .push :: .int z :: .rp :: ts => (levels .push z).map fun c => (c, ts)
  | .lp :: .pop :: .int z :: .rp :: ts => (levels .pop z).map fun c => (c, ts)
  | _ => none

/-- `script` (`dreal/smt2/parser.yy:123-128`): the commands that are executed, and whether the script
is accepted.  `exit` accepts it at once (`dreal/smt2/parser.yy:192-195`). -/
def scriptN (A : Actions) : Nat → List Tok → List PCmd × Bool
  | 0, _ => ([], false)
  | n + 1, ts =>
    match command A ts with
    | none => ([], false)
    | some (.exit, _) => ([.exit], true)
    | some (c, []) => ([c], true)
    | some (c, ts) => (c :: (scriptN A n ts).1, (scriptN A n ts).2)

/-- `script`, with fuel for all tokens. -/
def script (A : Actions) (ts : List Tok) : List PCmd × Bool := scriptN A (ts.length + 1) ts

/-- The commands that matter for the answers (`FCmd` of `Main.lean`).  Simplified as there: commands
that only print are left out.  `SetInfo` and `SetLogic` only store their arguments
(`dreal/solver/context_impl.cc:345-364`). -/
def PCmd.toF : PCmd → Option Main.FCmd
  | .core c => some (.core c)
  | .setNum k v => some (.setNum k v)
  | .setStr k v => some (.setStr k v)
  | .exit => some .exit
  | _ => none

/-- `maximize` and `minimize` (`dreal/smt2/parser.yy:209-217`). -/
def PCmd.isObjective : PCmd → Bool
  | .optimise _ _ => true
  | _ => false

/-- The commands of a script for the program of `Main.lean`, which has no objectives: none if there are
any (for these see `ScriptMin.lean`). -/
def toFs (cs : List PCmd) : Option (List Main.FCmd) :=
  if cs.any PCmd.isObjective then none else some (cs.filterMap PCmd.toF)

end Verif.Model.Smt2Parse
