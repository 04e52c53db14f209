import Verif.Model.Theory
import Verif.Spec.Filter
import Mathlib.Data.Finset.Card

/-!
# When the search ends
-/

namespace Verif.Spec
open Verif Verif.Model

/-- The bounds of the box are in `G` (the doubles, say), unless it is empty. -/
def Bounded (G : Finset EQ) (b : Box) : Prop :=
  b.bot = false → ∀ iv ∈ b.vals, iv.lb ∈ G ∧ iv.ub ∈ G

/-- `a` is empty, or it has the variables of `b` and its bounds lie between those of `b`. -/
def Inside (a b : Box) : Prop :=
  a.bot = false → b.bot = false ∧ a.vars = b.vars ∧ a.vals.length = b.vals.length ∧
    ∀ i, (b.get i).lb ≤ (a.get i).lb ∧ (a.get i).ub ≤ (b.get i).ub

/-- The component `i` of the box is in the range of `int`. -/
def IntSized (b : Box) (i : Nat) : Prop :=
  EQ.fin (-2147483648) ≤ (b.get i).lb ∧ (b.get i).ub ≤ EQ.fin 2147483647

/-- Position `i` is that of an integer variable. -/
def IntAt (vs : List Variable) (i : Nat) : Prop :=
  ∃ v, vs[i]? = some v ∧ (v.type = .integer ∨ v.type = .binary)

/-- The intervals of integer variables are in the range of `int`. -/
def IntsSized (b : Box) : Prop := b.bot = false → ∀ i, IntAt b.vars i → IntSized b i

/-- A box over `vs` that the search may hand to the contractor or the evaluator of a quantified
formula: it is not empty, its bounds are in `G`, and those of integer variables in the range of
`int`. -/
structure Apt (G : Finset EQ) (vs : List Variable) (b : Box) : Prop where
  live : b.bot = false
  vars : b.vars = vs
  wf : BoxWf b
  grid : Bounded G b
  ints : IntsSized b

/-- The evaluation of the quantified ones of the formulas `fs` ends, in boxes over `vs` as the search
hands them over. -/
def EvalEnds (G : Finset EQ) (env : Env) (vs : List Variable) (fs : List Fml) : Prop :=
  ∀ n, ∀ f ∈ fs, f.isAll = true → ∀ b, Apt G vs b → env.evalAll n f b ≠ .oof

/-- What is assumed of the external operators: there are finitely many bounds, that is doubles; the
operators only shrink boxes; the fixpoint computation ends when nothing changes; the forall
contractor made for the variables `vs` ends in boxes over `vs`, and reports no change of a component
if there is none. -/
structure GridOps (G : Finset EQ) (ib : Ibex) : Prop where
  ninf : EQ.ninf ∈ G
  pinf : EQ.pinf ∈ G
  ceil : ∀ a ∈ G, a.ceil ∈ G
  floor : ∀ a ∈ G, a.floor ∈ G
  bwd : ∀ c b, Bounded G b → Bounded G (ib.bwd c b).2 ∧ Inside (ib.bwd c b).2 b
  poly : ∀ cs b, Bounded G b → Bounded G (ib.poly cs b) ∧ Inside (ib.poly cs b) b
  term : ∀ v, ib.term v v = true
  forallEnds : ∀ n vs f b, Apt G vs b → ib.forallC n vs f b ≠ .oof
  forallGrid : ∀ n vs f b b' out, Apt G vs b → ib.forallC n vs f b = .ok (b', out) →
    Bounded G b' ∧ Inside b' b ∧ (b'.bot = false → b'.vals = b.vals → out = [])

mutual
/-- A contractor that a work list may have: there is no join in it, and integer variables are among
`R`. -/
def Quiet (R : Nat → Prop) : Ctc → Prop
  | .id => True
  | .integer idxs => ∀ i ∈ idxs, R i
  | .seq cs => QuietAll R cs
  | .join _ => False
  | .fixpoint cs => QuietAll R cs
  | .worklist cs => QuietAll R cs
  | .fwdbwd .. => True
  | .polytope .. => True
  | .forallC .. => True
/-- See `Quiet`. -/
def QuietAll (R : Nat → Prop) : List Ctc → Prop
  | [] => True
  | c :: cs => Quiet R c ∧ QuietAll R cs
end

mutual
/-- The work lists in a contractor have contractors that they may have. -/
def WlOk (R : Nat → Prop) : Ctc → Prop
  | .id => True
  | .integer _ => True
  | .seq cs => WlOkAll R cs
  | .join cs => WlOkAll R cs
  | .fixpoint cs => WlOkAll R cs
  | .worklist cs => QuietAll R cs
  | .fwdbwd .. => True
  | .polytope .. => True
  | .forallC .. => True
/-- See `WlOk`. -/
def WlOkAll (R : Nat → Prop) : List Ctc → Prop
  | [] => True
  | c :: cs => WlOk R c ∧ WlOkAll R cs
end

mutual
/-- The forall contractors in a contractor were made for the variables `vs`. -/
def OverVars (vs : List Variable) : Ctc → Prop
  | .seq cs => OverVarsAll vs cs
  | .join cs => OverVarsAll vs cs
  | .fixpoint cs => OverVarsAll vs cs
  | .worklist cs => OverVarsAll vs cs
  | .forallC ws _ => ws = vs
  | _ => True
/-- See `OverVars`. -/
def OverVarsAll (vs : List Variable) : List Ctc → Prop
  | [] => True
  | c :: cs => OverVars vs c ∧ OverVarsAll vs cs
end

mutual
/-- The number of contractors in the longest work list. -/
def fan : Ctc → Nat
  | .id => 0
  | .integer _ => 0
  | .seq cs => fanAll cs
  | .join cs => fanAll cs
  | .fixpoint cs => fanAll cs
  | .worklist cs => max cs.length (fanAll cs)
  | .fwdbwd .. => 0
  | .polytope .. => 0
  | .forallC .. => 0
/-- See `fan`. -/
def fanAll : List Ctc → Nat
  | [] => 0
  | c :: cs => max (fan c) (fanAll cs)
end

/-- What is assumed of the brancher: its halves lie in the box, have bounds in `G` and are not the
whole box. -/
def BranchGrid (G : Finset EQ) (br : Box → List Nat → Outcome (Option (Nat × Box × Box))) : Prop :=
  ∀ b cand i b1 b2, b.bot = false → b.vals.length = b.vars.length → Bounded G b → IntsSized b →
    br b cand = .ok (some (i, b1, b2)) →
    (b1.bot = false ∧ Bounded G b1 ∧ Inside b1 b ∧ b1.vals ≠ b.vals) ∧
      b2.bot = false ∧ Bounded G b2 ∧ Inside b2 b ∧ b2.vals ≠ b.vals

/-- The split points of intervals with bounds in `G` are in `G` (of integer intervals: if these are
in the range of `int`), and inside. -/
structure FpGrid (G : Finset EQ) (fp : Fp) : Prop where
  cut : ∀ i : Itv, i.lb ∈ G → i.ub ∈ G → fp.bisectable i = true →
    EQ.fin (fp.cut i) ∈ G ∧ i.lb < .fin (fp.cut i) ∧ .fin (fp.cut i) < i.ub
  mid : ∀ i : Itv, i.lb ∈ G → i.ub ∈ G → fp.bisectable i = true → EQ.fin (-2147483648) ≤ i.lb →
    i.ub ≤ EQ.fin 2147483647 →
    EQ.fin (⌊fp.mid i⌋ : ℤ) ∈ G ∧ EQ.fin ((⌊fp.mid i⌋ : ℤ) + 1) ∈ G

/-- The number of a literal that is a bound, and the double after it, are in `G`. -/
def LitGrid (G : Finset EQ) (d : Dbl) (f : Fml) : Prop :=
  ∀ v op lo hi ex, asBound f = some (v, op, lo, hi, ex) → EQ.fin lo ∈ G ∧ EQ.fin hi ∈ G ∧
    EQ.fin (d.nextafter lo d.maxv) ∈ G ∧ EQ.fin (d.nextafter hi d.minv) ∈ G

/-- The cache of contractors has what was put there, and the contractors of quantified formulas were
made for the variables `vs`. -/
def CacheMade (vs : List Variable) (cache : Cache) : Prop :=
  ∀ p ∈ cache, ∃ b, litCtc p.1 b = .ok p.2 ∧ (p.1.isAll = true → b.vars = vs)

/-- A strict bound of an integer variable.  The check of a literal of this form gives it to the
contractors even if it leaves nothing of the box. -/
def IntStrict (f : Fml) : Prop :=
  ∃ v op lo hi ex, asBound f = some (v, op, lo, hi, ex) ∧ (op = .gt ∨ op = .lt) ∧
    (v.type = .integer ∨ v.type = .binary)

/-- The number of rounds that a fixpoint of `m` contractors on boxes of `n` variables can make. -/
def pruneBound (G : Finset EQ) (n m : Nat) : Nat := (2 * G.card * n + 1) * (m + 1)

/-- The number of boxes that a search in a box of `n` variables can look at. -/
def searchBound (G : Finset EQ) (n : Nat) : Nat := 2 ^ (2 * G.card * n + 1)

/-- In the schedule every one of the workers has at least `k` turns, one in every part. -/
def Turns (jobs k : Nat) (sched : List Nat) : Prop :=
  ∃ parts : List (List Nat), k ≤ parts.length ∧ (∀ b ∈ parts, ∀ i < jobs, i ∈ b) ∧
    sched = parts.flatten

/-- A number of turns that is enough for a parallel search in a box of `n` variables. -/
def parBound (G : Finset EQ) (n jobs : Nat) : Nat := 30 * searchBound G n + 10 * jobs

/-- If the search is parallel, then every worker has enough turns, and the brancher that the parallel
search always uses splits boxes between bounds. -/
def ParTurns (G : Finset EQ) (env : Env) (cfg : TCfg) (n : Nat) : Prop :=
  1 < cfg.jobs → BranchGrid G (Box.branchLargestFirst env.fp) ∧
    Turns cfg.jobs (parBound G n cfg.jobs) cfg.sched

/-- What is asked of the search for counterexamples in non-empty boxes with bounds in `G`: it ends,
and the midpoints of what it finds are in `G` (doubles). -/
structure FindEnds {σ : Type} (G : Finset EQ) (fp : Fp) (vs qs : List Variable) (Inv : σ → Prop)
    (find : σ → Box → Run (Option Box × σ)) : Prop where
  ends : ∀ st b, Inv st → BoxWf b → b.vars = vs → b.bot = false → Bounded G b → IntsSized b →
    find st b ≠ .oof
  grid : ∀ st b ce st', Inv st → BoxWf b → b.vars = vs → b.bot = false → Bounded G b → IntsSized b →
    find st b = .ok (some ce, st') → ∀ q ∈ qs, EQ.fin (fp.mid (ce.getV q)) ∈ G

end Verif.Spec
