import Verif.Model.Nnf

/-! # Definitional CNF: models `dreal/util/tseitin_cnfizer.cc` -/

namespace Verif.Model
open Verif

/-- State of a `TseitinCnfizer` run: `map_` (`dreal/util/tseitin_cnfizer.h`) and the global
counter of variable ids (`symbolic/symbolic_variable.cc:23-29`).  `map_` is a `std::map` ordered by
variable; here it is in insertion order (the clauses produced are the same up to order). -/
structure TsState where
  next : Nat
  map : List (Variable × Fml) := []

/-- Constructing a Boolean variable (`symbolic/symbolic_variable.cc:23-29`). -/
def TsState.freshVar (s : TsState) : Variable := ⟨s.next, .boolean⟩

/-- Create a variable and record `bvar ⇔ f` (`map_.emplace`,
`dreal/util/tseitin_cnfizer.cc:150-153,164-167,176-178`). -/
def TsState.define (s : TsState) (f : Fml) : Fml × TsState :=
  (.bvar s.freshVar, { next := s.next + 1, map := s.map ++ [(s.freshVar, f)] })

/-- The per-clause step of `VisitForall` (`dreal/util/tseitin_cnfizer.cc:135-143`). -/
def tsQuantify (vs : List Variable) (c : Fml) : Fml :=
  if c.fv.any (fun v => v ∈ vs) then forallF vs c else c

mutual
/-- `TseitinCnfizer::Visit` (`dreal/util/tseitin_cnfizer.cc:108-193`). -/
def tsVisit : Fml → TsState → Outcome (Fml × TsState)
  | .ff, s => .ok (.ff, s)
  | .tt, s => .ok (.tt, s)
  | .bvar v, s => .ok (.bvar v, s)
  | .rel op a b, s => .ok (.rel op a b, s)
  | .all vs f, s => do                                     -- dreal/util/tseitin_cnfizer.cc:124-155
    let g ← naiveCnf f
    if g.getClauses.all Fml.isClause then
      match toSet (g.getClauses.map (tsQuantify vs)) with
      | [c] => .ok (c, s)
      | cs => .ok (s.define (mkConj cs))
    else .ub
  | .conj fs, s => do                                      -- dreal/util/tseitin_cnfizer.cc:157-168
    let (gs, s) ← tsVisitList fs s
    .ok (s.define (mkConj (toSet gs)))
  | .disj fs, s => do                                      -- dreal/util/tseitin_cnfizer.cc:170-179
    let (gs, s) ← tsVisitList fs s
    .ok (s.define (mkDisj (toSet gs)))
  | .neg f, s =>                                           -- dreal/util/tseitin_cnfizer.cc:181-191
    if f.isAtomic then .ok (.neg f, s)
    else do
      let b := s.freshVar
      let (g, s) ← tsVisit f { s with next := s.next + 1 }
      .ok (.bvar b, { s with map := s.map ++ [(b, notF g)] })
/-- The operand loops (`dreal/util/tseitin_cnfizer.cc:161-163,172-174`). -/
def tsVisitList : List Fml → TsState → Outcome (List Fml × TsState)
  | [], s => .ok ([], s)
  | f :: fs, s => do
    let (g, s) ← tsVisit f s
    let (gs, s) ← tsVisitList fs s
    .ok (g :: gs, s)
end

/-- `Add` (`dreal/util/tseitin_cnfizer.cc:229-233`): drops True. -/
def tsAdd (f : Fml) : List Fml := if f = .tt then [] else [f]

/-- `Cnfize` with `CnfizeNegation`, `CnfizeConjunction`, `CnfizeDisjunction`
(`dreal/util/tseitin_cnfizer.cc:196-287`); every other kind throws. -/
def cnfize (b : Variable) (f : Fml) : Outcome (List Fml) :=
  match f with
  | .conj fs =>
    .ok (fs.flatMap (fun g => tsAdd (orF (notF (.bvar b)) g)) ++
      tsAdd (orF (mkDisj (toSet (fs.map notF))) (.bvar b)))
  | .disj fs =>
    .ok (tsAdd (orF (notF (.bvar b)) f) ++
      (toSet (fs.map notF)).flatMap fun g => tsAdd (orF g (.bvar b)))
  | .neg _ => .ok (tsAdd (implyF (.bvar b) f) ++ tsAdd (implyF f (.bvar b)))
  | _ => .throw

/-- One entry of `map_`: the head is asserted, the others are defined
(`dreal/util/tseitin_cnfizer.cc:94-103`). -/
def tsEntry (head b : Variable) (f : Fml) : Outcome (List Fml) :=
  if b = head then .ok f.getClauses else cnfize b f

/-- The loop over `map_` (`dreal/util/tseitin_cnfizer.cc:93-104`). -/
def tsClauses (head : Variable) : List (Variable × Fml) → Outcome (List Fml)
  | [] => .ok []
  | (b, f) :: m => do
    let cs ← tsEntry head b f
    let ds ← tsClauses head m
    .ok (cs ++ ds)

/-- `TseitinCnfizer::Convert` (`dreal/util/tseitin_cnfizer.cc:83-106`) started with variable
counter `next`; also returns the counter afterwards.  `get_variable` of a head that is not a
variable would be undefined behaviour. -/
def tseitin (next : Nat) (f : Fml) : Outcome (List Fml × Nat) := do
  let (head, s) ← tsVisit f { next := next }
  if s.map = [] then .ok ([head], s.next)
  else match head with
    | .bvar h => do
      let cs ← tsClauses h s.map
      .ok (cs, s.next)
    | _ => .ub

end Verif.Model
