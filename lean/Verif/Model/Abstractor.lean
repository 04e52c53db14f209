import Verif.Model.Nnf

/-! # Predicate abstraction: models `dreal/util/predicate_abstractor.cc` -/

namespace Verif.Model
open Verif

/-- State of a `PredicateAbstractor` (`dreal/util/predicate_abstractor.h`) together with the
global counter of variable ids (`symbolic/symbolic_variable.cc:23-29`).  `var_to_formula_map_` and
`formula_to_var_map_` always receive the same pairs (`dreal/util/predicate_abstractor.cc:66-69`); both
are this table, in insertion order. -/
structure AbsState where
  next : Nat
  table : List (Variable × Fml) := []

/-- `formula_to_var_map_.find(f)` (`dreal/util/predicate_abstractor.cc:85,115`). -/
def AbsState.find (s : AbsState) (f : Fml) : Option Variable :=
  (s.table.find? (fun p => p.2 = f)).map Prod.fst

/-- The Boolean variable created next (`dreal/util/predicate_abstractor.cc:117`). -/
def AbsState.freshVar (s : AbsState) : Variable := ⟨s.next, .boolean⟩

/-- `VisitAtomic` and `Add` (`dreal/util/predicate_abstractor.cc:66-69,110-123`). -/
def absAtomic (f : Fml) (s : AbsState) : Fml × AbsState :=
  match s.find f with
  | some b => (.bvar b, s)
  | none => (.bvar s.freshVar, { next := s.next + 1, table := s.table ++ [(s.freshVar, f)] })

/-- The relational cases (`dreal/util/predicate_abstractor.cc:125-153`). -/
def absRel (op : RelOp) (a b : Expr) (s : AbsState) : Fml × AbsState :=
  match op with
  | .eq => absAtomic (.rel .eq a b) s
  | .neq => (notF (absAtomic (mkRel .eq a b) s).1, (absAtomic (mkRel .eq a b) s).2)
  | .gt => (notF (absAtomic (mkRel .leq a b) s).1, (absAtomic (mkRel .leq a b) s).2)
  | .geq => (notF (absAtomic (mkRel .lt a b) s).1, (absAtomic (mkRel .lt a b) s).2)
  | .lt => absAtomic (.rel .lt a b) s
  | .leq => absAtomic (.rel .leq a b) s

mutual
/-- `Visit` (`dreal/util/predicate_abstractor.cc:83-108,155-175`). -/
def absVisit (f : Fml) (s : AbsState) : Fml × AbsState :=
  match s.find f with
  | some b => (.bvar b, s)
  | none =>
    match f with
    | .ff => (.ff, s)
    | .tt => (.tt, s)
    | .bvar v => (.bvar v, s)
    | .rel op a b => absRel op a b s
    | .all vs f => absAtomic (.all vs f) s
    | .conj fs => (mkConj (toSet (absVisitList fs s).1), (absVisitList fs s).2)
    | .disj fs => (mkDisj (toSet (absVisitList fs s).1), (absVisitList fs s).2)
    | .neg f => (notF (absVisit f s).1, (absVisit f s).2)
/-- The operand loops (`dreal/util/predicate_abstractor.cc:156-158,163-165`). -/
def absVisitList (fs : List Fml) (s : AbsState) : List Fml × AbsState :=
  match fs with
  | [] => ([], s)
  | f :: fs => ((absVisit f s).1 :: (absVisitList fs (absVisit f s).2).1,
      (absVisitList fs (absVisit f s).2).2)
end

/-- `Convert(Formula)` (`dreal/util/predicate_abstractor.cc:71-76`). -/
def absConvert (f : Fml) (s : AbsState) : Fml × AbsState := absVisit f s

/-- `Convert(vector<Formula>)` (`dreal/util/predicate_abstractor.cc:78-81`). -/
def absConvertAll (fs : List Fml) (s : AbsState) : Fml × AbsState :=
  absConvert (mkConj (toSet fs)) s

end Verif.Model
