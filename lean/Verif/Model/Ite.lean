import Verif.Model.Nnf

/-! # If-then-else elimination: models `dreal/util/if_then_else_eliminator.cc` -/

namespace Verif.Model
open Verif

/-- State of an `IfThenElseEliminator` (`dreal/util/if_then_else_eliminator.h`:
`ite_variables_`, `added_formulas_`) and the global counter of variable ids. -/
structure IteState where
  next : Nat
  vars : List Variable := []
  added : List Fml := []

/-- The variable created for an if-then-else term
(`dreal/util/if_then_else_eliminator.cc:229-230`). -/
def IteState.freshVar (s : IteState) : Variable := ⟨s.next, .continuous⟩

/-- Create the variable (`dreal/util/if_then_else_eliminator.cc:229-231`). -/
def IteState.start (s : IteState) : IteState :=
  { s with next := s.next + 1, vars := s.vars ++ [s.freshVar] }

/-- `!guard || (new_var == e)` (`dreal/util/if_then_else_eliminator.cc:238,240`). -/
def iteDef (guard : Fml) (v : Variable) (e : Expr) : Fml :=
  orF (notF guard) (mkRel .eq (.var v) e)

/-- Record the two definitions (`dreal/util/if_then_else_eliminator.cc:237-240`). -/
def IteState.finish (s : IteState) (tg eg : Fml) (v : Variable) (e1 e2 : Expr) : IteState :=
  { s with added := s.added ++ [iteDef tg v e1, iteDef eg v e2] }

/-- The result of `Process` from the visited formula
(`dreal/util/if_then_else_eliminator.cc:70-75`). -/
def iteResult (f new_f : Fml) (added : List Fml) : Fml :=
  if f = new_f ∧ added = [] then f else andF new_f (mkConj added)

mutual
/-- `Visit` on expressions (`dreal/util/if_then_else_eliminator.cc:83-247`).  The test
`include_ite` is left out: without if-then-else the visit rebuilds the same expression.  Sums
and products are binary here; the operands are visited from left to right (C++ leaves the
order of the operands of `/` and of calls open). -/
def iteE : Expr → Fml → IteState → Expr × IteState
  | .const q, _, s => (.const q, s)
  | .rconst r, _, s => (.rconst r, s)
  | .var v, _, s => (.var v, s)
  | .add a b, g, s =>
    (.add (iteE a g s).1 (iteE b g (iteE a g s).2).1, (iteE b g (iteE a g s).2).2)
  | .mul a b, g, s =>
    (.mul (iteE a g s).1 (iteE b g (iteE a g s).2).1, (iteE b g (iteE a g s).2).2)
  | .app1 f a, g, s => (.app1 f (iteE a g s).1, (iteE a g s).2)
  | .app2 f a b, g, s =>
    (.app2 f (iteE a g s).1 (iteE b g (iteE a g s).2).1, (iteE b g (iteE a g s).2).2)
  | .ite c a b, g, s =>                              -- dreal/util/if_then_else_eliminator.cc:226-242
    let rc := iteF c g s.start
    let ra := iteE a (andF g rc.1) rc.2
    let rb := iteE b (andF g (notF rc.1)) ra.2
    (.var s.freshVar, rb.2.finish (andF g rc.1) (andF g (notF rc.1)) s.freshVar ra.1 rb.1)
/-- `Visit` on formulas (`dreal/util/if_then_else_eliminator.cc:249-353`). -/
def iteF : Fml → Fml → IteState → Fml × IteState
  | .ff, _, s => (.ff, s)
  | .tt, _, s => (.tt, s)
  | .bvar v, _, s => (.bvar v, s)
  | .rel op a b, g, s =>
    (mkRel op (iteE a g s).1 (iteE b g (iteE a g s).2).1, (iteE b g (iteE a g s).2).2)
  | .conj fs, g, s => (mkConj (toSet (iteList fs g s).1), (iteList fs g s).2)
  | .disj fs, g, s => (mkDisj (toSet (iteList fs g s).1), (iteList fs g s).2)
  | .neg f, g, s => (notF (iteF f g s).1, (iteF f g s).2)
  | .all vs f, _, s =>                               -- dreal/util/if_then_else_eliminator.cc:326-353
    -- a fresh eliminator processes `!f`; `iteNot f` is its visit of `!f`
    let r := iteNot f { next := s.next }
    let eliminated := iteResult (notF f) r.1 r.2.added
    (forallF (vs ++ r.2.vars) (nnf false (notF eliminated)), { s with next := r.2.next })
/-- The visit of `!f` with guard True: `iteF (notF f) tt`, by recursion on `f`
(`iteNot_eq`). -/
def iteNot : Fml → IteState → Fml × IteState
  | .ff, s => (.tt, s)
  | .tt, s => (.ff, s)
  | .neg f, s => iteF f .tt s
  | .bvar v, s => (notF (.bvar v), s)
  | .rel op a b, s =>
    (notF (mkRel op (iteE a .tt s).1 (iteE b .tt (iteE a .tt s).2).1),
      (iteE b .tt (iteE a .tt s).2).2)
  | .conj fs, s => (notF (mkConj (toSet (iteList fs .tt s).1)), (iteList fs .tt s).2)
  | .disj fs, s => (notF (mkDisj (toSet (iteList fs .tt s).1)), (iteList fs .tt s).2)
  | .all vs f, s =>
    let r := iteNot f { next := s.next }
    let eliminated := iteResult (notF f) r.1 r.2.added
    (notF (forallF (vs ++ r.2.vars) (nnf false (notF eliminated))), { s with next := r.2.next })
/-- The operand loops (`dreal/util/if_then_else_eliminator.cc:304-307,314-317`). -/
def iteList : List Fml → Fml → IteState → List Fml × IteState
  | [], _, s => ([], s)
  | f :: fs, g, s =>
    ((iteF f g s).1 :: (iteList fs g (iteF f g s).2).1, (iteList fs g (iteF f g s).2).2)
end

/-- The recursion of `iteNot` agrees with visiting the negated formula. -/
theorem iteNot_eq (f : Fml) (s : IteState) : iteNot f s = iteF (notF f) .tt s := by
  cases f with
  | ff => simp [iteNot, notF, iteF]
  | tt => simp [iteNot, notF, iteF]
  | neg f => simp [iteNot, notF]
  | bvar v => rw [show notF (.bvar v) = .neg (.bvar v) by simp [notF]]; simp only [iteNot, iteF]
  | rel op a b =>
    rw [show notF (.rel op a b) = .neg (.rel op a b) by simp [notF]]; simp only [iteNot, iteF]
  | conj fs => rw [show notF (.conj fs) = .neg (.conj fs) by simp [notF]]; simp only [iteNot, iteF]
  | disj fs => rw [show notF (.disj fs) = .neg (.disj fs) by simp [notF]]; simp only [iteNot, iteF]
  | all vs f =>
    rw [show notF (.all vs f) = .neg (.all vs f) by simp [notF]]; simp only [iteNot, iteF]

/-- `Process` of a fresh eliminator (`dreal/util/if_then_else_eliminator.cc:65-76`); also
returns `variables()` and the variable counter. -/
def iteProcess (next : Nat) (f : Fml) : Fml × List Variable × Nat :=
  let r := iteF f .tt { next := next }
  (iteResult f r.1 r.2.added, r.2.vars, r.2.next)

end Verif.Model
