import Verif.Model.Outcome
import Verif.Model.Syntax

/-!
# Shape predicates, negation normal form, distributive CNF

Models `dreal/symbolic/symbolic.cc:70-163`, `dreal/util/nnfizer.cc`,
`dreal/util/naive_cnfizer.cc`.
-/

namespace Verif.Model
open Verif

/-- `is_atomic` (`dreal/symbolic/symbolic.cc:70-92`). -/
def Fml.isAtomic : Fml → Bool
  | .ff => true
  | .tt => true
  | .bvar _ => true
  | .rel .. => true
  | .all .. => true
  | .conj _ => false
  | .disj _ => false
  | .neg (.bvar _) => true
  | .neg (.rel ..) => true
  | .neg _ => false

/-- `is_clause` (`dreal/symbolic/symbolic.cc:94-112`). -/
def Fml.isClause (f : Fml) : Bool :=
  f.isAtomic ||
    match f with
    | .neg g => g.isAtomic
    | .disj fs => fs.all Fml.isAtomic
    | _ => false

/-- `get_clauses` (`dreal/symbolic/symbolic.cc:114-126`); its assertions are left out (they
are the subject of `C10`). -/
def Fml.getClauses : Fml → List Fml
  | .conj fs => fs
  | f => [f]

/-- `is_cnf` (`dreal/symbolic/symbolic.cc:128-143`): throws (`DREAL_UNREACHABLE`) on a
negation that is not atomic. -/
def Fml.isCnf (f : Fml) : Outcome Bool :=
  if f.isAtomic then .ok true
  else match f with
    | .disj _ => .ok f.isClause
    | .conj fs => .ok (fs.all Fml.isClause)
    | _ => .throw

/-- The effect of `map` (`dreal/symbolic/symbolic.cc:58-68`) on an operand set: the results
form a set again. -/
def toSet (fs : List Fml) : List Fml := fs.foldl (fun s g => insertF g s) []

mutual
/-- `Nnfizer::Visit` (`dreal/util/nnfizer.cc:29-180`); `pol` is the polarity, `push` is
`push_negation_into_relationals`. -/
def nnfVisit (push : Bool) : Bool → Fml → Fml
  | pol, .ff => if pol then .ff else .tt                     -- dreal/util/nnfizer.cc:35-40
  | pol, .tt => if pol then .tt else .ff                     -- dreal/util/nnfizer.cc:41-46
  | pol, .bvar v => if pol then .bvar v else notF (.bvar v)  -- dreal/util/nnfizer.cc:47-52
  | pol, .rel op a b =>                                      -- dreal/util/nnfizer.cc:53-136
    if pol then .rel op a b
    else if push then mkRel op.neg a b
    else notF (.rel op a b)
  | pol, .conj fs =>                                         -- dreal/util/nnfizer.cc:137-149
    if pol then mkConj (toSet (nnfVisitList push pol fs))
    else mkDisj (toSet (nnfVisitList push pol fs))
  | pol, .disj fs =>                                         -- dreal/util/nnfizer.cc:150-162
    if pol then mkDisj (toSet (nnfVisitList push pol fs))
    else mkConj (toSet (nnfVisitList push pol fs))
  | pol, .neg f => nnfVisit push (!pol) f                    -- dreal/util/nnfizer.cc:163-169
  | pol, .all vs f => if pol then .all vs f else notF (.all vs f)  -- dreal/util/nnfizer.cc:170-179
/-- The operand loop of `VisitConjunction` and `VisitDisjunction`
(`dreal/util/nnfizer.cc:142-146,155-159`). -/
def nnfVisitList (push : Bool) : Bool → List Fml → List Fml
  | _, [] => []
  | pol, f :: fs => nnfVisit push pol f :: nnfVisitList push pol fs
end

/-- `Nnfizer::Convert` (`dreal/util/nnfizer.cc:24-27`). -/
def nnf (push : Bool) (f : Fml) : Fml := nnfVisit push true f

/-! ### Quantifier nesting depth (used only for termination) -/

mutual
/-- Nesting depth of quantifiers, not counting conditions of if-then-else terms. -/
def Fml.qdepth : Fml → Nat
  | .ff => 0
  | .tt => 0
  | .bvar _ => 0
  | .rel .. => 0
  | .conj fs => Fml.qdepthList fs
  | .disj fs => Fml.qdepthList fs
  | .neg f => f.qdepth
  | .all _ f => f.qdepth + 1
def Fml.qdepthList : List Fml → Nat
  | [] => 0
  | f :: fs => max f.qdepth (Fml.qdepthList fs)
end

theorem Fml.qdepthList_le {fs : List Fml} {n : Nat} :
    Fml.qdepthList fs ≤ n ↔ ∀ f ∈ fs, f.qdepth ≤ n := by
  induction fs with
  | nil => simp [Fml.qdepthList]
  | cons f fs ih => simp [Fml.qdepthList, ih]

theorem insertF_mem {f g : Fml} {s : List Fml} : g ∈ insertF f s ↔ g = f ∨ g ∈ s := by
  unfold insertF
  split
  · constructor
    · exact Or.inr
    · rintro (rfl | h) <;> assumption
  · simp [or_comm]

theorem foldl_insertF_mem {g : Fml} {gs s : List Fml} :
    g ∈ gs.foldl (fun s g => insertF g s) s ↔ g ∈ gs ∨ g ∈ s := by
  induction gs generalizing s with
  | nil => simp
  | cons h gs ih =>
    simp only [List.foldl_cons, ih, insertF_mem, List.mem_cons]
    constructor
    · rintro (h | h | h) <;> simp [h]
    · rintro ((h | h) | h) <;> simp [h]

theorem mem_toSet {g : Fml} {fs : List Fml} : g ∈ toSet fs ↔ g ∈ fs := by
  simp [toSet, foldl_insertF_mem]

theorem mergeConj_qdepth {f : Fml} {s : List Fml} {n : Nat} (hf : f.qdepth ≤ n)
    (hs : ∀ g ∈ s, g.qdepth ≤ n) : ∀ g ∈ mergeConj f s, g.qdepth ≤ n := by
  intro g hg
  unfold mergeConj at hg
  split at hg
  · rw [foldl_insertF_mem] at hg
    rcases hg with hg | hg
    · exact Fml.qdepthList_le.mp hf g hg
    · exact hs g hg
  · rw [insertF_mem] at hg
    rcases hg with rfl | hg
    · exact hf
    · exact hs g hg

theorem mergeDisj_qdepth {f : Fml} {s : List Fml} {n : Nat} (hf : f.qdepth ≤ n)
    (hs : ∀ g ∈ s, g.qdepth ≤ n) : ∀ g ∈ mergeDisj f s, g.qdepth ≤ n := by
  intro g hg
  unfold mergeDisj at hg
  split at hg
  · rw [foldl_insertF_mem] at hg
    rcases hg with hg | hg
    · exact Fml.qdepthList_le.mp hf g hg
    · exact hs g hg
  · rw [insertF_mem] at hg
    rcases hg with rfl | hg
    · exact hf
    · exact hs g hg

theorem conjLoop_qdepth {fs ops l : List Fml} {n : Nat} (hf : ∀ g ∈ fs, g.qdepth ≤ n)
    (ho : ∀ g ∈ ops, g.qdepth ≤ n) (h : conjLoop fs ops = some l) :
    ∀ g ∈ l, g.qdepth ≤ n := by
  induction fs generalizing ops with
  | nil => simp [conjLoop] at h; subst h; exact ho
  | cons f fs ih =>
    unfold conjLoop at h
    split_ifs at h
    · exact ih (fun g hg => hf g (by simp [hg])) ho h
    · exact ih (fun g hg => hf g (by simp [hg])) (mergeConj_qdepth (hf f (by simp)) ho) h

theorem disjLoop_qdepth {fs ops l : List Fml} {n : Nat} (hf : ∀ g ∈ fs, g.qdepth ≤ n)
    (ho : ∀ g ∈ ops, g.qdepth ≤ n) (h : disjLoop fs ops = some l) :
    ∀ g ∈ l, g.qdepth ≤ n := by
  induction fs generalizing ops with
  | nil => simp [disjLoop] at h; subst h; exact ho
  | cons f fs ih =>
    unfold disjLoop at h
    split_ifs at h
    · exact ih (fun g hg => hf g (by simp [hg])) ho h
    · exact ih (fun g hg => hf g (by simp [hg])) (mergeDisj_qdepth (hf f (by simp)) ho) h

theorem mkConj_qdepth {fs : List Fml} {n : Nat} (h : ∀ g ∈ fs, g.qdepth ≤ n) :
    (mkConj fs).qdepth ≤ n := by
  unfold mkConj
  have := fun l => conjLoop_qdepth (l := l) h (ops := []) (by simp)
  split <;> rename_i h'
  · simp [Fml.qdepth]
  · simp [Fml.qdepth]
  · exact this _ h' _ (by simp)
  · simp only [Fml.qdepth]; exact Fml.qdepthList_le.mpr (this _ h')

theorem mkDisj_qdepth {fs : List Fml} {n : Nat} (h : ∀ g ∈ fs, g.qdepth ≤ n) :
    (mkDisj fs).qdepth ≤ n := by
  unfold mkDisj
  have := fun l => disjLoop_qdepth (l := l) h (ops := []) (by simp)
  split <;> rename_i h'
  · simp [Fml.qdepth]
  · simp [Fml.qdepth]
  · exact this _ h' _ (by simp)
  · simp only [Fml.qdepth]; exact Fml.qdepthList_le.mpr (this _ h')

theorem notF_qdepth (f : Fml) : (notF f).qdepth = f.qdepth := by
  unfold notF
  split_ifs with h1 h2
  · subst h1; simp [Fml.qdepth]
  · subst h2; simp [Fml.qdepth]
  · split <;> simp [Fml.qdepth]

theorem mkRel_qdepth (op a b) : (mkRel op a b).qdepth = 0 := by
  unfold mkRel
  split
  · split_ifs <;> simp [Fml.qdepth]
  · simp [Fml.qdepth]

mutual
theorem nnfVisit_qdepth (push pol : Bool) (f : Fml) : (nnfVisit push pol f).qdepth ≤ f.qdepth := by
  cases f with
  | ff => cases pol <;> simp [nnfVisit, Fml.qdepth]
  | tt => cases pol <;> simp [nnfVisit, Fml.qdepth]
  | bvar v => cases pol <;> simp [nnfVisit, Fml.qdepth, notF_qdepth]
  | rel op a b =>
    cases pol <;> cases push <;> simp [nnfVisit, Fml.qdepth, notF_qdepth, mkRel_qdepth]
  | conj fs =>
    have h : ∀ g ∈ toSet (nnfVisitList push pol fs), g.qdepth ≤ Fml.qdepthList fs := by
      intro g hg; rw [mem_toSet] at hg; exact nnfVisitList_qdepth push pol fs g hg
    simp only [nnfVisit, Fml.qdepth]
    split_ifs
    · exact mkConj_qdepth h
    · exact mkDisj_qdepth h
  | disj fs =>
    have h : ∀ g ∈ toSet (nnfVisitList push pol fs), g.qdepth ≤ Fml.qdepthList fs := by
      intro g hg; rw [mem_toSet] at hg; exact nnfVisitList_qdepth push pol fs g hg
    simp only [nnfVisit, Fml.qdepth]
    split_ifs
    · exact mkDisj_qdepth h
    · exact mkConj_qdepth h
  | neg f => simp only [nnfVisit, Fml.qdepth]; exact nnfVisit_qdepth push (!pol) f
  | all vs f => cases pol <;> simp [nnfVisit, Fml.qdepth, notF_qdepth]
theorem nnfVisitList_qdepth (push pol : Bool) (fs : List Fml) :
    ∀ g ∈ nnfVisitList push pol fs, g.qdepth ≤ Fml.qdepthList fs := by
  cases fs with
  | nil => simp [nnfVisitList]
  | cons f fs =>
    intro g hg
    simp only [nnfVisitList, List.mem_cons] at hg
    simp only [Fml.qdepthList]
    rcases hg with rfl | hg
    · exact le_trans (nnfVisit_qdepth push pol f) (le_max_left _ _)
    · exact le_trans (nnfVisitList_qdepth push pol fs g hg) (le_max_right _ _)
end

/-! ### Distributive CNF -/

/-- One step of the `accumulate` of `NaiveCnfizer::VisitDisjunction`
(`dreal/util/naive_cnfizer.cc:80-110`). -/
def distribute (cnf1 cnf2 : Fml) : Fml :=
  mkConj (toSet
    (match cnf1, cnf2 with
    | .conj fs, .conj gs => fs.flatMap fun c1 => gs.map fun c2 => orF c1 c2
    | .conj fs, g => fs.map fun c1 => orF c1 g
    | f, .conj gs => gs.map fun c2 => orF f c2
    | f, g => [orF f g]))

mutual
/-- `NaiveCnfizer::Visit` (`dreal/util/naive_cnfizer.cc:38-116`).  A violated assertion of
`VisitNegation` is `ub`. -/
def naiveVisit : Fml → Outcome Fml
  | .ff => .ok .ff
  | .tt => .ok .tt
  | .bvar v => .ok (.bvar v)
  | .rel .eq a b => .ok (andF (mkRel .geq a b) (mkRel .leq a b))   -- dreal/util/naive_cnfizer.cc:44-48
  | .rel .neq a b => .ok (orF (mkRel .gt a b) (mkRel .lt a b))     -- dreal/util/naive_cnfizer.cc:49-53
  | .rel op a b => .ok (.rel op a b)
  | .all vs f => do                                                -- dreal/util/naive_cnfizer.cc:62-67
    let g ← naiveVisit (nnf true f)
    .ok (forallF vs g)
  | .conj fs => do                                                 -- dreal/util/naive_cnfizer.cc:69-74
    let gs ← naiveVisitList fs
    .ok (mkConj (toSet gs))
  | .disj fs => do                                                 -- dreal/util/naive_cnfizer.cc:76-111
    let gs ← naiveVisitList fs
    .ok ((toSet gs).foldl distribute .ff)
  | .neg f => if f.isAtomic then .ok (.neg f) else .ub             -- dreal/util/naive_cnfizer.cc:113-116
termination_by f => (f.qdepth, sizeOf f)
decreasing_by
  · have := nnfVisit_qdepth true true f
    simp only [Fml.qdepth, nnf]
    exact Prod.Lex.left _ _ (Nat.lt_succ_of_le this)
  · simp only [Fml.qdepth]
    exact Prod.Lex.right _ (by simp)
  · simp only [Fml.qdepth]
    exact Prod.Lex.right _ (by simp)
/-- The operand loops of `VisitConjunction` and `VisitDisjunction`
(`dreal/util/naive_cnfizer.cc:70-72,77-79`). -/
def naiveVisitList : List Fml → Outcome (List Fml)
  | [] => .ok []
  | f :: fs => do
    let g ← naiveVisit f
    let gs ← naiveVisitList fs
    .ok (g :: gs)
termination_by fs => (Fml.qdepthList fs, sizeOf fs)
decreasing_by
  · simp only [Fml.qdepthList]
    rcases Nat.lt_or_ge f.qdepth (Fml.qdepthList fs) with h | h
    · rw [Nat.max_eq_right (Nat.le_of_lt h)]; exact Prod.Lex.left _ _ h
    · rw [Nat.max_eq_left h]; exact Prod.Lex.right _ (by simp; omega)
  · simp only [Fml.qdepthList]
    rcases Nat.lt_or_ge (Fml.qdepthList fs) f.qdepth with h | h
    · rw [Nat.max_eq_left (Nat.le_of_lt h)]; exact Prod.Lex.left _ _ h
    · rw [Nat.max_eq_right h]; exact Prod.Lex.right _ (by simp; omega)
end

/-- `NaiveCnfizer::Convert` (`dreal/util/naive_cnfizer.cc:33-36`). -/
def naiveCnf (f : Fml) : Outcome Fml := naiveVisit (nnf true f)

end Verif.Model
