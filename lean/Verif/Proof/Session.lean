import Verif.Proof.Scoped
import Verif.Proof.Theory
import Verif.Spec.Session

/-!
# Calls within a scope do not touch what the enclosing scopes will be restored to
-/

namespace Verif.Proof
open Verif Verif.Model Verif.Spec

/-! ### Vectors -/

def vpop {α : Type u} (s : ScopedVector α) : Outcome (ScopedVector α) :=
  match s.pop with
  | .ok r => .ok r.1
  | .throw => .throw
  | .ub => .ub

/-- The saved sizes are at most the current one, and decrease. -/
def VWf {α : Type u} (s : ScopedVector α) : Prop :=
  (s.vec.length :: s.scopes).Pairwise (· ≥ ·)

/-- `s'` was reached from `s` in the same scope. -/
def VExt {α : Type u} (s s' : ScopedVector α) : Prop := VWf s' ∧ vpop s' = vpop s

theorem VExt.refl {α : Type u} {s : ScopedVector α} (h : VWf s) : VExt s s := ⟨h, rfl⟩

theorem VExt.trans {α : Type u} {a b c : ScopedVector α} (h1 : VExt a b) (h2 : VExt b c) :
    VExt a c := ⟨h2.1, h2.2.trans h1.2⟩

theorem vpop_eq {α : Type u} {s : ScopedVector α} (h : VWf s) :
    vpop s = match s.scopes with
      | [] => .throw
      | n :: rest => .ok ⟨s.vec.take n, rest⟩ := by
  unfold vpop ScopedVector.pop
  cases hs : s.scopes with
  | nil => rfl
  | cons n rest =>
    have hn : n ≤ s.vec.length := by
      unfold VWf at h; rw [hs] at h
      exact (List.pairwise_cons.mp h).1 n (by simp)
    simp only [popLoop_eq _ _ _ hn]

theorem vext_pushBack {α : Type u} {s : ScopedVector α} (h : VWf s) (a : α) :
    VExt s (s.pushBack a) := by
  have hw : VWf (s.pushBack a) := by
    unfold VWf at *
    simp only [ScopedVector.pushBack, List.length_append, List.length_singleton]
    rw [List.pairwise_cons] at *
    exact ⟨fun n hn => le_trans (h.1 n hn) (by omega), h.2⟩
  refine ⟨hw, ?_⟩
  rw [vpop_eq hw, vpop_eq h]
  simp only [ScopedVector.pushBack]
  cases hs : s.scopes with
  | nil => rfl
  | cons n rest =>
    have hn : n ≤ s.vec.length := by
      unfold VWf at h; rw [hs] at h
      exact (List.pairwise_cons.mp h).1 n (by simp)
    simp only [List.take_append_of_le_length hn]

theorem vwf_push {α : Type u} {s : ScopedVector α} (h : VWf s) : VWf s.push := by
  unfold VWf at *
  simp only [ScopedVector.push]
  rw [List.pairwise_cons]
  refine ⟨fun n hn => ?_, h⟩
  rcases List.mem_cons.mp hn with rfl | hn
  · exact le_refl _
  · exact (List.pairwise_cons.mp h).1 n hn

theorem vpop_push {α : Type u} {s : ScopedVector α} (h : VWf s) : vpop s.push = .ok s := by
  rw [vpop_eq (vwf_push h)]
  simp only [ScopedVector.push, List.take_length]

theorem vwf_pop {α : Type u} {s s' : ScopedVector α} (h : VWf s) (hp : vpop s = .ok s') :
    VWf s' := by
  rw [vpop_eq h] at hp
  cases hs : s.scopes with
  | nil => rw [hs] at hp; cases hp
  | cons n rest =>
    rw [hs] at hp
    simp only [Outcome.ok.injEq] at hp; subst hp
    unfold VWf at *
    rw [hs, List.pairwise_cons] at h
    have hn := h.1 n (by simp)
    simp only [List.length_take, Nat.min_eq_left hn]
    exact h.2

/-! ### The boxes: the last element may be replaced -/

/-- Every scope has a box of its own. -/
def BWf {α : Type u} (s : ScopedVector α) : Prop :=
  (s.vec.length :: (s.scopes ++ [0])).Pairwise (· > ·)

theorem BWf.vwf {α : Type u} {s : ScopedVector α} (h : BWf s) : VWf s := by
  unfold BWf at h
  rw [← List.cons_append, List.pairwise_append] at h
  exact h.1.imp fun h => le_of_lt h

theorem BWf.pos {α : Type u} {s : ScopedVector α} (h : BWf s) : 0 < s.vec.length :=
  (List.pairwise_cons.mp h).1 0 (by simp)

def setLast {α : Type u} (s : ScopedVector α) (a : α) : ScopedVector α :=
  { s with vec := s.vec.dropLast ++ [a] }

theorem bwf_setLast {α : Type u} {s : ScopedVector α} (h : BWf s) (a : α) : BWf (setLast s a) := by
  have := h.pos
  unfold BWf at *
  simp only [setLast, List.length_append, List.length_dropLast, List.length_singleton]
  rwa [Nat.sub_add_cancel this]

theorem vpop_setLast {α : Type u} {s : ScopedVector α} (h : BWf s) (a : α) :
    vpop (setLast s a) = vpop s := by
  rw [vpop_eq (bwf_setLast h a).vwf, vpop_eq h.vwf]
  simp only [setLast]
  cases hs : s.scopes with
  | nil => rfl
  | cons n rest =>
    have hn : n < s.vec.length := by
      unfold BWf at h; rw [hs] at h
      exact (List.pairwise_cons.mp h).1 n (by simp)
    have : (s.vec.dropLast ++ [a]).take n = s.vec.take n := by
      rw [List.take_append_of_le_length (by simp; omega), List.dropLast_eq_take, List.take_take,
        Nat.min_eq_left (by omega)]
    simp only [this]

theorem bwf_pushPush {α : Type u} {s : ScopedVector α} (h : BWf s) (a : α) :
    BWf (s.push.pushBack a) := by
  unfold BWf at *
  simp only [ScopedVector.push, ScopedVector.pushBack, List.length_append, List.length_singleton,
    List.cons_append]
  rw [List.pairwise_cons]
  refine ⟨fun n hn => ?_, h⟩
  rcases List.mem_cons.mp hn with rfl | hn
  · omega
  · have := (List.pairwise_cons.mp h).1 n hn
    omega

theorem bwf_pop {α : Type u} {s s' : ScopedVector α} (h : BWf s) (hp : vpop s = .ok s') :
    BWf s' := by
  rw [vpop_eq h.vwf] at hp
  cases hs : s.scopes with
  | nil => rw [hs] at hp; cases hp
  | cons n rest =>
    rw [hs] at hp
    simp only [Outcome.ok.injEq] at hp; subst hp
    unfold BWf at *
    rw [hs, List.pairwise_cons] at h
    have hn : n < s.vec.length := h.1 n (by simp)
    simp only [List.length_take, Nat.min_eq_left (le_of_lt hn)]
    exact h.2

/-! ### Maps and sets -/

def MWf {K : Type u} {V : Type v} (s : ScopedMap K V) : Prop :=
  (s.actions.length :: s.stack).Pairwise (· ≥ ·)

def MExt {K : Type u} {V : Type v} [DecidableEq K] (s s' : ScopedMap K V) : Prop :=
  MWf s' ∧ s'.pop = s.pop

theorem mundo_ge {K : Type u} {V : Type v} [DecidableEq K] {n : Nat} {as : List (MapAction K V)}
    {m} (h : as.length ≤ n) : ScopedMap.undoTo n as m = .ok (as, m) := by
  cases as with
  | nil => rfl
  | cons a as => simp only [ScopedMap.undoTo, if_neg (Nat.not_lt.mpr h)]

theorem mundo_length {K : Type u} {V : Type v} [DecidableEq K] {n : Nat} :
    ∀ {as : List (MapAction K V)} {m as' m'}, n ≤ as.length →
    ScopedMap.undoTo n as m = .ok (as', m') → as'.length = n
  | [], m, as', m', hn, h => by
    simp only [ScopedMap.undoTo, Outcome.ok.injEq, Prod.mk.injEq] at h
    rw [← h.1]; simp at hn ⊢; exact hn.symm
  | a :: as, m, as', m', hn, h => by
    simp only [ScopedMap.undoTo] at h
    split at h
    · rename_i hlt
      split at h
      · exact mundo_length (by simp at hlt; omega) h
      · cases h
      · cases h
    · rename_i hlt
      simp only [Outcome.ok.injEq, Prod.mk.injEq] at h
      rw [← h.1]; omega

theorem mext_insert {K : Type u} {V : Type v} [DecidableEq K] {s : ScopedMap K V} (h : MWf s)
    (k : K) (v : V) : MExt s (s.insert k v) := by
  have hl : (s.insert k v).actions.length = s.actions.length + 1 ∧
      (s.insert k v).stack = s.stack := by
    unfold ScopedMap.insert; split <;> simp
  refine ⟨?_, ?_⟩
  · unfold MWf at *
    rw [hl.1, hl.2]
    rw [List.pairwise_cons] at *
    exact ⟨fun n hn => le_trans (h.1 n hn) (by omega), h.2⟩
  · unfold ScopedMap.pop
    rw [hl.2]
    cases hs : s.stack with
    | nil => rfl
    | cons n rest =>
      have hn : n ≤ s.actions.length := by
        unfold MWf at h; rw [hs] at h
        exact (List.pairwise_cons.mp h).1 n (by simp)
      have : ScopedMap.undoTo n (s.insert k v).actions (s.insert k v).map =
          ScopedMap.undoTo n s.actions s.map := by
        unfold ScopedMap.insert
        split
        · rename_i hk
          simp only [ScopedMap.undoTo, List.length_cons, if_pos (Nat.lt_succ_of_le hn),
            ScopedMap.undo1, ScopedMap.upd, if_true]
          congr 1
          funext x
          simp only [ScopedMap.upd]
          split
          · rename_i hx; rw [hx, hk]
          · rfl
        · rename_i old hk
          simp only [ScopedMap.undoTo, List.length_cons, if_pos (Nat.lt_succ_of_le hn),
            ScopedMap.undo1, ScopedMap.upd, if_true]
          congr 1
          funext x
          simp only [ScopedMap.upd]
          split
          · rename_i hx; rw [hx, hk]
          · rfl
      simp only [this]

theorem mwf_push {K : Type u} {V : Type v} {s : ScopedMap K V} (h : MWf s) : MWf s.push := by
  unfold MWf at *
  simp only [ScopedMap.push]
  rw [List.pairwise_cons]
  refine ⟨fun n hn => ?_, h⟩
  rcases List.mem_cons.mp hn with rfl | hn
  · exact le_refl _
  · exact (List.pairwise_cons.mp h).1 n hn

theorem mpop_push {K : Type u} {V : Type v} [DecidableEq K] {s : ScopedMap K V} :
    s.push.pop = .ok s := by
  simp only [ScopedMap.push, ScopedMap.pop, mundo_ge (le_refl _)]

theorem mwf_pop {K : Type u} {V : Type v} [DecidableEq K] {s s' : ScopedMap K V} (h : MWf s)
    (hp : s.pop = .ok s') : MWf s' := by
  unfold ScopedMap.pop at hp
  cases hs : s.stack with
  | nil => rw [hs] at hp; cases hp
  | cons n rest =>
    unfold MWf at *
    rw [hs, List.pairwise_cons] at h
    rw [hs] at hp
    simp only at hp
    split at hp
    · rename_i as m hu
      simp only [Outcome.ok.injEq] at hp; subst hp
      have := mundo_length (h.1 n (by simp)) hu
      simp only [this]
      exact h.2
    · cases hp
    · cases hp

def SWf {K : Type u} (s : ScopedSet K) : Prop := (s.actions.length :: s.stack).Pairwise (· ≥ ·)

def SExt {K : Type u} [DecidableEq K] (s s' : ScopedSet K) : Prop := SWf s' ∧ s'.pop = s.pop

theorem sundo_ge {K : Type u} [DecidableEq K] {n : Nat} {as : List K} {m} (h : as.length ≤ n) :
    ScopedSet.undoTo n as m = .ok (as, m) := by
  cases as with
  | nil => rfl
  | cons a as => simp only [ScopedSet.undoTo, if_neg (Nat.not_lt.mpr h)]

theorem sundo_length {K : Type u} [DecidableEq K] {n : Nat} :
    ∀ {as : List K} {m as' m'}, n ≤ as.length →
    ScopedSet.undoTo n as m = .ok (as', m') → as'.length = n
  | [], m, as', m', hn, h => by
    simp only [ScopedSet.undoTo, Outcome.ok.injEq, Prod.mk.injEq] at h
    rw [← h.1]; simp at hn ⊢; exact hn.symm
  | a :: as, m, as', m', hn, h => by
    simp only [ScopedSet.undoTo] at h
    split at h
    · rename_i hlt
      split at h
      · exact sundo_length (by simp at hlt; omega) h
      · cases h
    · rename_i hlt
      simp only [Outcome.ok.injEq, Prod.mk.injEq] at h
      rw [← h.1]; omega

theorem sext_insert {K : Type u} [DecidableEq K] {s : ScopedSet K} (h : SWf s) (k : K) :
    SExt s (s.insert k) := by
  by_cases hk : s.set k = true
  · simp only [ScopedSet.insert, hk, if_true]; exact ⟨h, rfl⟩
  have he : s.insert k = { s with actions := k :: s.actions
                                  set := fun x => if x = k then true else s.set x } := by
    unfold ScopedSet.insert; rw [if_neg hk]
  rw [he]
  refine ⟨?_, ?_⟩
  · unfold SWf at *
    simp only [List.length_cons]
    rw [List.pairwise_cons] at *
    exact ⟨fun n hn => le_trans (h.1 n hn) (by omega), h.2⟩
  · simp only [ScopedSet.pop]
    cases hs : s.stack with
    | nil => rfl
    | cons n rest =>
      have hn : n ≤ s.actions.length := by
        unfold SWf at h; rw [hs] at h
        exact (List.pairwise_cons.mp h).1 n (by simp)
      have hset : (fun x => if x = k then false else if x = k then true else s.set x) = s.set := by
        funext x
        split
        · rename_i hx; rw [hx]; simpa using hk
        · rfl
      have : ScopedSet.undoTo n (k :: s.actions) (fun x => if x = k then true else s.set x) =
          ScopedSet.undoTo n s.actions s.set := by
        rw [ScopedSet.undoTo]
        rw [if_pos (by simp; omega), if_pos (by simp), hset]
      simp only [this]

theorem swf_push {K : Type u} {s : ScopedSet K} (h : SWf s) : SWf s.push := by
  unfold SWf at *
  simp only [ScopedSet.push]
  rw [List.pairwise_cons]
  refine ⟨fun n hn => ?_, h⟩
  rcases List.mem_cons.mp hn with rfl | hn
  · exact le_refl _
  · exact (List.pairwise_cons.mp h).1 n hn

theorem spop_push {K : Type u} [DecidableEq K] {s : ScopedSet K} : s.push.pop = .ok s := by
  simp only [ScopedSet.push, ScopedSet.pop, sundo_ge (le_refl _)]

theorem swf_pop {K : Type u} [DecidableEq K] {s s' : ScopedSet K} (h : SWf s)
    (hp : s.pop = .ok s') : SWf s' := by
  unfold ScopedSet.pop at hp
  cases hs : s.stack with
  | nil => rw [hs] at hp; cases hp
  | cons n rest =>
    unfold SWf at *
    rw [hs, List.pairwise_cons] at h
    rw [hs] at hp
    simp only at hp
    split at hp
    · rename_i as m hu
      simp only [Outcome.ok.injEq] at hp; subst hp
      have := sundo_length (h.1 n (by simp)) hu
      simp only [this]
      exact h.2
    · cases hp
    · cases hp

/-! ### The SAT solver -/

structure SatWf (s : SatState) : Prop where
  sat : MWf s.toSat
  sym : MWf s.toSym
  ts : SWf s.tseitinVars
  cl : VWf s.clauses

structure SatExt (s s' : SatState) : Prop where
  sat : MExt s.toSat s'.toSat
  sym : MExt s.toSym s'.toSym
  ts : SExt s.tseitinVars s'.tseitinVars
  cl : VExt s.clauses s'.clauses

theorem SatExt.wf {s s'} (h : SatExt s s') : SatWf s' := ⟨h.sat.1, h.sym.1, h.ts.1, h.cl.1⟩

theorem SatExt.refl {s} (h : SatWf s) : SatExt s s :=
  ⟨⟨h.sat, rfl⟩, ⟨h.sym, rfl⟩, ⟨h.ts, rfl⟩, ⟨h.cl, rfl⟩⟩

theorem SatExt.trans {a b c} (h1 : SatExt a b) (h2 : SatExt b c) : SatExt a c :=
  ⟨⟨h2.sat.1, h2.sat.2.trans h1.sat.2⟩, ⟨h2.sym.1, h2.sym.2.trans h1.sym.2⟩,
    ⟨h2.ts.1, h2.ts.2.trans h1.ts.2⟩, h1.cl.trans h2.cl⟩

theorem satExt_makeSatVar {s} (h : SatWf s) (v) : SatExt s (makeSatVar s v) := by
  unfold makeSatVar
  split
  · exact .refl h
  · exact ⟨mext_insert h.sat _ _, mext_insert h.sym _ _, ⟨h.ts, rfl⟩, ⟨h.cl, rfl⟩⟩

theorem satExt_makeSatVars : ∀ {vs s}, SatWf s → SatExt s (List.foldl makeSatVar s vs)
  | [], _, h => .refl h
  | v :: _, _, h => (satExt_makeSatVar h v).trans (satExt_makeSatVars (satExt_makeSatVar h v).wf)

theorem satExt_addClause {s s' f} (h : SatWf s) (ha : addClause s f = .ok s') : SatExt s s' := by
  simp only [addClause] at ha
  obtain ⟨ls, -, h2⟩ := bindO_ok ha
  simp only [Outcome.ok.injEq] at h2; subst h2
  have e := satExt_makeSatVars (vs := f.fv) h
  exact e.trans ⟨⟨e.wf.sat, rfl⟩, ⟨e.wf.sym, rfl⟩, ⟨e.wf.ts, rfl⟩, vext_pushBack e.wf.cl _⟩

theorem satExt_addClauses : ∀ {fs s s'}, SatWf s → addClauses s fs = .ok s' → SatExt s s'
  | [], s, s', h, ha => by simp only [addClauses, Outcome.ok.injEq] at ha; subst ha; exact .refl h
  | f :: fs, s, s', h, ha => by
    simp only [addClauses] at ha
    obtain ⟨t, h1, h2⟩ := bindO_ok ha
    have e := satExt_addClause h h1
    exact e.trans (satExt_addClauses e.wf h2)

theorem sext_inserts {K : Type u} [DecidableEq K] : ∀ {ks : List K} {s : ScopedSet K}, SWf s →
    SExt s (ks.foldl ScopedSet.insert s)
  | [], _, h => ⟨h, rfl⟩
  | k :: ks, s, h => by
    have e := sext_insert h k
    have e2 := sext_inserts (ks := ks) e.1
    exact ⟨e2.1, e2.2.trans e.2⟩

theorem satExt_addFormula {s s' f} (h : SatWf s) (ha : addFormula s f = .ok s') :
    SatExt s s' := by
  simp only [addFormula] at ha
  obtain ⟨r, -, h2⟩ := bindO_ok ha
  have e : SatExt s { s with
      abs := (absVisitList r.1 { s.abs with next := r.2 }).2
      tseitinVars := (tseitinKeys s.abs.next f).foldl ScopedSet.insert s.tseitinVars } :=
    ⟨⟨h.sat, rfl⟩, ⟨h.sym, rfl⟩, sext_inserts h.ts, ⟨h.cl, rfl⟩⟩
  exact e.trans (satExt_addClauses e.wf h2)

theorem learnedLits_same : ∀ {fs s r}, learnedLits s fs = .ok r →
    r.2.toSat = s.toSat ∧ r.2.toSym = s.toSym ∧ r.2.tseitinVars = s.tseitinVars ∧
    r.2.clauses = s.clauses ∧ r.2.maxVar = s.maxVar
  | [], s, r, h => by
    simp only [learnedLits, Outcome.ok.injEq] at h; subst h; exact ⟨rfl, rfl, rfl, rfl, rfl⟩
  | f :: fs, s, r, h => by
    simp only [learnedLits] at h
    obtain ⟨l, h1, h2⟩ := bindO_ok h
    obtain ⟨q, h3, h4⟩ := bindO_ok h2
    simp only [Outcome.ok.injEq] at h4
    have := learnedLits_same h3
    rw [← h4]; exact this

theorem satExt_addLearned {s s' fs} (h : SatWf s) (ha : addLearned s fs = .ok s') :
    SatExt s s' := by
  simp only [addLearned] at ha
  obtain ⟨r, h1, h2⟩ := bindO_ok ha
  simp only [Outcome.ok.injEq] at h2; subst h2
  obtain ⟨e1, e2, e3, e4, -⟩ := learnedLits_same h1
  refine ⟨⟨?_, ?_⟩, ⟨?_, ?_⟩, ⟨?_, ?_⟩, ?_⟩ <;> simp only [e1, e2, e3, e4]
  · exact h.sat
  · exact h.sym
  · exact h.ts
  · exact vext_pushBack h.cl _

theorem satExt_satCheck {ps s o s'} (h : SatWf s) (ha : satCheck ps s = .ok (o, s')) :
    SatExt s s' := by
  simp only [satCheck] at ha
  split at ha
  · simp only [Outcome.ok.injEq, Prod.mk.injEq] at ha
    rw [← ha.2]; exact ⟨⟨h.sat, rfl⟩, ⟨h.sym, rfl⟩, ⟨h.ts, rfl⟩, ⟨h.cl, rfl⟩⟩
  · simp only [Outcome.ok.injEq, Prod.mk.injEq] at ha
    rw [← ha.2]; exact ⟨⟨h.sat, rfl⟩, ⟨h.sym, rfl⟩, ⟨h.ts, rfl⟩, ⟨h.cl, rfl⟩⟩
  · cases ha

theorem satExt_checkLoop {cfg} : ∀ {n box s cache tick r}, SatWf s →
    checkLoop cfg n box s cache tick = .ok r → SatExt s r.2.1
  | 0, _, _, _, _, _, _, h => by simp [checkLoop] at h
  | n + 1, box, s, cache, tick, r, hw, h => by
    simp only [checkLoop] at h
    obtain ⟨⟨o, s1⟩, h1, h2⟩ := bindR_ok h
    have e := satExt_satCheck hw (lift_ok h1)
    cases o with
    | none => simp only [Run.ok.injEq] at h2; subst h2; exact e
    | some m =>
      simp only at h2
      split at h2
      · simp only [Run.ok.injEq] at h2; subst h2; exact e
      · obtain ⟨fs, h3, h4⟩ := bindR_ok h2
        obtain ⟨t, h5, h6⟩ := bindR_ok h4
        split at h6
        · simp only [Run.ok.injEq] at h6; subst h6; exact e
        · obtain ⟨s2, h7, h8⟩ := bindR_ok h6
          have e2 := satExt_addLearned e.wf (lift_ok h7)
          exact (e.trans e2).trans (satExt_checkLoop e2.wf h8)

/-! ### The context -/

structure CtxWf (c : Ctx) : Prop where
  boxes : BWf c.boxes
  stack : VWf c.stack
  sat : SatWf c.sat

structure CtxExt (c c' : Ctx) : Prop where
  boxes : BWf c'.boxes ∧ vpop c'.boxes = vpop c.boxes
  stack : VExt c.stack c'.stack
  sat : SatExt c.sat c'.sat

theorem CtxExt.wf {c c'} (h : CtxExt c c') : CtxWf c' := ⟨h.boxes.1, h.stack.1, h.sat.wf⟩

theorem CtxExt.refl {c} (h : CtxWf c) : CtxExt c c :=
  ⟨⟨h.boxes, rfl⟩, ⟨h.stack, rfl⟩, .refl h.sat⟩

theorem CtxExt.trans {a b c} (h1 : CtxExt a b) (h2 : CtxExt b c) : CtxExt a c :=
  ⟨⟨h2.boxes.1, h2.boxes.2.trans h1.boxes.2⟩, h1.stack.trans h2.stack, h1.sat.trans h2.sat⟩

theorem ctxExt_setBox {c} (h : CtxWf c) (b) : CtxExt c (c.setBox b) :=
  ⟨⟨bwf_setLast h.boxes b, vpop_setLast h.boxes b⟩, ⟨h.stack, rfl⟩, .refl h.sat⟩

theorem ctxExt_declare {c} (h : CtxWf c) (v m) : CtxExt c (declare c v m) := by
  unfold declare
  simp only
  split
  · have e := ctxExt_setBox h (addToBox c.box v)
    exact ⟨e.boxes, e.stack, e.sat⟩
  · exact ctxExt_setBox h _

theorem ctxExt_setInterval {c c' v lb ub} (h : CtxWf c) (hs : setInterval c v lb ub = .ok c') :
    CtxExt c c' := by
  unfold setInterval at hs
  split at hs
  · simp only [Outcome.ok.injEq] at hs; subst hs; exact ctxExt_setBox h _
  · cases hs

theorem ctxExt_assertF {cfg c c' f} (h : CtxWf c) (hs : assertF cfg c f = .ok c') :
    CtxExt c c' := by
  unfold assertF at hs
  split at hs
  · simp only [Outcome.ok.injEq] at hs; subst hs; exact .refl h
  split at hs
  · simp only [Outcome.ok.injEq] at hs; subst hs; exact .refl h
  split at hs
  · simp only [Outcome.ok.injEq] at hs; subst hs; exact ctxExt_setBox h _
  obtain ⟨r, -, h2⟩ := bindO_ok hs
  have e := ctxExt_setBox h (if r.2.bot then wipeBox cfg r.2 else r.2)
  simp only at h2
  split at h2
  · obtain ⟨s, h3, h4⟩ := bindO_ok h2
    simp only [Outcome.ok.injEq] at h4; subst h4
    have e2 := e.trans (ctxExt_setBox e.wf (List.foldl addToBox (c.setBox
      (if r.2.bot then wipeBox cfg r.2 else r.2)).box (iteProcess (c.setBox
      (if r.2.bot then wipeBox cfg r.2 else r.2)).sat.abs.next f).2.1))
    have w : SatWf { c.sat with abs := { c.sat.abs with
        next := (iteProcess c.sat.abs.next f).2.2 } } := ⟨h.sat.sat, h.sat.sym, h.sat.ts, h.sat.cl⟩
    have e3 := satExt_addFormula w h3
    exact ⟨e2.boxes, vext_pushBack h.stack _, ⟨e3.sat, e3.sym, e3.ts, e3.cl⟩⟩
  · simp only [Outcome.ok.injEq] at h2; subst h2; exact e

theorem ctxExt_checkSat {cfg c o c'} (h : CtxWf c) (hs : checkSat cfg c = .ok (o, c')) :
    CtxExt c c' := by
  simp only [checkSat] at hs
  obtain ⟨r, h1, h2⟩ := bindR_ok hs
  have e : SatExt c.sat r.2.1 := by
    unfold checkCore at h1
    split at h1
    · simp only [Run.ok.injEq] at h1; subst h1; exact .refl h.sat
    split at h1
    · simp only [Run.ok.injEq] at h1; subst h1; exact .refl h.sat
    split at h1
    · simp only [Run.ok.injEq] at h1; subst h1; exact .refl h.sat
    · exact satExt_checkLoop h.sat h1
  split at h2
  · obtain ⟨t, h3, h4⟩ := bindR_ok h2
    obtain ⟨m, h5, h6⟩ := bindR_ok h4
    simp only [Run.ok.injEq, Prod.mk.injEq] at h6
    rw [← h6.2]; exact ⟨⟨h.boxes, rfl⟩, ⟨h.stack, rfl⟩, e⟩
  · simp only [Run.ok.injEq, Prod.mk.injEq] at h2
    rw [← h2.2]; exact ⟨⟨h.boxes, rfl⟩, ⟨h.stack, rfl⟩, e⟩

theorem ctxExt_flat {cfg c cmd a c'} (h : CtxWf c) (hf : Flat cmd)
    (hs : stepCmd cfg c cmd = .ok (a, c')) : CtxExt c c' := by
  cases cmd with
  | newVar _ =>
    simp only [stepCmd, Run.ok.injEq, Prod.mk.injEq] at hs
    rw [← hs.2]
    exact ⟨⟨h.boxes, rfl⟩, ⟨h.stack, rfl⟩,
      ⟨⟨h.sat.sat, rfl⟩, ⟨h.sat.sym, rfl⟩, ⟨h.sat.ts, rfl⟩, ⟨h.sat.cl, rfl⟩⟩⟩
  | declare v m =>
    simp only [stepCmd, Run.ok.injEq, Prod.mk.injEq] at hs
    rw [← hs.2]; exact ctxExt_declare h v m
  | setInterval v lb ub =>
    simp only [stepCmd] at hs
    obtain ⟨c1, h1, h2⟩ := bindR_ok hs
    simp only [Run.ok.injEq, Prod.mk.injEq] at h2
    rw [← h2.2]; exact ctxExt_setInterval h (lift_ok h1)
  | assert f =>
    simp only [stepCmd] at hs
    obtain ⟨c1, h1, h2⟩ := bindR_ok hs
    simp only [Run.ok.injEq, Prod.mk.injEq] at h2
    rw [← h2.2]; exact ctxExt_assertF h (lift_ok h1)
  | check =>
    simp only [stepCmd] at hs
    obtain ⟨c1, h1, h2⟩ := bindR_ok hs
    simp only [Run.ok.injEq, Prod.mk.injEq] at h2
    rw [← h2.2]; exact ctxExt_checkSat h h1
  | push => exact hf.elim
  | pop => exact hf.elim

/-! ### Opening and closing a scope -/

theorem ctxWf_push {c} (h : CtxWf c) : CtxWf (ctxPush c) :=
  ⟨bwf_pushPush h.boxes _, vwf_push h.stack,
    ⟨mwf_push h.sat.sat, mwf_push h.sat.sym, swf_push h.sat.ts, vwf_push h.sat.cl⟩⟩

theorem vpop_of_pop {α : Type u} {s : ScopedVector α} {r} (h : s.pop = .ok r) :
    vpop s = .ok r.1 := by unfold vpop; rw [h]

/-- What a pop restores, component by component. -/
structure PopsTo (c : Ctx) (p : ProblemPart) : Prop where
  boxes : vpop c.boxes = .ok p.boxes
  stack : vpop c.stack = .ok p.stack
  toSat : c.sat.toSat.pop = .ok p.toSat
  toSym : c.sat.toSym.pop = .ok p.toSym
  ts : c.sat.tseitinVars.pop = .ok p.tseitinVars
  cl : vpop c.sat.clauses = .ok p.clauses

theorem popsTo_of_pop {c c'} (h : ctxPop c = .ok c') : PopsTo c (problemPart c') := by
  simp only [ctxPop, satPop] at h
  obtain ⟨st, h1, h⟩ := bindO_ok h
  obtain ⟨bs, h2, h⟩ := bindO_ok h
  obtain ⟨s, h3, h⟩ := bindO_ok h
  simp only [Outcome.ok.injEq] at h; subst h
  obtain ⟨ts, h4, h3⟩ := bindO_ok h3
  obtain ⟨sym, h5, h3⟩ := bindO_ok h3
  obtain ⟨sat, h6, h3⟩ := bindO_ok h3
  obtain ⟨cl, h7, h3⟩ := bindO_ok h3
  simp only [Outcome.ok.injEq] at h3; subst h3
  exact ⟨vpop_of_pop h2, vpop_of_pop h1, h6, h5, h4, vpop_of_pop h7⟩

theorem PopsTo.unique {c p q} (h1 : PopsTo c p) (h2 : PopsTo c q) : p = q := by
  obtain ⟨a1, a2, a3, a4, a5, a6⟩ := p
  obtain ⟨b1, b2, b3, b4, b5, b6⟩ := q
  obtain ⟨x1, x2, x3, x4, x5, x6⟩ := h1
  obtain ⟨y1, y2, y3, y4, y5, y6⟩ := h2
  simp only at *
  rw [x1] at y1; rw [x2] at y2; rw [x3] at y3; rw [x4] at y4; rw [x5] at y5; rw [x6] at y6
  cases y1; cases y2; cases y3; cases y4; cases y5; cases y6; rfl

theorem ctxWf_pop {c c'} (h : CtxWf c) (hp : ctxPop c = .ok c') : CtxWf c' := by
  obtain ⟨p1, p2, p3, p4, p5, p6⟩ := popsTo_of_pop hp
  exact ⟨bwf_pop h.boxes p1, vwf_pop h.stack p2,
    ⟨mwf_pop h.sat.sat p3, mwf_pop h.sat.sym p4, swf_pop h.sat.ts p5, vwf_pop h.sat.cl p6⟩⟩

theorem popsTo_push {c} (h : CtxWf c) : PopsTo (ctxPush c) (problemPart c) :=
  ⟨by
      have e := vext_pushBack (vwf_push h.boxes.vwf) c.box
      exact e.2.trans (vpop_push h.boxes.vwf),
    vpop_push h.stack, mpop_push, mpop_push, spop_push, vpop_push h.sat.cl⟩

theorem CtxExt.pops {c c' p} (h : CtxExt c c') (hp : PopsTo c p) : PopsTo c' p :=
  ⟨h.boxes.2.trans hp.boxes, h.stack.2.trans hp.stack, h.sat.sat.2.trans hp.toSat,
    h.sat.sym.2.trans hp.toSym, h.sat.ts.2.trans hp.ts, h.sat.cl.2.trans hp.cl⟩

theorem PopsTo.of_part {c c' p} (h : problemPart c' = problemPart c) (hp : PopsTo c p) :
    PopsTo c' p := by
  unfold problemPart at h
  simp only [ProblemPart.mk.injEq] at h
  obtain ⟨h1, h2, h3, h4, h5, h6⟩ := h
  exact ⟨h1 ▸ hp.boxes, h2 ▸ hp.stack, h3 ▸ hp.toSat, h4 ▸ hp.toSym, h5 ▸ hp.ts, h6 ▸ hp.cl⟩

/-! ### Histories -/

theorem runCmds_cons {cfg c cmd cmds r} (h : runCmds cfg c (cmd :: cmds) = .ok r) :
    ∃ a c1 q, stepCmd cfg c cmd = .ok (a, c1) ∧ runCmds cfg c1 cmds = .ok q ∧
      r = (a ++ q.1, q.2) := by
  simp only [runCmds] at h
  obtain ⟨⟨a, c1⟩, h1, h2⟩ := bindR_ok h
  obtain ⟨q, h3, h4⟩ := bindR_ok h2
  simp only [Run.ok.injEq] at h4
  exact ⟨a, c1, q, h1, h3, h4.symm⟩

theorem runCmds_append {cfg} : ∀ {cs ds c r}, runCmds cfg c (cs ++ ds) = .ok r →
    ∃ p q, runCmds cfg c cs = .ok p ∧ runCmds cfg p.2 ds = .ok q ∧ r = (p.1 ++ q.1, q.2)
  | [], ds, c, r, h => ⟨([], c), r, rfl, h, rfl⟩
  | cmd :: cs, ds, c, r, h => by
    obtain ⟨a, c1, q, h1, h2, rfl⟩ := runCmds_cons h
    obtain ⟨p, q', h3, h4, rfl⟩ := runCmds_append h2
    refine ⟨(a ++ p.1, p.2), q', ?_, h4, by simp⟩
    simp only [runCmds, h1, Run.bind_ok, h3]

theorem step_wf {cfg c cmd a c'} (h : CtxWf c) (hs : stepCmd cfg c cmd = .ok (a, c')) :
    CtxWf c' := by
  by_cases hf : Flat cmd
  · exact (ctxExt_flat h hf hs).wf
  · cases cmd with
    | push =>
      simp only [stepCmd, Run.ok.injEq, Prod.mk.injEq] at hs
      rw [← hs.2]; exact ctxWf_push h
    | pop =>
      simp only [stepCmd] at hs
      obtain ⟨c1, h1, h2⟩ := bindR_ok hs
      simp only [Run.ok.injEq, Prod.mk.injEq] at h2
      rw [← h2.2]; exact ctxWf_pop h (lift_ok h1)
    | _ => exact absurd trivial hf

theorem run_wf {cfg} : ∀ {cmds c r}, CtxWf c → runCmds cfg c cmds = .ok r → CtxWf r.2
  | [], c, r, h, hr => by simp only [runCmds, Run.ok.injEq] at hr; subst hr; exact h
  | cmd :: cmds, c, r, h, hr => by
    obtain ⟨a, c1, q, h1, h2, rfl⟩ := runCmds_cons hr
    have := run_wf (step_wf h h1) h2
    exact this

theorem ctxWf_init (n : Nat) : CtxWf (Ctx.init n) :=
  ⟨by simp [BWf, Ctx.init], by simp [VWf, Ctx.init],
    ⟨by simp [MWf, Ctx.init], by simp [MWf, Ctx.init], by simp [SWf, Ctx.init],
      by simp [VWf, Ctx.init]⟩⟩

theorem balanced_pops {cfg cmds} (hb : Balanced cmds) : ∀ {c r p}, CtxWf c →
    runCmds cfg c cmds = .ok r → PopsTo c p → PopsTo r.2 p := by
  induction hb with
  | nil =>
    intro c r p _ hr hp
    simp only [runCmds, Run.ok.injEq] at hr; subst hr; exact hp
  | flat hf _ ih =>
    intro c r p hw hr hp
    obtain ⟨a, c1, q, h1, h2, rfl⟩ := runCmds_cons hr
    have e := ctxExt_flat hw hf h1
    have := ih e.wf h2 (e.pops hp)
    exact this
  | scope _ _ iha ihb =>
    intro c r p hw hr hp
    obtain ⟨a, c1, q, h1, h2, rfl⟩ := runCmds_cons hr
    simp only [stepCmd, Run.ok.injEq, Prod.mk.injEq] at h1
    obtain ⟨-, rfl⟩ := h1
    obtain ⟨q1, q2, h3, h4, rfl⟩ := runCmds_append h2
    obtain ⟨a', c2, q3, h5, h6, rfl⟩ := runCmds_cons h4
    simp only [stepCmd] at h5
    obtain ⟨c3, h7, h8⟩ := bindR_ok h5
    simp only [Run.ok.injEq, Prod.mk.injEq] at h8
    obtain ⟨-, rfl⟩ := h8
    have hpop := iha (ctxWf_push hw) h3 (popsTo_push hw)
    have hpart := hpop.unique (popsTo_of_pop (lift_ok h7))
    have w2 := run_wf (ctxWf_push hw) h3
    have := ihb (ctxWf_pop w2 (lift_ok h7)) h6 (hp.of_part hpart.symm)
    exact this

theorem scope_restores {cfg c cmds r} (hw : CtxWf c) (hb : Balanced cmds)
    (h : runCmds cfg c (.push :: (cmds ++ [.pop])) = .ok r) :
    problemPart r.2 = problemPart c := by
  obtain ⟨a, c1, q, h1, h2, rfl⟩ := runCmds_cons h
  simp only [stepCmd, Run.ok.injEq, Prod.mk.injEq] at h1
  obtain ⟨-, rfl⟩ := h1
  obtain ⟨q1, q2, h3, h4, rfl⟩ := runCmds_append h2
  obtain ⟨a', c2, q3, h5, h6, rfl⟩ := runCmds_cons h4
  simp only [runCmds, Run.ok.injEq] at h6; subst h6
  simp only [stepCmd] at h5
  obtain ⟨c3, h7, h8⟩ := bindR_ok h5
  simp only [Run.ok.injEq, Prod.mk.injEq] at h8
  obtain ⟨-, rfl⟩ := h8
  have hpop := balanced_pops hb (ctxWf_push hw) h3 (popsTo_push hw)
  exact (hpop.unique (popsTo_of_pop (lift_ok h7))).symm

end Verif.Proof
