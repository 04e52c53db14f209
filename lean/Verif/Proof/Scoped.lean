import Verif.Model.Scoped
import Verif.Spec.Scoped

/-! Helper lemmas for the backtrackable containers. -/

namespace Verif.Proof
open Verif.Model Verif.Spec

/-- The result of a call agrees with the specification's step. -/
def StepOK {S : Type u} {A : Type v} {C : Type w} (add : C → A → C) (R : S → Snap C → Prop)
    (t : Snap C) (op : ScopedOp A) (r : Outcome S) : Prop :=
  match r with
  | .ok s' => R s' (t.step add op).1 ∧ (t.step add op).2 = false
  | .throw => t.step add op = (t, true)
  | .ub => False

/-! ## Vector -/

theorem popLoop_eq {α : Type u} (prev : Nat) (v : List α) (c : Nat) (h : prev ≤ v.length) :
    ScopedVector.popLoop prev v.length v c = (v.take prev, c + (v.length - prev)) := by
  generalize hn : v.length = n at h
  induction n generalizing v c with
  | zero =>
    have : v = [] := List.length_eq_zero_iff.mp hn
    subst this
    simp [ScopedVector.popLoop]
  | succ n ih =>
    unfold ScopedVector.popLoop
    split
    · rename_i hlt
      rw [ih v.dropLast (c + 1) (by simp [hn]) (by omega)]
      have : v.dropLast = v.take n := by rw [List.dropLast_eq_take, hn]; rfl
      rw [this, List.take_take]
      have : min prev n = prev := by omega
      rw [this]
      congr 1
      omega
    · rename_i hlt
      have : prev = n + 1 := by omega
      subst this
      simp [List.take_of_length_le, hn]

/-- Simulation relation: the saved sizes cut the vector at the saved snapshots. -/
def VRel {α : Type u} (s : ScopedVector α) (t : Snap (List α)) : Prop :=
  s.vec = t.cur ∧ s.scopes = t.saved.map List.length ∧
    List.Pairwise (fun a b => b <+: a) (t.cur :: t.saved)

def vecStep {α : Type u} (s : ScopedVector α) : ScopedOp α → Outcome (ScopedVector α)
  | .add a => .ok (s.pushBack a)
  | .push => .ok s.push
  | .pop => match s.pop with
    | .ok r => .ok r.1
    | .throw => .throw
    | .ub => .ub

theorem vecStep_sim {α : Type u} (s : ScopedVector α) (t : Snap (List α)) (op : ScopedOp α)
    (h : VRel s t) :
    StepOK (fun c a => c ++ [a]) VRel t op (vecStep s op) := by
  unfold StepOK
  obtain ⟨h1, h2, h3⟩ := h
  cases op with
  | add a =>
    refine ⟨⟨by simp [ScopedVector.pushBack, Snap.step, h1], by
      simp [ScopedVector.pushBack, Snap.step, h2], ?_⟩, rfl⟩
    simp only [Snap.step]
    rw [List.pairwise_cons] at h3 ⊢
    refine ⟨fun b hb => (h3.1 b hb).trans (List.prefix_append _ _), h3.2⟩
  | push =>
    refine ⟨⟨by simp [ScopedVector.push, Snap.step, h1], by
      simp [ScopedVector.push, Snap.step, h1, h2], ?_⟩, rfl⟩
    simp only [Snap.step]
    rw [List.pairwise_cons]
    refine ⟨?_, h3⟩
    intro b hb
    rw [List.pairwise_cons] at h3
    rcases List.mem_cons.mp hb with rfl | hb
    · exact List.prefix_refl _
    · exact h3.1 b hb
  | pop =>
    obtain ⟨cur, saved⟩ := t
    cases saved with
    | nil =>
      simp at h2
      simp [vecStep, ScopedVector.pop, h2, Snap.step]
    | cons c rest =>
      simp only [List.map_cons] at h2
      simp only [vecStep, ScopedVector.pop, h2, Snap.step]
      rw [List.pairwise_cons] at h3
      have hp : c <+: cur := h3.1 c (by simp)
      simp only at h1
      subst h1
      rw [popLoop_eq _ _ _ hp.length_le]
      refine ⟨⟨?_, rfl, ?_⟩, trivial⟩
      · exact (List.prefix_iff_eq_take.mp hp).symm
      · exact h3.2

theorem run_sim {S : Type u} {A : Type v} {C : Type w} (step : S → ScopedOp A → Outcome S)
    (add : C → A → C) (R : S → Snap C → Prop)
    (hstep : ∀ s t op, R s t → StepOK add R t op (step s op))
    (ops : List (ScopedOp A)) (s : S) (t : Snap C) (h : R s t) :
    ∃ r, runImpl step s ops = some r ∧ R r.1 (t.run add ops).1 ∧ r.2 = (t.run add ops).2 := by
  induction ops generalizing s t with
  | nil => exact ⟨_, rfl, h, rfl⟩
  | cons op ops ih =>
    have hs := hstep s t op h
    unfold StepOK at hs
    unfold runImpl
    split at hs
    · rename_i s' he
      obtain ⟨r, hr, hR, ho⟩ := ih s' _ hs.1
      refine ⟨(r.1, false :: r.2), ?_, ?_, ?_⟩
      · simp [he, hr]
      · simpa [Snap.run] using hR
      · simp [Snap.run, hs.2, ho]
    · rename_i he
      obtain ⟨r, hr, hR, ho⟩ := ih s t h
      refine ⟨(r.1, true :: r.2), ?_, ?_, ?_⟩
      · simp [he, hr]
      · simpa [Snap.run, hs] using hR
      · simp [Snap.run, hs, ho]
    · exact hs.elim

/-! ## Map -/

variable {K : Type u} {V : Type v} [DecidableEq K]

/-- Undo every action of a log, most recent first. -/
def undoAll : List (MapAction K V) → (K → Option V) → Outcome (K → Option V)
  | [], m => .ok m
  | a :: as, m => match ScopedMap.undo1 m a with
    | .ok m' => undoAll as m'
    | .throw => .throw
    | .ub => .ub

theorem undoTo_append (as bs : List (MapAction K V)) (m m' : K → Option V)
    (h : undoAll as m = .ok m') :
    ScopedMap.undoTo bs.length (as ++ bs) m = .ok (bs, m') := by
  induction as generalizing m with
  | nil =>
    simp [undoAll] at h
    subst h
    cases bs with
    | nil => simp [ScopedMap.undoTo]
    | cons b bs => simp [ScopedMap.undoTo]
  | cons a as ih =>
    simp only [undoAll] at h
    simp only [List.cons_append, ScopedMap.undoTo, List.length_cons, List.length_append]
    rw [if_pos (by omega)]
    split at h <;> simp_all

/-- The log splits into one segment per open scope, and undoing a segment leads from the
contents at its end to the snapshot at its beginning. -/
def MSegs : List (MapAction K V) → List Nat → (K → Option V) → List (K → Option V) → Prop
  | _, [], _, [] => True
  | log, n :: ns, m, c :: cs => ∃ as bs, log = as ++ bs ∧ bs.length = n ∧
      undoAll as m = .ok c ∧ MSegs bs ns c cs
  | _, _, _, _ => False

def MRel (s : ScopedMap K V) (t : Snap (K → Option V)) : Prop :=
  s.map = t.cur ∧ MSegs s.actions s.stack t.cur t.saved

def mapStep (s : ScopedMap K V) : ScopedOp (K × V) → Outcome (ScopedMap K V)
  | .add kv => .ok (s.insert kv.1 kv.2)
  | .push => .ok s.push
  | .pop => s.pop

def mapAdd (m : K → Option V) (kv : K × V) : K → Option V :=
  fun x => if x = kv.1 then some kv.2 else m x

theorem insert_map (s : ScopedMap K V) (k : K) (v : V) :
    (s.insert k v).map = ScopedMap.upd s.map k (some v) := by
  unfold ScopedMap.insert; split <;> rfl

theorem insert_undo (s : ScopedMap K V) (k : K) (v : V) :
    ∃ a, (s.insert k v).actions = a :: s.actions ∧ (s.insert k v).stack = s.stack ∧
      ScopedMap.undo1 (s.insert k v).map a = .ok s.map := by
  unfold ScopedMap.insert
  split
  · rename_i h
    refine ⟨_, rfl, rfl, ?_⟩
    simp only [ScopedMap.undo1, ScopedMap.upd, if_true]
    congr 1
    funext x
    by_cases hx : x = k
    · simp [ScopedMap.upd, hx, h]
    · simp [ScopedMap.upd, hx]
  · rename_i old h
    refine ⟨_, rfl, rfl, ?_⟩
    simp only [ScopedMap.undo1, ScopedMap.upd, if_true]
    congr 1
    funext x
    by_cases hx : x = k
    · simp [ScopedMap.upd, hx, h]
    · simp [ScopedMap.upd, hx]

theorem mapStep_sim (s : ScopedMap K V) (t : Snap (K → Option V)) (op : ScopedOp (K × V))
    (h : MRel s t) :
    StepOK mapAdd MRel t op (mapStep s op) := by
  unfold StepOK
  obtain ⟨h1, h2⟩ := h
  obtain ⟨cur, saved⟩ := t
  simp only at h1 h2
  subst h1
  cases op with
  | add kv =>
    refine ⟨⟨?_, ?_⟩, rfl⟩
    · simp only [insert_map, Snap.step]; rfl
    · obtain ⟨a, ha1, ha2, ha3⟩ := insert_undo s kv.1 kv.2
      simp only [Snap.step]
      rw [ha1, ha2]
      rw [insert_map] at ha3
      cases hst : s.stack with
      | nil => rw [hst] at h2; cases saved <;> simp_all [MSegs]
      | cons n ns =>
        rw [hst] at h2
        cases saved with
        | nil => simp [MSegs] at h2
        | cons c cs =>
          obtain ⟨as, bs, e1, e2, e3, e4⟩ := h2
          refine ⟨a :: as, bs, by simp [e1], e2, ?_, e4⟩
          have : mapAdd s.map kv = ScopedMap.upd s.map kv.1 (some kv.2) := rfl
          rw [this]
          simp [undoAll, ha3, e3]
  | push =>
    refine ⟨⟨rfl, ?_⟩, rfl⟩
    exact ⟨[], s.actions, rfl, rfl, rfl, h2⟩
  | pop =>
    cases hst : s.stack with
    | nil =>
      rw [hst] at h2
      cases saved with
      | nil => simp [mapStep, ScopedMap.pop, hst, Snap.step]
      | cons c cs => simp [MSegs] at h2
    | cons n ns =>
      rw [hst] at h2
      cases saved with
      | nil => simp [MSegs] at h2
      | cons c cs =>
        obtain ⟨as, bs, e1, e2, e3, e4⟩ := h2
        subst e2
        simp only [mapStep, ScopedMap.pop, hst, e1, undoTo_append as bs s.map c e3]
        exact ⟨⟨rfl, e4⟩, rfl⟩

/-! ## Set -/

def undoAllS : List K → (K → Bool) → Outcome (K → Bool)
  | [], m => .ok m
  | a :: as, m => if m a then undoAllS as (fun x => if x = a then false else m x) else .ub

theorem undoToS_append (as bs : List K) (m m' : K → Bool) (h : undoAllS as m = .ok m') :
    ScopedSet.undoTo bs.length (as ++ bs) m = .ok (bs, m') := by
  induction as generalizing m with
  | nil =>
    simp [undoAllS] at h
    subst h
    cases bs with
    | nil => simp [ScopedSet.undoTo]
    | cons b bs => simp [ScopedSet.undoTo]
  | cons a as ih =>
    simp only [undoAllS] at h
    simp only [List.cons_append, ScopedSet.undoTo, List.length_cons, List.length_append]
    rw [if_pos (by omega)]
    split at h
    · rename_i ha
      rw [if_pos ha]
      exact ih _ h
    · cases h

def SSegs : List K → List Nat → (K → Bool) → List (K → Bool) → Prop
  | _, [], _, [] => True
  | log, n :: ns, m, c :: cs => ∃ as bs, log = as ++ bs ∧ bs.length = n ∧
      undoAllS as m = .ok c ∧ SSegs bs ns c cs
  | _, _, _, _ => False

def SRel (s : ScopedSet K) (t : Snap (K → Bool)) : Prop :=
  s.set = t.cur ∧ SSegs s.actions s.stack t.cur t.saved

def setStep (s : ScopedSet K) : ScopedOp K → Outcome (ScopedSet K)
  | .add k => .ok (s.insert k)
  | .push => .ok s.push
  | .pop => s.pop

def setAdd (m : K → Bool) (k : K) : K → Bool := fun x => if x = k then true else m x

theorem setStep_sim (s : ScopedSet K) (t : Snap (K → Bool)) (op : ScopedOp K) (h : SRel s t) :
    StepOK setAdd SRel t op (setStep s op) := by
  unfold StepOK
  obtain ⟨h1, h2⟩ := h
  obtain ⟨cur, saved⟩ := t
  simp only at h1 h2
  subst h1
  cases op with
  | add k =>
    by_cases hk : s.set k = true
    · have : setAdd s.set k = s.set := by
        funext x; simp only [setAdd]; split
        · rename_i hx; rw [hx, hk]
        · rfl
      simp only [setStep, ScopedSet.insert, hk, if_true, Snap.step, this]
      exact ⟨⟨rfl, h2⟩, trivial⟩
    · simp only [setStep, ScopedSet.insert, hk, Snap.step]
      refine ⟨⟨rfl, ?_⟩, trivial⟩
      cases hst : s.stack with
      | nil => rw [hst] at h2; cases saved <;> simp_all [SSegs]
      | cons n ns =>
        rw [hst] at h2
        cases saved with
        | nil => simp [SSegs] at h2
        | cons c cs =>
          obtain ⟨as, bs, e1, e2, e3, e4⟩ := h2
          refine ⟨k :: as, bs, by simp [e1], e2, ?_, e4⟩
          have : (fun x => if x = k then false else setAdd s.set k x) = s.set := by
            funext x
            by_cases hx : x = k
            · subst hx; simp; simpa using hk
            · simp [setAdd, hx]
          simp only [undoAllS, this, e3]
          simp [setAdd]
  | push => exact ⟨⟨rfl, ⟨[], s.actions, rfl, rfl, rfl, h2⟩⟩, rfl⟩
  | pop =>
    cases hst : s.stack with
    | nil =>
      rw [hst] at h2
      cases saved with
      | nil => simp [setStep, ScopedSet.pop, hst, Snap.step]
      | cons c cs => simp [SSegs] at h2
    | cons n ns =>
      rw [hst] at h2
      cases saved with
      | nil => simp [SSegs] at h2
      | cons c cs =>
        obtain ⟨as, bs, e1, e2, e3, e4⟩ := h2
        subst e2
        simp only [setStep, ScopedSet.pop, hst, e1, undoToS_append as bs s.set c e3]
        exact ⟨⟨rfl, e4⟩, rfl⟩

end Verif.Proof
