import Verif.Proof.Scoped

/-!
# C01–C03: backtrackable containers behave like a stack of snapshots

(`dreal/util/scoped_vector.h`, `scoped_unordered_map.h`, `scoped_unordered_set.h`)
-/

namespace Verif.Props
open Verif.Model Verif.Spec Verif.Proof

/-- How a user's call reaches the scoped vector. -/
def vectorCall {α : Type u} (s : ScopedVector α) : ScopedOp α → Outcome (ScopedVector α)
  | .add a => .ok (s.pushBack a)
  | .push => .ok s.push
  | .pop => match s.pop with
    | .ok r => .ok r.1
    | .throw => .throw
    | .ub => .ub

/-- C01. For every history of `push_back`, `push`, `pop` from a new vector: no call has
undefined behaviour, exactly the unmatched pops are rejected, and the visible elements are
those of the stack of snapshots. -/
theorem C01_scoped_vector_history {α : Type u} (ops : List (ScopedOp α)) :
    ∃ s, runImpl vectorCall ({} : ScopedVector α) ops =
        some (s, (Snap.run (fun c a => c ++ [a]) ⟨[], []⟩ ops).2) ∧
      s.vec = (Snap.run (fun c a => c ++ [a]) ⟨[], []⟩ ops).1.cur := by
  have hstep : vectorCall (α := α) = vecStep := by
    funext s op; cases op <;> rfl
  rw [hstep]
  obtain ⟨r, hr, hR, ho⟩ := run_sim vecStep (fun c a => c ++ [a]) VRel vecStep_sim ops {}
    ⟨[], []⟩ ⟨rfl, rfl, by simp⟩
  exact ⟨r.1, by rw [hr, ← ho], hR.1⟩

/-- C01. The number a successful `pop` returns is the number of elements added since the
matching push (for a vector reached by any history). -/
theorem C01_pop_count {α : Type u} (ops : List (ScopedOp α)) (s : ScopedVector α) (o : List Bool)
    (h : runImpl vectorCall ({} : ScopedVector α) ops = some (s, o)) (s' : ScopedVector α) (n : Nat)
    (hp : s.pop = .ok (s', n)) : s.vec.length = s'.vec.length + n ∧ s'.vec <+: s.vec := by
  have hstep : vectorCall (α := α) = vecStep := by
    funext s op; cases op <;> rfl
  rw [hstep] at h
  obtain ⟨r, hr, hR, ho⟩ := run_sim vecStep (fun c a => c ++ [a]) VRel vecStep_sim ops {}
    ⟨[], []⟩ ⟨rfl, rfl, by simp⟩
  rw [h] at hr
  obtain rfl := Option.some.inj hr
  obtain ⟨h1, h2, h3⟩ := hR
  simp only at h1 h2
  unfold ScopedVector.pop at hp
  split at hp
  · cases hp
  · rename_i prev rest hsc
    rw [hsc] at h2
    cases hsv : ((Snap.run (fun c a => c ++ [a]) ⟨[], []⟩ ops).1).saved with
    | nil => rw [hsv] at h2; simp at h2
    | cons c cs =>
      rw [hsv] at h2 h3
      simp only [List.map_cons, List.cons.injEq] at h2
      rw [List.pairwise_cons] at h3
      have hpre : c <+: s.vec := h1 ▸ h3.1 c (by simp)
      rw [h2.1] at hp
      rw [popLoop_eq _ _ _ hpre.length_le] at hp
      simp only [Outcome.ok.injEq, Prod.mk.injEq] at hp
      obtain ⟨hs', hn⟩ := hp
      subst hs'
      have := hpre.length_le
      refine ⟨?_, List.take_prefix _ _⟩
      simp only [List.length_take]
      omega

/-- Non-vacuity: a history with nested scopes, an unmatched pop, and visible elements. -/
example : (runImpl vectorCall ({} : ScopedVector Nat)
    [.add 1, .push, .add 2, .push, .add 3, .pop, .pop, .pop, .add 4]).map
      (fun r => (r.1.vec, r.2)) =
    some ([1, 4], [false, false, false, false, false, false, false, true, false]) := by decide

/-- How a user's call reaches the scoped map. -/
def mapCall {K : Type u} {V : Type v} [DecidableEq K] (s : ScopedMap K V) :
    ScopedOp (K × V) → Outcome (ScopedMap K V)
  | .add kv => .ok (s.insert kv.1 kv.2)
  | .push => .ok s.push
  | .pop => s.pop

/-- C02. For every history of `insert`, `push`, `pop` from a new map: no call has undefined
behaviour, exactly the unmatched pops are rejected, and every look-up answers like the stack
of snapshots. -/
theorem C02_scoped_map_history {K : Type u} {V : Type v} [DecidableEq K]
    (ops : List (ScopedOp (K × V))) :
    ∃ s, runImpl mapCall ({} : ScopedMap K V) ops =
        some (s, (Snap.run (fun m kv x => if x = kv.1 then some kv.2 else m x)
          ⟨fun _ => none, []⟩ ops).2) ∧
      ∀ k, s.map k = (Snap.run (fun m kv x => if x = kv.1 then some kv.2 else m x)
          ⟨fun _ => none, []⟩ ops).1.cur k := by
  have hstep : mapCall (K := K) (V := V) = mapStep := by
    funext s op; cases op <;> rfl
  rw [hstep]
  obtain ⟨r, hr, hR, ho⟩ := run_sim mapStep mapAdd MRel mapStep_sim ops {}
    ⟨fun _ => none, []⟩ ⟨rfl, by simp [MSegs]⟩
  refine ⟨r.1, ?_, fun k => ?_⟩
  · rw [hr]; exact congrArg some (Prod.ext rfl ho)
  · exact congrFun hR.1 k

example : (runImpl mapCall ({} : ScopedMap Nat Nat)
    [.add (1, 10), .push, .add (1, 11), .add (1, 12), .add (2, 20), .pop]).map
      (fun r => (r.1.map 1, r.1.map 2)) = some (some 10, none) := by decide

/-- How a user's call reaches the scoped set. -/
def setCall {K : Type u} [DecidableEq K] (s : ScopedSet K) : ScopedOp K → Outcome (ScopedSet K)
  | .add k => .ok (s.insert k)
  | .push => .ok s.push
  | .pop => s.pop

/-- C03. The same for the scoped set. -/
theorem C03_scoped_set_history {K : Type u} [DecidableEq K] (ops : List (ScopedOp K)) :
    ∃ s, runImpl setCall ({} : ScopedSet K) ops =
        some (s, (Snap.run (fun m k x => if x = k then true else m x)
          ⟨fun _ => false, []⟩ ops).2) ∧
      ∀ k, s.set k = (Snap.run (fun m k x => if x = k then true else m x)
          ⟨fun _ => false, []⟩ ops).1.cur k := by
  have hstep : setCall (K := K) = setStep := by
    funext s op; cases op <;> rfl
  rw [hstep]
  obtain ⟨r, hr, hR, ho⟩ := run_sim setStep setAdd SRel setStep_sim ops {}
    ⟨fun _ => false, []⟩ ⟨rfl, by simp [SSegs]⟩
  refine ⟨r.1, ?_, fun k => ?_⟩
  · rw [hr]; exact congrArg some (Prod.ext rfl ho)
  · exact congrFun hR.1 k

example : (runImpl setCall ({} : ScopedSet Nat)
    [.add 1, .push, .add 1, .add 2, .pop, .pop]).map
      (fun r => (r.1.set 1, r.1.set 2, r.2.getLast?)) = some (true, false, some true) := by decide

end Verif.Props
