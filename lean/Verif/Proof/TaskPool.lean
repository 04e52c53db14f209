import Verif.Spec.TaskPool
import Mathlib.Data.List.Perm.Basic

/-! # Helper lemmas on the tasks of a pool -/

namespace Verif.Proof
open Verif.Model Verif.Spec

theorem tasksRunning_set {ws : List TqWorker} {i : Nat} {w : TqWorker} (v : TqWorker)
    (h : ws[i]? = some w) :
    List.Perm (tasksRunning [w] ++ tasksRunning (ws.set i v)) (tasksRunning [v] ++ tasksRunning ws) := by
  induction ws generalizing i with
  | nil => simp at h
  | cons a ws ih =>
    have hc : ∀ (x : TqWorker) l, tasksRunning (x :: l) = tasksRunning [x] ++ tasksRunning l := by
      intro x l; cases x <;> simp [tasksRunning]
    cases i with
    | zero =>
      simp only [List.getElem?_cons_zero, Option.some.injEq] at h
      subst h
      simp only [List.set_cons_zero]
      rw [hc v ws, hc a ws, ← List.append_assoc, ← List.append_assoc]
      exact List.Perm.append_right _ List.perm_append_comm
    | succ i =>
      simp only [List.getElem?_cons_succ] at h
      simp only [List.set_cons_succ]
      rw [hc a (ws.set i v), hc a ws]
      have := ih h
      calc tasksRunning [w] ++ (tasksRunning [a] ++ tasksRunning (ws.set i v))
          _ = (tasksRunning [w] ++ tasksRunning [a]) ++ tasksRunning (ws.set i v) := by
            rw [List.append_assoc]
          _ |>.Perm ((tasksRunning [a] ++ tasksRunning [w]) ++ tasksRunning (ws.set i v)) :=
            List.Perm.append_right _ List.perm_append_comm
          _ = tasksRunning [a] ++ (tasksRunning [w] ++ tasksRunning (ws.set i v)) := by
            rw [List.append_assoc]
          _ |>.Perm (tasksRunning [a] ++ (tasksRunning [v] ++ tasksRunning ws)) :=
            List.Perm.append_left _ this
          _ = (tasksRunning [a] ++ tasksRunning [v]) ++ tasksRunning ws := by
            rw [List.append_assoc]
          _ |>.Perm ((tasksRunning [v] ++ tasksRunning [a]) ++ tasksRunning ws) :=
            List.Perm.append_right _ List.perm_append_comm
          _ = tasksRunning [v] ++ (tasksRunning [a] ++ tasksRunning ws) := by
            rw [List.append_assoc]

theorem tasksRunning_wake (ws : List TqWorker) :
    tasksRunning (ws.map TqWorker.wake) = tasksRunning ws := by
  induction ws with
  | nil => rfl
  | cons a ws ih => cases a <;> simp [tasksRunning, TqWorker.wake, ih]

theorem tasksRunning_idle {ws : List TqWorker} (h : ∀ w ∈ ws, w = .asleep ∨ w = .ended) :
    tasksRunning ws = [] := by
  induction ws with
  | nil => rfl
  | cons a ws ih =>
    have := ih fun w hw => h w (List.mem_cons_of_mem _ hw)
    rcases h a List.mem_cons_self with rfl | rfl <;> simp [tasksRunning, this]

/-- What holds after every execution. -/
structure TqInv (n : Nat) (given : List Nat) (s : TaskPool) : Prop where
  len : s.workers.length = n
  fifo : s.taken ++ s.tasks = given
  once : (s.finished ++ tasksRunning s.workers).Perm s.taken
  ends : .ended ∈ s.workers → s.stop = true ∧ s.tasks = []
  woken : s.tasks ≠ [] → 0 < s.ones ∨ ∃ w ∈ s.workers, w ≠ .asleep
  last : s.stop = true → s.all = false → .asleep ∉ s.workers

theorem tq_work {n given s} (hi : TqInv n given s) (i : Nat) : TqInv n given (s.work i) := by
  unfold TaskPool.work
  cases hw : s.workers[i]? with
  | none => exact hi
  | some w =>
    have hlt : i < s.workers.length := (List.getElem?_eq_some_iff.1 hw).1
    have hmem : ∀ v, v ∈ s.workers.set i v := fun v => List.mem_set hlt v
    have hother : ∀ {u v}, u ∈ s.workers.set i v → u ∈ s.workers ∨ u = v :=
      fun h => List.mem_or_eq_of_mem_set h
    cases w with
    | awake =>
      dsimp only
      have hs := fun v => tasksRunning_set v hw
      cases ht : s.tasks with
      | nil =>
        dsimp only
        refine ⟨by simp [hi.len], by simpa [ht] using hi.fifo, ?_, ?_, ?_, ?_⟩
        · refine List.Perm.trans (List.Perm.append_left _ ?_) hi.once
          have := hs (if s.stop then .ended else .asleep)
          cases hst : s.stop <;> simpa [tasksRunning, hst] using this
        · intro h
          refine ⟨?_, rfl⟩
          rcases hother h with h | h
          · exact (hi.ends h).1
          · cases hst : s.stop with
            | true => rfl
            | false => simp [hst] at h
        · intro h; exact absurd rfl h
        · intro h1 h2 h3
          have h1 : s.stop = true := h1
          rcases hother h3 with h | h
          · exact hi.last h1 h2 h
          · simp [h1] at h
      | cons k rest =>
        dsimp only
        refine ⟨by simp [hi.len], by simpa [ht] using hi.fifo, ?_, ?_, ?_, ?_⟩
        · have h1 := hs (.busy k)
          simp only [tasksRunning, List.nil_append, List.cons_append] at h1
          calc s.finished ++ tasksRunning (s.workers.set i (.busy k))
              _ |>.Perm (s.finished ++ k :: tasksRunning s.workers) :=
                List.Perm.append_left _ h1
              _ |>.Perm (k :: (s.finished ++ tasksRunning s.workers)) := List.perm_middle
              _ |>.Perm (k :: s.taken) := List.Perm.cons _ hi.once
              _ |>.Perm (s.taken ++ [k]) := (List.perm_append_singleton k s.taken).symm
        · intro h
          exfalso
          rcases hother h with h | h
          · have := (hi.ends h).2; rw [ht] at this; cases this
          · cases h
        · intro _; exact .inr ⟨.busy k, hmem _, by simp⟩
        · intro h1 h2 h3
          rcases hother h3 with h | h
          · exact hi.last h1 h2 h
          · cases h
    | asleep =>
      dsimp only
      refine ⟨by simp [hi.len], hi.fifo, ?_, ?_, fun _ => .inr ⟨.awake, hmem _, by simp⟩, ?_⟩
      · refine List.Perm.trans (List.Perm.append_left _ ?_) hi.once
        simpa [tasksRunning] using tasksRunning_set .awake hw
      · intro h
        rcases hother h with h | h
        · exact hi.ends h
        · cases h
      · intro h1 h2 h3
        rcases hother h3 with h | h
        · exact hi.last h1 h2 h
        · cases h
    | busy k =>
      dsimp only
      refine ⟨by simp [hi.len], hi.fifo, ?_, ?_, fun _ => .inr ⟨.awake, hmem _, by simp⟩, ?_⟩
      · refine List.Perm.trans ?_ hi.once
        rw [List.append_assoc]
        refine List.Perm.append_left _ ?_
        simpa [tasksRunning] using tasksRunning_set .awake hw
      · intro h
        rcases hother h with h | h
        · exact hi.ends h
        · cases h
      · intro h1 h2 h3
        rcases hother h3 with h | h
        · exact hi.last h1 h2 h
        · cases h
    | ended => exact hi

theorem tq_step {n given s s' e} (hn : 0 < n) (hi : TqInv n given s) (h : s.step e = .ok s') :
    TqInv n (given ++ tasksGiven [e]) s' := by
  cases e with
  | enqueue k =>
    simp only [TaskPool.step] at h
    split at h
    · cases h
    · rename_i hst
      simp only [Outcome.ok.injEq] at h; subst h
      refine ⟨hi.len, ?_, hi.once, ?_, fun _ => .inl (Nat.succ_pos _), hi.last⟩
      · simp only [tasksGiven]; rw [← hi.fifo, List.append_assoc]
      · intro he; exact absurd (hi.ends he).1 hst
  | notifyOne j =>
    simp only [tasksGiven, List.append_nil]
    simp only [TaskPool.step] at h
    split at h
    · simp only [Outcome.ok.injEq] at h; subst h; exact hi
    · split at h
      · split at h
        · rename_i hw
          simp only [Outcome.ok.injEq] at h; subst h
          have hlt : j < s.workers.length := (List.getElem?_eq_some_iff.1 hw).1
          refine ⟨by simp [hi.len], hi.fifo, ?_, ?_,
            fun _ => .inr ⟨.awake, List.mem_set hlt _, by simp⟩, ?_⟩
          · refine List.Perm.trans (List.Perm.append_left _ ?_) hi.once
            simpa [tasksRunning] using tasksRunning_set .awake hw
          · intro h
            rcases List.mem_or_eq_of_mem_set h with h | h
            · exact hi.ends h
            · cases h
          · intro h1 h2 h3
            rcases List.mem_or_eq_of_mem_set h3 with h | h
            · exact hi.last h1 h2 h
            · cases h
        · simp only [Outcome.ok.injEq] at h; subst h; exact hi
      · rename_i hna
        simp only [Outcome.ok.injEq] at h; subst h
        refine ⟨hi.len, hi.fifo, hi.once, hi.ends, fun _ => .inr ?_, hi.last⟩
        have hpos : 0 < s.workers.length := by rw [hi.len]; exact hn
        exact ⟨_, List.getElem_mem hpos, fun hh => hna (hh ▸ List.getElem_mem hpos)⟩
  | stop =>
    simp only [tasksGiven, List.append_nil]
    simp only [TaskPool.step, Outcome.ok.injEq] at h; subst h
    exact ⟨hi.len, hi.fifo, hi.once, fun he => ⟨rfl, (hi.ends he).2⟩, hi.woken,
      fun _ h2 => by cases h2⟩
  | notifyAll =>
    simp only [tasksGiven, List.append_nil]
    simp only [TaskPool.step] at h
    split at h
    · simp only [Outcome.ok.injEq] at h; subst h
      have hno : TqWorker.asleep ∉ s.workers.map TqWorker.wake := by
        intro hh
        obtain ⟨w, _, hw⟩ := List.mem_map.1 hh
        cases w <;> cases hw
      refine ⟨by simp [hi.len], hi.fifo, by rw [tasksRunning_wake]; exact hi.once, ?_, ?_,
        fun _ _ => hno⟩
      · intro he
        obtain ⟨w, hm, hw⟩ := List.mem_map.1 he
        cases w <;> cases hw
        exact hi.ends hm
      · intro _
        have hpos : 0 < (s.workers.map TqWorker.wake).length := by
          rw [List.length_map, hi.len]; exact hn
        exact .inr ⟨_, List.getElem_mem hpos, fun hh => hno (hh ▸ List.getElem_mem hpos)⟩
    · simp only [Outcome.ok.injEq] at h; subst h; exact hi
  | worker i =>
    simp only [tasksGiven, List.append_nil]
    simp only [TaskPool.step, Outcome.ok.injEq] at h; subst h
    exact tq_work hi i

theorem tasksGiven_cons (e : TqEv) (es : List TqEv) :
    tasksGiven (e :: es) = tasksGiven [e] ++ tasksGiven es := by
  cases e <;> simp [tasksGiven]

theorem tq_run {n} (hn : 0 < n) : ∀ {es given s s'}, TqInv n given s →
    TaskPool.run es s = .ok s' → TqInv n (given ++ tasksGiven es) s'
  | [], given, s, s', hi, h => by
    simp only [TaskPool.run, Outcome.ok.injEq] at h; subst h
    simpa [tasksGiven] using hi
  | e :: es, given, s, s', hi, h => by
    simp only [TaskPool.run] at h
    cases hs : s.step e with
    | throw => rw [hs] at h; cases h
    | ub => rw [hs] at h; cases h
    | ok q =>
      rw [hs] at h
      have := tq_run hn (tq_step hn hi hs) h
      rw [List.append_assoc, ← tasksGiven_cons] at this
      exact this

theorem tq_start (n : Nat) : TqInv n [] (tqStart n) := by
  refine ⟨by simp [tqStart], rfl, ?_, ?_, fun h => absurd rfl h, ?_⟩
  · have : tasksRunning (List.replicate n TqWorker.awake) = [] := by
      induction n with
      | zero => rfl
      | succ n ih => simp [List.replicate_succ, tasksRunning, ih]
    simp [tqStart, this]
  · intro h; simp [tqStart] at h
  · intro h; simp [tqStart] at h

/-- The steps a worker may have before it. -/
def tqWeight : TqWorker → Nat
  | .awake => 1
  | .busy _ => 2
  | _ => 0

def tqMeasure (s : TaskPool) : Nat :=
  3 * s.tasks.length + (s.workers.map tqWeight).sum + 2 * s.ones +
    (if s.all then s.workers.length + 1 else 0)

theorem weight_set {ws : List TqWorker} {i : Nat} {w : TqWorker} (v : TqWorker)
    (h : ws[i]? = some w) :
    ((ws.set i v).map tqWeight).sum + tqWeight w = (ws.map tqWeight).sum + tqWeight v := by
  induction ws generalizing i with
  | nil => simp at h
  | cons a ws ih =>
    cases i with
    | zero =>
      simp only [List.getElem?_cons_zero, Option.some.injEq] at h
      subst h
      simp only [List.set_cons_zero, List.map_cons, List.sum_cons]; omega
    | succ i =>
      simp only [List.getElem?_cons_succ] at h
      simp only [List.set_cons_succ, List.map_cons, List.sum_cons]
      have := ih h; omega

theorem weight_wake (ws : List TqWorker) :
    ((ws.map TqWorker.wake).map tqWeight).sum ≤ (ws.map tqWeight).sum + ws.length := by
  induction ws with
  | nil => simp
  | cons a ws ih =>
    simp only [List.map_cons, List.sum_cons, List.length_cons]
    cases a <;> simp only [TqWorker.wake, tqWeight] <;> omega

theorem useful_less {s s' e} (hu : Useful s e) (h : s.step e = .ok s') :
    tqMeasure s' < tqMeasure s := by
  cases e with
  | enqueue k => exact hu.elim
  | stop => exact hu.elim
  | notifyAll =>
    have hu : s.all = true := hu
    simp only [TaskPool.step, hu, if_true, Outcome.ok.injEq] at h; subst h
    have := weight_wake s.workers
    simp only [tqMeasure, hu, if_true, List.length_map, Bool.false_eq_true, if_false]; omega
  | notifyOne j =>
    obtain ⟨h1, h2⟩ := hu
    simp only [TaskPool.step, Nat.ne_of_gt h1, if_false] at h
    split at h
    · rename_i ha
      have hw := h2 ha
      simp only [hw, if_true, Outcome.ok.injEq] at h; subst h
      have := weight_set .awake hw
      simp only [tqWeight] at this
      simp only [tqMeasure, List.length_set]; omega
    · simp only [Outcome.ok.injEq] at h; subst h
      simp only [tqMeasure]; omega
  | worker i =>
    simp only [TaskPool.step, Outcome.ok.injEq] at h; subst h
    rcases hu with hw | ⟨k, hw⟩
    · simp only [TaskPool.work, hw]
      cases ht : s.tasks with
      | nil =>
        have := weight_set (if s.stop then .ended else .asleep) hw
        have h0 : tqWeight (if s.stop then .ended else .asleep) = 0 := by
          cases s.stop <;> rfl
        rw [h0] at this
        simp only [tqWeight] at this
        simp only [tqMeasure, List.length_set, ht]; omega
      | cons k rest =>
        have := weight_set (.busy k) hw
        simp only [tqWeight] at this
        simp only [tqMeasure, List.length_set, ht, List.length_cons]; omega
    · simp only [TaskPool.work, hw]
      have := weight_set .awake hw
      simp only [tqWeight] at this
      simp only [tqMeasure, List.length_set]; omega

theorem useful_ok {s e} (hu : Useful s e) : ∃ s', s.step e = .ok s' := by
  cases e with
  | enqueue k => exact hu.elim
  | stop => exact hu.elim
  | notifyAll => simp only [TaskPool.step]; split <;> exact ⟨_, rfl⟩
  | notifyOne j =>
    simp only [TaskPool.step]
    split
    · exact ⟨_, rfl⟩
    · split
      · split <;> exact ⟨_, rfl⟩
      · exact ⟨_, rfl⟩
  | worker i => exact ⟨_, rfl⟩

theorem weight_le (ws : List TqWorker) : (ws.map tqWeight).sum ≤ 2 * ws.length := by
  induction ws with
  | nil => simp
  | cons a ws ih =>
    simp only [List.map_cons, List.sum_cons, List.length_cons]
    cases a <;> simp only [tqWeight] <;> omega

end Verif.Proof
