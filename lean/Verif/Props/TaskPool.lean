import Verif.Proof.TaskPool

/-!
# C80: the tasks of a thread pool
-/

namespace Verif.Props
open Verif Verif.Model Verif.Spec

/-- After any execution: the tasks are taken in the order in which they were given, none twice and
none left out, and each task taken is being run by one worker or is finished, not both. -/
theorem C80_once (n : Nat) (hn : 0 < n) (es : List TqEv) (s : TaskPool)
    (h : TaskPool.run es (tqStart n) = .ok s) :
    s.taken ++ s.tasks = tasksGiven es ∧
      (s.finished ++ tasksRunning s.workers).Perm s.taken ∧ s.workers.length = n := by
  have hi := Proof.tq_run hn (Proof.tq_start n) h
  exact ⟨by simpa using hi.fifo, hi.once, hi.len⟩

/-- No wake-up is lost: if nothing is going on, whatever happened, then every task given to the pool
is finished, and if the destructor has begun, all workers have returned, so that it ends. -/
theorem C80_no_lost_wakeup (n : Nat) (hn : 0 < n) (es : List TqEv) (s : TaskPool)
    (h : TaskPool.run es (tqStart n) = .ok s) (hr : AtRest s) :
    s.finished.Perm (tasksGiven es) ∧ (s.stop = true → ∀ w ∈ s.workers, w = .ended) := by
  have hi := Proof.tq_run hn (Proof.tq_start n) h
  have ht : s.tasks = [] := by
    by_contra hne
    have hpos : 0 < s.workers.length := by rw [hi.len]; exact hn
    have hna : ∀ w ∈ s.workers, w = .asleep := by
      intro w hw
      rcases hr.1 w hw with h | h
      · exact h
      · subst h; exact absurd (hi.ends hw).2 hne
    rcases hi.woken hne with h | ⟨w, hw, hwa⟩
    · have := hr.2.1; omega
    · exact hwa (hna w hw)
  refine ⟨?_, fun hs w hw => ?_⟩
  · have h1 := hi.once
    rw [Proof.tasksRunning_idle hr.1, List.append_nil] at h1
    have h2 := hi.fifo
    rw [ht, List.append_nil, List.nil_append] at h2
    exact h2 ▸ h1
  · rcases hr.1 w hw with h | h
    · subst h; exact absurd hw (hi.last hs hr.2.2)
    · exact h

/-- When the destructor has joined all workers, every task given to the pool is finished. -/
theorem C80_join (n : Nat) (hn : 0 < n) (es : List TqEv) (s : TaskPool)
    (h : TaskPool.run es (tqStart n) = .ok s) (hj : ∀ w ∈ s.workers, w = .ended) :
    s.finished.Perm (tasksGiven es) := by
  have hi := Proof.tq_run hn (Proof.tq_start n) h
  have hpos : 0 < s.workers.length := by rw [hi.len]; exact hn
  have hm := List.getElem_mem hpos
  have ht := (hi.ends (hj _ hm ▸ hm)).2
  have h1 := hi.once
  rw [Proof.tasksRunning_idle fun w hw => .inr (hj w hw), List.append_nil] at h1
  have h2 := hi.fifo
  rw [ht, List.append_nil, List.nil_append] at h2
  exact h2 ▸ h1

/-- The pool comes to rest, whatever the schedule: from any state at most so many useful steps are
possible, three for each task in the queue, ... -/
theorem C80_bounded : ∀ (es : List TqEv) (s : TaskPool), AllUseful es s →
    es.length ≤ 3 * s.tasks.length + 3 * s.workers.length + 2 * s.ones + 1 := by
  have key : ∀ (es : List TqEv) (s : TaskPool), AllUseful es s → es.length ≤ Proof.tqMeasure s := by
    intro es
    induction es with
    | nil => intro s _; exact Nat.zero_le _
    | cons e es ih =>
      intro s h
      obtain ⟨s', hs⟩ := Proof.useful_ok h.1
      have h1 := ih s' (h.2 s' hs)
      have h2 := Proof.useful_less h.1 hs
      simp only [List.length_cons]; omega
  intro es s h
  have h1 := key es s h
  have h2 := Proof.weight_le s.workers
  unfold Proof.tqMeasure at h1
  split at h1 <;> omega

/-- ... and as long as it is not at rest there is a useful step. -/
theorem C80_not_stuck (s : TaskPool) (hr : ¬ AtRest s) : ∃ e, Useful s e := by
  by_contra hc
  have hno : ∀ e, ¬ Useful s e := fun e he => hc ⟨e, he⟩
  have hone : s.ones = 0 := by
    by_contra h0
    by_cases ha : TqWorker.asleep ∈ s.workers
    · obtain ⟨j, hj⟩ := List.mem_iff_getElem?.1 ha
      exact hno (.notifyOne j) ⟨Nat.pos_of_ne_zero h0, fun _ => hj⟩
    · exact hno (.notifyOne 0) ⟨Nat.pos_of_ne_zero h0, fun h => absurd h ha⟩
  refine hr ⟨fun w hw => ?_, hone, ?_⟩
  · obtain ⟨i, hi⟩ := List.mem_iff_getElem?.1 hw
    have h1 := hno (.worker i)
    cases w with
    | awake => exact absurd (.inl hi) h1
    | asleep => exact .inl rfl
    | busy k => exact absurd (.inr ⟨k, hi⟩) h1
    | ended => exact .inr rfl
  · cases h : s.all with
    | false => rfl
    | true => exact absurd h (hno .notifyAll)

/-- A worker takes a task, runs it and falls asleep: three useful steps. -/
example : AllUseful [.worker 0, .worker 0, .worker 0] { workers := [.awake], tasks := [7] } := by
  refine ⟨.inl rfl, fun s h => ?_⟩
  cases h
  refine ⟨.inr ⟨7, rfl⟩, fun s h => ?_⟩
  cases h
  exact ⟨.inl rfl, fun _ _ => trivial⟩

/-- After the destructor has begun no task is accepted. -/
theorem C80_stopped (s : TaskPool) (hs : s.stop = true) (k : Nat) : s.step (.enqueue k) = .throw := by
  simp [TaskPool.step, hs]

/-- Two workers fall asleep, three tasks come, one notification comes late; then the pool ends. -/
def tqDemo : List TqEv := [.worker 0, .worker 1, .enqueue 7, .enqueue 8, .notifyOne 1, .worker 1,
  .enqueue 9, .notifyOne 0, .worker 0, .worker 1, .worker 1, .stop, .worker 1, .worker 0,
  .notifyOne 0, .worker 1, .notifyAll, .worker 0]

example : (match TaskPool.run tqDemo (tqStart 2) with
    | .ok s => (s.workers, s.finished, s.taken, s.ones, s.all)
    | _ => ([], [], [], 9, true)) = ([.ended, .ended], [7, 9, 8], [7, 8, 9], 0, false) := rfl

/-- The pool at rest, not stopped. -/
example : ∃ s, TaskPool.run [.worker 0, .enqueue 7, .notifyOne 0, .worker 0, .worker 0, .worker 0]
    (tqStart 1) = .ok s ∧ AtRest s ∧ s.finished = [7] :=
  ⟨_, rfl, ⟨by simp [TaskPool.work, tqStart], rfl, rfl⟩, rfl⟩

/-- Without workers nothing is run: the hypothesis `0 < n` is needed.  The parallel search with one
job has such a pool and gives it no task (`dreal/solver/icp_parallel.cc:209`). -/
example : ∃ s, TaskPool.run [.enqueue 7, .notifyOne 0] (tqStart 0) = .ok s ∧ AtRest s ∧
    s.finished = [] := ⟨_, rfl, ⟨by simp [tqStart], rfl, rfl⟩, rfl⟩

end Verif.Props
