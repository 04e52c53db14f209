import Verif.Spec.Timer

/-! # C76: the time reported for a phase is the time spent in it -/

namespace Verif.Props
open Verif.Model Verif.Spec

theorem timerRun_snoc (t0 : Nat) (es : List TimerEv) (e : TimerEv) :
    timerRun t0 (es ++ [e]) = timerStep (timerRun t0 es) e := by
  simp [timerRun, List.foldl_append]

theorem timer_inv (t0 : Nat) (h : List TimerEv) :
    ((timerRun t0 h.reverse).2.running = true ↔ isOn h) ∧
    (timerRun t0 h.reverse).2.lastStart ≤ (timerRun t0 h.reverse).1 ∧
    (timerRun t0 h.reverse).2.read (timerRun t0 h.reverse).1 = onTime h := by
  induction h with
  | nil => simp [timerRun, isOn, onTime, Timer.read]
  | cons e h ih =>
    rw [List.reverse_cons, timerRun_snoc]
    generalize timerRun t0 h.reverse = s at ih
    obtain ⟨now, r, l, el⟩ := s
    obtain ⟨h1, h2, h3⟩ := ih
    simp only at h1 h2 h3
    cases e with
    | pass d =>
      simp only [timerStep, isOn, onTime]
      refine ⟨h1, by omega, ?_⟩
      rw [← h3]
      cases r
      · simp [Timer.read, show ¬ isOn h from fun hc => by simp [hc] at h1]
      · simp [Timer.read, h1.1 rfl]; omega
    | start => simp [timerStep, isOn, onTime, Timer.start, Timer.read]
    | pause =>
      simp only [timerStep, isOn, onTime]
      rw [← h3]
      cases r <;> simp [Timer.pause, Timer.read, h2]
    | resume =>
      simp only [timerStep, isOn, onTime]
      rw [← h3]
      cases r <;> simp [Timer.resume, Timer.read, h2]

/-- The timer itself: after every history of calls, it is running if it should, and shows the time
that has passed while it was on. -/
theorem C76_timer (t0 : Nat) (es : List TimerEv) :
    ((timerRun t0 es).2.running = true ↔ isOn es.reverse) ∧
    (timerRun t0 es).2.read (timerRun t0 es).1 = onTime es.reverse := by
  have h := timer_inv t0 es.reverse
  rw [List.reverse_reverse] at h
  exact ⟨h.1, h.2.2⟩

/-- Concrete case: 3 of 10 units before a fresh start, then 4 of 9. -/
example : (timerRun 5 [.pass 2, .resume, .pass 3, .resume, .pause, .pass 5, .start, .pass 4, .pause,
      .pause, .pass 5]).2.read 24 = 4 ∧
    onTime [.pass 5, .pause, .pause, .pass 4, .start, .pass 5, .pause, .resume, .pass 3, .resume,
      .pass 2] = 4 := by decide

theorem isOn_pass (es h : List TimerEv) (he : ∀ e ∈ es, ∃ d, e = .pass d) :
    (isOn (es ++ h) ↔ isOn h) := by
  induction es with
  | nil => simp
  | cons e es ih =>
    obtain ⟨d, rfl⟩ := he e (by simp)
    simpa [isOn] using ih fun e' h' => he e' (by simp [h'])

mutual
theorem off_events (p : Guarded) (h : List TimerEv) (ho : ¬ isOn h) :
    ¬ isOn ((p.events true).reverse ++ h) := by
  cases p with
  | spend d => simpa [Guarded.events, isOn] using ho
  | guard b => simp [Guarded.events, isOn]
theorem off_eventss (ps : GuardedList) (h : List TimerEv) (ho : ¬ isOn h) :
    ¬ isOn ((ps.events true).reverse ++ h) := by
  cases ps with
  | nil => simpa [GuardedList.events] using ho
  | cons p ps =>
    simp only [GuardedList.events, List.reverse_append, List.append_assoc]
    exact off_eventss ps _ (off_events p h ho)
end

theorem noGuard_time (b : GuardedList) (h : List TimerEv) (hn : NoGuard b) (ho : isOn h) :
    isOn ((b.events true).reverse ++ h) ∧
      onTime ((b.events true).reverse ++ h) = onTime h + allTimes b := by
  match b with
  | .nil => simpa [GuardedList.events, allTimes] using ho
  | .cons (.spend d) ps =>
    simp only [NoGuard] at hn
    simp only [GuardedList.events, Guarded.events, List.reverse_append, List.append_assoc,
      List.reverse_cons, List.reverse_nil, List.nil_append, List.cons_append]
    obtain ⟨h1, h2⟩ := noGuard_time ps (.pass d :: h) hn ho
    refine ⟨h1, ?_⟩
    rw [h2]
    simp [onTime, ho, allTimes, allTime]
    omega
  | .cons (.guard _) _ => simp [NoGuard] at hn

theorem flat_time (p : Guarded) (h : List TimerEv) (hf : SingleGuard p) (ho : ¬ isOn h) :
    onTime ((p.events true).reverse ++ h) = onTime h + phaseTime p := by
  cases p with
  | spend d => simp [Guarded.events, onTime, ho, phaseTime]
  | guard b =>
    simp only [SingleGuard] at hf
    have := (noGuard_time b (.resume :: h) hf (by simp [isOn])).2
    simp only [onTime] at this
    simpa [Guarded.events, onTime, phaseTime] using this

theorem flats_time (ps : GuardedList) (h : List TimerEv) (hf : SingleGuards ps) (ho : ¬ isOn h) :
    onTime ((ps.events true).reverse ++ h) = onTime h + phaseTimes ps := by
  match ps with
  | .nil => simp [GuardedList.events, phaseTimes]
  | .cons p ps =>
    simp only [SingleGuards] at hf
    simp only [GuardedList.events, List.reverse_append, List.append_assoc, phaseTimes]
    rw [flats_time ps _ hf.2 (off_events p h ho), flat_time p h hf.1 ho]
    omega

/-- C76 for programs in which a phase is not entered again while it is being measured.  Missing:
phases that are entered again, for which the code is wrong (`C76_nested`). -/
theorem C76_phase_partial (t0 : Nat) (ps : GuardedList) (hf : SingleGuards ps) :
    (timerRun t0 (ps.events true)).2.read (timerRun t0 (ps.events true)).1 = phaseTimes ps := by
  rw [(C76_timer t0 _).2]
  have := flats_time ps [] hf (by simp [isOn])
  simpa [onTime] using this

mutual
theorem events_le (p : Guarded) (h : List TimerEv) :
    onTime ((p.events true).reverse ++ h) ≤ onTime h + allTime p := by
  cases p with
  | spend d =>
    simp only [Guarded.events, List.reverse_cons, List.reverse_nil, List.nil_append,
      List.cons_append, onTime, allTime]
    split <;> omega
  | guard b =>
    have := eventss_le b (.resume :: h)
    simp only [onTime] at this
    simpa [Guarded.events, onTime, allTime] using this
theorem eventss_le (ps : GuardedList) (h : List TimerEv) :
    onTime ((ps.events true).reverse ++ h) ≤ onTime h + allTimes ps := by
  cases ps with
  | nil => simp [GuardedList.events, allTimes]
  | cons p ps =>
    simp only [GuardedList.events, List.reverse_append, List.append_assoc, allTimes]
    have h1 := eventss_le ps ((p.events true).reverse ++ h)
    have h2 := events_le p h
    omega
end

theorem phases_le (ps : GuardedList) (h : List TimerEv) (ho : ¬ isOn h) :
    onTime ((ps.events true).reverse ++ h) ≤ onTime h + phaseTimes ps := by
  match ps with
  | .nil => simp [GuardedList.events, phaseTimes]
  | .cons p ps =>
    simp only [GuardedList.events, List.reverse_append, List.append_assoc, phaseTimes]
    have h1 := phases_le ps _ (off_events p h ho)
    have h2 : onTime ((p.events true).reverse ++ h) ≤ onTime h + phaseTime p := by
      cases p with
      | spend d => simp [Guarded.events, onTime, ho, phaseTime]
      | guard b => simpa [phaseTime, allTime] using events_le (.guard b) h
    omega

/-- For all programs, never more than the time spent in the phase is reported. -/
theorem C76_at_most (t0 : Nat) (ps : GuardedList) :
    (timerRun t0 (ps.events true)).2.read (timerRun t0 (ps.events true)).1 ≤ phaseTimes ps := by
  rw [(C76_timer t0 _).2]
  have := phases_le ps [] (by simp [isOn])
  simpa [onTime] using this

/-- With statistics off nothing is measured. -/
theorem C76_off (t0 : Nat) (ps : GuardedList) :
    (timerRun t0 (ps.events false)).2.read (timerRun t0 (ps.events false)).1 = 0 := by
  rw [(C76_timer t0 _).2]
  have hall : ∀ es : List TimerEv, (∀ e ∈ es, ∃ d, e = .pass d) → onTime es = 0 := by
    intro es he
    induction es with
    | nil => rfl
    | cons e es ih =>
      have hes : ∀ e' ∈ es, ∃ d, e' = .pass d := fun e' h' => he e' (by simp [h'])
      obtain ⟨d, rfl⟩ := he e (by simp)
      have : ¬ isOn es := by
        have := isOn_pass es [] hes
        simpa [isOn] using this
      simp [onTime, ih hes, this]
  refine hall _ fun e h => passes ps e (by simpa using h)
where
  pass1 (p : Guarded) (e : TimerEv) (h : e ∈ p.events false) : ∃ d, e = .pass d := by
    cases p with
    | spend d => exact ⟨d, by simpa [Guarded.events] using h⟩
    | guard b => exact passes b e (by simpa [Guarded.events] using h)
  passes (ps : GuardedList) (e : TimerEv) (h : e ∈ ps.events false) : ∃ d, e = .pass d := by
    cases ps with
    | nil => simp [GuardedList.events] at h
    | cons p ps =>
      rcases (by simpa [GuardedList.events] using h : e ∈ p.events false ∨ e ∈ ps.events false)
        with h | h
      · exact pass1 p e h
      · exact passes ps e h

/-- Concrete case: two blocks of 3 and 4 units. -/
example : SingleGuards (.cons (.guard (.cons (.spend 1) (.cons (.spend 2) .nil)))
    (.cons (.spend 9) (.cons (.guard (.cons (.spend 4) .nil)) .nil))) ∧
    phaseTimes (.cons (.guard (.cons (.spend 1) (.cons (.spend 2) .nil)))
    (.cons (.spend 9) (.cons (.guard (.cons (.spend 4) .nil)) .nil))) = 7 := by
  simp [SingleGuards, SingleGuard, NoGuard, phaseTimes, phaseTime, allTimes, allTime]

/-- When the phase is entered again while it is being measured (as pruning is, by the search for
counterexamples of a quantified constraint), the guard inside stops the timer: of 111 units in the
phase 11 are reported. -/
theorem C76_nested : ∃ ps : GuardedList, phaseTimes ps = 111 ∧
    (timerRun 0 (ps.events true)).2.read (timerRun 0 (ps.events true)).1 = 11 :=
  ⟨.cons (.guard (.cons (.spend 1) (.cons (.guard (.cons (.spend 10) .nil))
    (.cons (.spend 100) .nil)))) .nil, rfl, by decide⟩

theorem search_time (par : Bool) (w : IcpTimer) (hw : par = true → w ≠ .eval) :
    ∀ (is : List (Nat × IcpIter)) (h : List TimerEv), OneSearch is → ¬ isOn h →
      onTime ((searchEvents par w is).reverse ++ h) = onTime h + searchTime w is
  | [], h, _, _ => by simp [searchEvents, onTime, searchTime]
  | [(d, i)], h, _, ho => by
    cases w <;> cases i <;> cases par <;>
      simp [searchEvents, IcpIter.events, onTime, isOn, searchTime, iterTime, ho] at hw ⊢
  | (d, i) :: j :: is, h, hs, ho => by
    simp only [OneSearch] at hs
    have key : ¬ isOn ((i.events par w).reverse ++ .pass d :: h) ∧
        onTime ((i.events par w).reverse ++ .pass d :: h) = onTime h + iterTime w i := by
      cases w <;> cases i <;> cases par <;>
        simp [IcpIter.events, onTime, isOn, iterTime, ho, EndsSearch] at hw hs ⊢
    have ih := search_time par w hw (j :: is) ((i.events par w).reverse ++ .pass d :: h) hs.2 key.1
    rw [key.2] at ih
    rw [show searchEvents par w ((d, i) :: j :: is) =
      .pass d :: (i.events par w ++ searchEvents par w (j :: is)) from rfl]
    simp only [List.reverse_cons, List.reverse_append, List.append_assoc, List.cons_append,
      List.nil_append]
    rw [ih]
    simp [searchTime, Nat.add_assoc]

/-- The times reported for a search are those it took: all three in the sequential search; pruning
and branching in the parallel one. -/
theorem C76_search_partial (par : Bool) (w : IcpTimer) (hw : par = true → w ≠ .eval) (t0 : Nat)
    (is : List (Nat × IcpIter)) (hs : OneSearch is) :
    (timerRun t0 (searchEvents par w is)).2.read (timerRun t0 (searchEvents par w is)).1 =
      searchTime w is := by
  rw [(C76_timer t0 _).2]
  have := search_time par w hw is [] hs (by simp [isOn])
  simpa [onTime] using this

/-- Concrete case: one box is refuted, one bisected, one a solution. -/
example : OneSearch [(1, .bisect 2 3 4), (1, .infeasible 5 6), (1, .empty 7), (1, .found 8 9)] ∧
    searchTime .eval [(1, .bisect 2 3 4), (1, .infeasible 5 6), (1, .empty 7), (1, .found 8 9)] =
      18 := by
  simp [OneSearch, EndsSearch, searchTime, iterTime]

/-- In the parallel search the timer of the evaluation goes on after a box was found infeasible: of
the 1011 units reported, 11 were spent in evaluation and 1000 waiting for a box and pruning it. -/
theorem C76_parallel_eval : ∃ is, OneSearch is ∧ searchTime .eval is = 11 ∧
    (timerRun 0 (searchEvents true .eval is)).2.read
      (timerRun 0 (searchEvents true .eval is)).1 = 1011 :=
  ⟨[(0, .infeasible 5 1), (600, .found 400 10)], by simp [OneSearch, EndsSearch], rfl, by decide⟩

end Verif.Props
