import Verif.Model.Cds

/-!
# C79: threads known to the library of lock-free containers
-/

namespace Verif.Props
open Verif Verif.Model

/-- All searches are called by the thread `t0`, which lives on; all other workers are in pools. -/
def OneCaller {T : Type} (t0 : T) (es : List (CdsEv T)) : Prop :=
  ∀ e ∈ es, match e with
    | .call t => t = t0
    | .work t true => t = t0
    | .work t false => t ≠ t0
    | .exit t => t ≠ t0

/-- Whatever the history: if one thread calls all searches, every thread that pops is attached, and
attached are exactly the caller and the workers of the pools that have worked and not ended: a pool
leaves nothing behind. -/
theorem C79_attached_partial {T : Type} [DecidableEq T] (t0 : T) (es : List (CdsEv T))
    (h : OneCaller t0 es) :
    ∃ s, CdsState.run (.call t0 :: es) cdsStart = .ok s ∧
      ∀ t, s.attached t = true ↔ t = t0 ∨ s.guard t = some true := by
  have key : ∀ (es : List (CdsEv T)) (s : CdsState T), OneCaller t0 es → s.ready = true →
      (∀ t, s.attached t = true ↔ t = t0 ∨ s.guard t = some true) → s.guard t0 ≠ some true →
      (∀ t, t ≠ t0 → s.guard t ≠ some false) →
      ∃ s', CdsState.run es s = .ok s' ∧
        ∀ t, s'.attached t = true ↔ t = t0 ∨ s'.guard t = some true := by
    intro es
    induction es with
    | nil => intro s _ _ ha _ _; exact ⟨s, rfl, ha⟩
    | cons e es ih =>
      intro s ho hr ha h0 h1
      have hes : OneCaller t0 es := fun e he => ho e (List.mem_cons_of_mem _ he)
      have he := ho e List.mem_cons_self
      match e, he with
      | .call t, _ =>
        simp only [CdsState.run, CdsState.step, hr, if_true]
        exact ih s hes hr ha h0 h1
      | .work t true, he =>
        have he : t = t0 := he
        subst he
        have hat : s.attached t = true := (ha t).2 (.inl rfl)
        cases hg : s.guard t with
        | some g =>
          simp only [CdsState.run, CdsState.step, CdsState.enter, hg, hat, if_true]
          exact ih s hes hr ha h0 h1
        | none =>
          simp only [CdsState.run, CdsState.step, CdsState.enter, hg, hat, if_true, Bool.not_true]
          refine ih _ hes hr (fun u => ?_) (by simp) (fun u hu => ?_)
          · by_cases hu : u = t
            · subst hu; simp [hat]
            · simp [Function.update_of_ne hu, ha u]
          · simp only [Function.update_of_ne hu]; exact h1 u hu
      | .work t false, he =>
        have he : t ≠ t0 := he
        cases hg : s.guard t with
        | some g =>
          have hgt : g = true := by
            cases g with
            | true => rfl
            | false => exact absurd hg (h1 t he)
          subst hgt
          have hat : s.attached t = true := (ha t).2 (.inr hg)
          simp only [CdsState.run, CdsState.step, CdsState.enter, hg, hat, if_true]
          exact ih s hes hr ha h0 h1
        | none =>
          simp only [CdsState.run, CdsState.step, CdsState.enter, hg, Bool.false_eq_true, if_false,
            Function.update_self, if_true, Bool.not_false]
          refine ih _ hes hr (fun u => ?_) ?_ (fun u hu => ?_)
          · by_cases hu : u = t
            · subst hu; simp
            · simp [Function.update_of_ne hu, ha u]
          · simp only [Function.update_of_ne (Ne.symm he)]; exact h0
          · by_cases hut : u = t
            · subst hut; simp
            · simp only [Function.update_of_ne hut]; exact h1 u hu
      | .exit t, he =>
        have he : t ≠ t0 := he
        simp only [CdsState.run, CdsState.step]
        refine ih _ hes hr (fun u => ?_) ?_ (fun u hu => ?_)
        · by_cases hu : u = t
          · subst hu
            by_cases hg : s.guard u = some true
            · simp [hg, he]
            · have hna : ¬ s.attached u = true := fun hh => by
                rcases (ha u).1 hh with h | h
                · exact he h
                · exact hg h
              simp [hg, he, hna]
          · by_cases hg : s.guard t = some true
            · simp [hg, Function.update_of_ne hu, ha u]
            · simp [hg, Function.update_of_ne hu, ha u]
        · simp only [Function.update_of_ne (Ne.symm he)]; exact h0
        · by_cases hut : u = t
          · subst hut; simp
          · simp only [Function.update_of_ne hut]; exact h1 u hu
  simp only [CdsState.run, CdsState.step, cdsStart, Bool.false_eq_true, if_false]
  refine key es _ h rfl (fun t => ?_) (by simp) (by simp)
  by_cases ht : t = t0
  · subst ht; simp
  · simp [ht]

/-- Two searches with pools of two threads, one pool after the other. -/
example : OneCaller 0 ([.work 1 false, .work 0 true, .work 2 false, .exit 1, .exit 2, .call 0,
    .work 3 false, .work 0 true] : List (CdsEv Nat)) := by
  intro e he; simp at he; rcases he with h | h | h | h | h | h | h | h <;> subst h <;> simp

/-- **A second caller is unknown to the library.**  The caller of the first search is attached when
the static variable is made; a thread that calls a later search is not attached by anything, since
its worker counts as the main thread.  For any two threads, and whatever happened before. -/
theorem C79_second_caller {T : Type} [DecidableEq T] (t0 t1 : T) (es : List (CdsEv T))
    (h : OneCaller t0 es) (hne : t1 ≠ t0) (hnew : ∀ main, CdsEv.work t1 main ∉ es) :
    CdsState.run (.call t0 :: es ++ [.call t1, .work t1 true]) cdsStart = .ub := by
  have happ : ∀ (as bs : List (CdsEv T)) (s s' : CdsState T), CdsState.run as s = .ok s' →
      CdsState.run (as ++ bs) s = CdsState.run bs s' := by
    intro as
    induction as with
    | nil => intro bs s s' h; simp only [CdsState.run, Outcome.ok.injEq] at h; subst h; rfl
    | cons a as ih =>
      intro bs s s' h
      simp only [CdsState.run, List.cons_append] at h ⊢
      cases hs : s.step a with
      | ok q => rw [hs] at h; exact ih bs q s' h
      | throw => rw [hs] at h; cases h
      | ub => rw [hs] at h; cases h
  have hguard : ∀ (as : List (CdsEv T)) (s s' : CdsState T), CdsState.run as s = .ok s' →
      (∀ main, CdsEv.work t1 main ∉ as) → s.guard t1 = none →
      (s.ready = true ∨ ∃ t r, as = .call t :: r) →
      s'.guard t1 = none ∧ s'.ready = true := by
    intro as
    induction as with
    | nil =>
      intro s s' h _ hg hr
      simp only [CdsState.run, Outcome.ok.injEq] at h; subst h
      rcases hr with hr | ⟨_, _, hr⟩
      · exact ⟨hg, hr⟩
      · cases hr
    | cons a as ih =>
      intro s s' h hn hg hr
      simp only [CdsState.run] at h
      cases hs : s.step a with
      | throw => rw [hs] at h; cases h
      | ub => rw [hs] at h; cases h
      | ok q =>
        rw [hs] at h
        have hn' : ∀ main, CdsEv.work t1 main ∉ as := fun m hm => hn m (List.mem_cons_of_mem _ hm)
        cases a with
        | call t =>
          simp only [CdsState.step] at hs
          split at hs
          · rename_i hrr
            simp only [Outcome.ok.injEq] at hs; subst hs
            exact ih _ _ h hn' hg (.inl hrr)
          · simp only [Outcome.ok.injEq] at hs; subst hs
            exact ih _ _ h hn' hg (.inl rfl)
        | work t m =>
          have hr' : s.ready = true := by
            rcases hr with hr | ⟨_, _, hr⟩
            · exact hr
            · cases hr
          have htt : t1 ≠ t := fun hh => hn m (by subst hh; exact List.mem_cons_self)
          have hq : q.guard t1 = none ∧ q.ready = true := by
            simp only [CdsState.step] at hs
            have h2 : (s.enter t m).guard t1 = none ∧ (s.enter t m).ready = true := by
              unfold CdsState.enter
              cases s.guard t with
              | some g => exact ⟨hg, hr'⟩
              | none => exact ⟨by simp only [Function.update_of_ne htt]; exact hg, hr'⟩
            split at hs
            · simp only [Outcome.ok.injEq] at hs; exact hs ▸ h2
            · cases hs
          exact ih _ _ h hn' hq.1 (.inl hq.2)
        | exit t =>
          have hr' : s.ready = true := by
            rcases hr with hr | ⟨_, _, hr⟩
            · exact hr
            · cases hr
          simp only [CdsState.step, Outcome.ok.injEq] at hs; subst hs
          refine ih _ _ h hn' ?_ (.inl hr')
          by_cases htt : t1 = t
          · subst htt; simp
          · simp only [Function.update_of_ne htt]; exact hg
  obtain ⟨s, hs, ha⟩ := C79_attached_partial t0 es h
  obtain ⟨hg, hr⟩ := hguard _ _ _ hs (fun m hm => by
    rcases List.mem_cons.1 hm with hm | hm
    · cases hm
    · exact hnew m hm) rfl (.inr ⟨t0, es, rfl⟩)
  rw [happ _ _ _ _ hs]
  have hna : s.attached t1 = false := by
    cases hh : s.attached t1 with
    | false => rfl
    | true =>
      rcases (ha t1).1 hh with h | h
      · exact absurd h hne
      · rw [hg] at h; cases h
  simp [CdsState.run, CdsState.step, CdsState.enter, hr, hg, hna]

/-- Thread 0 searches with a pool, then thread 5. -/
example : CdsState.run [.call 0, .work 1 false, .work 0 true, .call 5, .work 5 true]
    (cdsStart : CdsState Nat) = .ub :=
  C79_second_caller 0 5 [.work 1 false, .work 0 true]
    (by intro e he; simp at he; rcases he with h | h <;> subst h <;> simp) (by decide) (by simp)

end Verif.Props
