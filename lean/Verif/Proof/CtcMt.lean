import Verif.Model.CtcMt

/-! # Helper lemmas on contractors shared between threads -/

namespace Verif.Proof
open Verif.Model

variable {T : Type} [DecidableEq T]

theorem mtUpd_same {ι α : Type} [DecidableEq ι] (f : ι → α) (i : ι) (a : α) : mtUpd f i a i = a := by
  simp [mtUpd]

theorem mtUpd_other {ι α : Type} [DecidableEq ι] (f : ι → α) {i j : ι} (a : α) (h : j ≠ i) :
    mtUpd f i a j = f j := by
  simp [mtUpd, h]

theorem make_vars (k : MtKind) {b b' : Box} (h : b.vars = b'.vars) : k.make b = k.make b' := by
  cases k with
  | fwdbwd f => simp [MtKind.make, mkFwdbwd, h]
  | polytope fs => simp [MtKind.make, mkPolytope, h]
  | quantified f => simp [MtKind.make, h]

/-- The object `p` is alive and was built for a box of which `Own` holds. -/
def Alive (k : MtKind) (Own : Box → Prop) (m : MtState T) (p : Nat) : Prop :=
  p < m.next ∧ ∃ c b, m.objs p = some c ∧ Own b ∧ k.make b = .ok c

/-- The invariant: `Own t b` says that the thread `t` may build its contractor for `b`. -/
structure MtInv (ib : Ibex) (n : Nat) (k : MtKind) (tid : T → Nat) (Own : T → Box → Prop)
    (m : MtState T) : Prop where
  ready : ∀ t, m.ready (tid t) = true → ∃ p, m.slots (tid t) = some p ∧ Alive k (Own t) m p
  made : ∀ t p s, m.pc t = .made p s →
    Alive k (Own t) m p ∧ m.slots (tid t) = none ∧ m.ready (tid t) = false
  stored : ∀ t p s, m.pc t = .stored p s →
    Alive k (Own t) m p ∧ m.slots (tid t) = some p ∧ m.ready (tid t) = false
  holds : ∀ t p s, m.pc t = .holds p s → Alive k (Own t) m p
  empty : ∀ t, m.ready (tid t) = false → (∀ p s, m.pc t ≠ .stored p s) → m.slots (tid t) = none
  log : ∀ t s r, (t, s, r) ∈ m.log →
    (∃ c b, Own t b ∧ k.make b = .ok c ∧ r = mtPrune ib n c s) ∨
      (Own t s.box ∧ k.make s.box = .throw ∧ r = .throw)

theorem Alive.mono {k : MtKind} {Own : Box → Prop} {m m' : MtState T} {p : Nat}
    (h : Alive k Own m p) (hn : m.next ≤ m'.next)
    (ho : ∀ q, q < m.next → m'.objs q = m.objs q) : Alive k Own m' p := by
  obtain ⟨h1, c, b, h2, h3⟩ := h
  exact ⟨by omega, c, b, by rw [ho p h1, h2], h3⟩

theorem mtInv_step {ib : Ibex} {n : Nat} {k : MtKind} {jobs : Nat} {tid : T → Nat}
    {Own : T → Box → Prop} (hinj : ∀ t u, tid t = tid u → t = u) {m m' : MtState T} {e : MtEvent T}
    (hown : ∀ t s, e = .call t s → Own t s.box) (h : MtInv ib n k tid Own m)
    (hs : m.step ib n k jobs tid e = .ok m') : MtInv ib n k tid Own m' := by
  cases e with
  | call t s =>
    simp only [MtState.step] at hs
    cases hp : m.pc t with
    | idle =>
      simp only [hp] at hs
      by_cases hj : jobs ≤ tid t
      · simp [hj] at hs
      · simp only [hj, if_false] at hs
        cases hr : m.ready (tid t) with
        | true =>
          obtain ⟨p, hsl, hal⟩ := h.ready t hr
          simp only [hr, if_true, hsl] at hs
          cases hs
          refine ⟨h.ready, ?_, ?_, ?_, ?_, h.log⟩
          · intro u q s' hq
            by_cases hu : u = t
            · subst hu; simp [mtUpd_same] at hq
            · exact h.made u q s' (by simpa [mtUpd_other _ _ hu] using hq)
          · intro u q s' hq
            by_cases hu : u = t
            · subst hu; simp [mtUpd_same] at hq
            · exact h.stored u q s' (by simpa [mtUpd_other _ _ hu] using hq)
          · intro u q s' hq
            by_cases hu : u = t
            · subst hu
              simp only [mtUpd_same, MtPc.holds.injEq] at hq
              obtain ⟨rfl, -⟩ := hq
              exact hal
            · exact h.holds u q s' (by simpa [mtUpd_other _ _ hu] using hq)
          · intro u hru hst
            by_cases hu : u = t
            · subst hu; rw [hr] at hru; cases hru
            · exact h.empty u hru fun q s' => by simpa [mtUpd_other _ _ hu] using hst q s'
        | false =>
          simp only [hr] at hs
          cases hm : k.make s.box with
          | ub => simp [hm] at hs
          | throw =>
            simp only [hm] at hs
            cases hs
            refine ⟨h.ready, h.made, h.stored, h.holds, h.empty, ?_⟩
            intro u s' r hl
            rcases List.mem_cons.1 hl with hl | hl
            · cases hl; exact .inr ⟨hown _ _ rfl, hm, rfl⟩
            · exact h.log u s' r hl
          | ok c =>
            simp only [hm] at hs
            cases hs
            have hmono : ∀ {O : Box → Prop} {p : Nat}, Alive k O m p →
                Alive k O { m with objs := mtUpd m.objs m.next (some c), next := m.next + 1
                                   pc := mtUpd m.pc t (.made m.next s) } p := by
              intro O p ha
              refine ha.mono (Nat.le_succ _) fun q hq => ?_
              exact mtUpd_other _ _ (by omega)
            refine ⟨?_, ?_, ?_, ?_, ?_, h.log⟩
            · intro u hru
              obtain ⟨p, h1, h2⟩ := h.ready u hru
              exact ⟨p, h1, hmono h2⟩
            · intro u q s' hq
              by_cases hu : u = t
              · subst hu
                simp only [mtUpd_same, MtPc.made.injEq] at hq
                obtain ⟨rfl, -⟩ := hq
                refine ⟨⟨Nat.lt_succ_self _, c, s.box, mtUpd_same _ _ _, hown u s rfl, hm⟩, ?_, hr⟩
                exact h.empty u hr fun p s'' hc => by rw [hp] at hc; cases hc
              · obtain ⟨h1, h2⟩ := h.made u q s' (by simpa [mtUpd_other _ _ hu] using hq)
                exact ⟨hmono h1, h2⟩
            · intro u q s' hq
              by_cases hu : u = t
              · subst hu; simp [mtUpd_same] at hq
              · obtain ⟨h1, h2⟩ := h.stored u q s' (by simpa [mtUpd_other _ _ hu] using hq)
                exact ⟨hmono h1, h2⟩
            · intro u q s' hq
              by_cases hu : u = t
              · subst hu; simp [mtUpd_same] at hq
              · exact hmono (h.holds u q s' (by simpa [mtUpd_other _ _ hu] using hq))
            · intro u hru hst
              refine h.empty u hru fun q s' hc => ?_
              by_cases hu : u = t
              · subst hu; rw [hp] at hc; cases hc
              · exact hst q s' (by simpa [mtUpd_other _ _ hu] using hc)
    | made p s' => simp only [hp] at hs; cases hs; exact h
    | stored p s' => simp only [hp] at hs; cases hs; exact h
    | holds p s' => simp only [hp] at hs; cases hs; exact h
  | go t =>
    simp only [MtState.step] at hs
    cases hp : m.pc t with
    | idle => simp only [hp] at hs; cases hs; exact h
    | made p s =>
      simp only [hp] at hs
      cases hs
      obtain ⟨hal, hsl, hrd⟩ := h.made t p s hp
      have hd : m.destroyed (tid t) = m.objs := by simp [MtState.destroyed, hsl]
      have hmono : ∀ {O : Box → Prop} {q : Nat}, Alive k O m q →
          Alive k O { m with objs := m.destroyed (tid t)
                             slots := mtUpd m.slots (tid t) (some p)
                             pc := mtUpd m.pc t (.stored p s) } q := by
        intro O q ha
        exact ha.mono (Nat.le_refl _) fun q _ => by simp [hd]
      have hne : ∀ u, u ≠ t → tid u ≠ tid t := fun u hu hc => hu (hinj u t hc)
      refine ⟨?_, ?_, ?_, ?_, ?_, h.log⟩
      · intro u hru
        by_cases hu : u = t
        · subst hu; rw [show m.ready (tid u) = true from hru] at hrd; cases hrd
        · obtain ⟨q, h1, h2⟩ := h.ready u hru
          exact ⟨q, by simpa [mtUpd_other _ _ (hne u hu)] using h1, hmono h2⟩
      · intro u q s' hq
        by_cases hu : u = t
        · subst hu; simp [mtUpd_same] at hq
        · obtain ⟨h1, h2, h3⟩ := h.made u q s' (by simpa [mtUpd_other _ _ hu] using hq)
          exact ⟨hmono h1, by simpa [mtUpd_other _ _ (hne u hu)] using h2, h3⟩
      · intro u q s' hq
        by_cases hu : u = t
        · subst hu
          simp only [mtUpd_same, MtPc.stored.injEq] at hq
          obtain ⟨rfl, -⟩ := hq
          exact ⟨hmono hal, by simp [mtUpd_same], hrd⟩
        · obtain ⟨h1, h2, h3⟩ := h.stored u q s' (by simpa [mtUpd_other _ _ hu] using hq)
          exact ⟨hmono h1, by simpa [mtUpd_other _ _ (hne u hu)] using h2, h3⟩
      · intro u q s' hq
        by_cases hu : u = t
        · subst hu; simp [mtUpd_same] at hq
        · exact hmono (h.holds u q s' (by simpa [mtUpd_other _ _ hu] using hq))
      · intro u hru hst
        by_cases hu : u = t
        · subst hu; exact absurd (mtUpd_same _ _ _) (hst p s)
        · have := h.empty u hru fun q s' => by simpa [mtUpd_other _ _ hu] using hst q s'
          simpa [mtUpd_other _ _ (hne u hu)] using this
    | stored p s =>
      simp only [hp] at hs
      cases hs
      obtain ⟨hal, hsl, hrd⟩ := h.stored t p s hp
      have hne : ∀ u, u ≠ t → tid u ≠ tid t := fun u hu hc => hu (hinj u t hc)
      refine ⟨?_, ?_, ?_, ?_, ?_, h.log⟩
      · intro u hru
        by_cases hu : u = t
        · subst hu; exact ⟨p, hsl, hal⟩
        · exact h.ready u (by simpa [mtUpd_other _ _ (hne u hu)] using hru)
      · intro u q s' hq
        by_cases hu : u = t
        · subst hu; simp [mtUpd_same] at hq
        · obtain ⟨h1, h2, h3⟩ := h.made u q s' (by simpa [mtUpd_other _ _ hu] using hq)
          exact ⟨h1, h2, by simpa [mtUpd_other _ _ (hne u hu)] using h3⟩
      · intro u q s' hq
        by_cases hu : u = t
        · subst hu; simp [mtUpd_same] at hq
        · obtain ⟨h1, h2, h3⟩ := h.stored u q s' (by simpa [mtUpd_other _ _ hu] using hq)
          exact ⟨h1, h2, by simpa [mtUpd_other _ _ (hne u hu)] using h3⟩
      · intro u q s' hq
        by_cases hu : u = t
        · subst hu
          simp only [mtUpd_same, MtPc.holds.injEq] at hq
          obtain ⟨rfl, -⟩ := hq
          exact hal
        · exact h.holds u q s' (by simpa [mtUpd_other _ _ hu] using hq)
      · intro u hru hst
        by_cases hu : u = t
        · subst hu; simp [mtUpd_same] at hru
        · exact h.empty u (by simpa [mtUpd_other _ _ (hne u hu)] using hru) fun q s' => by
            simpa [mtUpd_other _ _ hu] using hst q s'
    | holds p s =>
      simp only [hp] at hs
      obtain ⟨hlt, c, b, hob, hbo, hmk⟩ := h.holds t p s hp
      simp only [hob] at hs
      cases hs
      refine ⟨h.ready, ?_, ?_, ?_, ?_, ?_⟩
      · intro u q s' hq
        by_cases hu : u = t
        · subst hu; simp [mtUpd_same] at hq
        · exact h.made u q s' (by simpa [mtUpd_other _ _ hu] using hq)
      · intro u q s' hq
        by_cases hu : u = t
        · subst hu; simp [mtUpd_same] at hq
        · exact h.stored u q s' (by simpa [mtUpd_other _ _ hu] using hq)
      · intro u q s' hq
        by_cases hu : u = t
        · subst hu; simp [mtUpd_same] at hq
        · exact h.holds u q s' (by simpa [mtUpd_other _ _ hu] using hq)
      · intro u hru hst
        refine h.empty u hru fun q s' hc => ?_
        by_cases hu : u = t
        · subst hu; rw [hp] at hc; cases hc
        · exact hst q s' (by simpa [mtUpd_other _ _ hu] using hc)
      · intro u s' r hl
        rcases List.mem_cons.1 hl with hl | hl
        · cases hl; exact .inl ⟨c, b, hbo, hmk, rfl⟩
        · exact h.log u s' r hl

/-- In a state of the invariant a step is defined if the number of the thread is in range and the
contractor can be built. -/
theorem mtInv_defined {ib : Ibex} {n : Nat} {k : MtKind} {jobs : Nat} {tid : T → Nat}
    {Own : T → Box → Prop} {m : MtState T} {e : MtEvent T} (hj : ∀ t, tid t < jobs)
    (hmk : ∀ t s, e = .call t s → k.make s.box ≠ .ub) (h : MtInv ib n k tid Own m) :
    ∃ m', m.step ib n k jobs tid e = .ok m' := by
  cases e with
  | call t s =>
    have := hj t
    simp only [MtState.step]
    cases hp : m.pc t with
    | idle =>
      simp only [show ¬ jobs ≤ tid t from by omega, if_false]
      cases hr : m.ready (tid t) with
      | true =>
        obtain ⟨p, hsl, -⟩ := h.ready t hr
        simp [hsl]
      | false =>
        cases hm : k.make s.box with
        | ub => exact absurd hm (hmk t s rfl)
        | throw => simp
        | ok c => simp
    | made p s' => simp
    | stored p s' => simp
    | holds p s' => simp
  | go t =>
    simp only [MtState.step]
    cases hp : m.pc t with
    | idle => simp
    | made p s' => simp
    | stored p s' => simp
    | holds p s' =>
      obtain ⟨-, c, b, hob, -⟩ := h.holds t p s' hp
      simp [hob]

theorem mtInv_run {ib : Ibex} {n : Nat} {k : MtKind} {jobs : Nat} {tid : T → Nat}
    {Own : T → Box → Prop} (hinj : ∀ t u, tid t = tid u → t = u) :
    ∀ (es : List (MtEvent T)) {m m' : MtState T}, (∀ t s, .call t s ∈ es → Own t s.box) →
      MtInv ib n k tid Own m → m.run ib n k jobs tid es = .ok m' → MtInv ib n k tid Own m'
  | [], m, m', _, h, hr => by cases hr; exact h
  | e :: es, m, m', ho, h, hr => by
    simp only [MtState.run] at hr
    cases hs : m.step ib n k jobs tid e with
    | ok m1 =>
      rw [hs] at hr
      have h1 := mtInv_step hinj (fun t s he => ho t s (by simp [he])) h hs
      exact mtInv_run hinj es (fun t s he => ho t s (by simp [he])) h1 hr
    | throw => rw [hs] at hr; cases hr
    | ub => rw [hs] at hr; cases hr

theorem mtRun_defined {ib : Ibex} {n : Nat} {k : MtKind} {jobs : Nat} {tid : T → Nat}
    {Own : T → Box → Prop} (hinj : ∀ t u, tid t = tid u → t = u) (hj : ∀ t, tid t < jobs) :
    ∀ (es : List (MtEvent T)) {m : MtState T}, (∀ t s, .call t s ∈ es → Own t s.box) →
      (∀ t s, .call t s ∈ es → k.make s.box ≠ .ub) → MtInv ib n k tid Own m →
      ∃ m', m.run ib n k jobs tid es = .ok m'
  | [], m, _, _, _ => ⟨m, rfl⟩
  | e :: es, m, ho, hmk, h => by
    obtain ⟨m1, hs⟩ := mtInv_defined (e := e) (jobs := jobs) hj (fun t s he => hmk t s (by simp [he])) h
    have h1 := mtInv_step hinj (fun t s he => ho t s (by simp [he])) h hs
    obtain ⟨m2, h2⟩ := mtRun_defined hinj hj es (fun t s he => ho t s (by simp [he]))
      (fun t s he => hmk t s (by simp [he])) h1
    exact ⟨m2, by simp only [MtState.run, hs]; exact h2⟩

theorem mtInv_start {ib : Ibex} {n : Nat} {k : MtKind} {jobs : Nat} {tid : T → Nat}
    {Own : T → Box → Prop} (hinj : ∀ t u, tid t = tid u → t = u) {t0 : T} {b0 : Box}
    {m : MtState T} (hown : Own t0 b0) (hs : mtStart k jobs tid t0 b0 = .ok (some m)) :
    MtInv ib n k tid Own m ∧ ∃ c, k.make b0 = .ok c ∧ c.isDummy = false := by
  simp only [mtStart] at hs
  by_cases hj : jobs ≤ tid t0
  · simp [hj] at hs
  · simp only [hj, if_false] at hs
    cases hm : k.make b0 with
    | throw => rw [hm] at hs; cases hs
    | ub => rw [hm] at hs; cases hs
    | ok c =>
      rw [hm] at hs
      change (if c.isDummy = true then Outcome.ok none else _) = _ at hs
      cases hd : c.isDummy with
      | true => simp [hd] at hs
      | false =>
        simp only [hd] at hs
        cases hs
        refine ⟨⟨?_, ?_, ?_, ?_, ?_, ?_⟩, c, rfl, hd⟩
        · intro t hr
          by_cases ht : tid t = tid t0
          · obtain rfl := hinj _ _ ht
            exact ⟨0, by simp [mtUpd], Nat.lt_succ_self _, c, b0, by simp [mtUpd], hown, hm⟩
          · simp [mtUpd_other _ _ ht] at hr
        · intro t p s hp; simp at hp
        · intro t p s hp; simp at hp
        · intro t p s hp; simp at hp
        · intro t hr _
          by_cases ht : tid t = tid t0
          · simp [ht, mtUpd_same] at hr
          · simp [mtUpd_other _ _ ht]
        · intro t s r hl; simp at hl

end Verif.Proof
