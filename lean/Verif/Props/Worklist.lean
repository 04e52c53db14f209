import Verif.Props.Contractor

/-!
# C21: which contractors the work-list contractor runs after branching
-/

namespace Verif.Props
open Verif Verif.Model Verif.Spec

/-- After branching on a dimension that no contractor reads, nothing is done. -/
theorem C21_worklist_unread (ib : Ibex) (n : Nat) (cs : List Ctc) (s : CStatus) (d : Nat)
    (hb : s.branch = some d) (hd : ∀ c ∈ cs, d ∉ c.input) :
    prune ib n (.worklist cs) s = .ok s := by
  have hf : (List.range (prunes ib n cs).length).filter
      (fun j => ((cs.map Ctc.input).getD j []).contains d) = [] := by
    rw [List.filter_eq_nil_iff]
    intro j _ hc
    rw [List.contains_iff_mem, List.getD_eq_getElem?_getD, List.getElem?_map] at hc
    cases hj : cs[j]? with
    | none => rw [hj] at hc; simp at hc
    | some c => rw [hj] at hc; exact hd c (List.mem_of_getElem? hj) hc
  have hn : wlFind (prunes ib n cs).length (fun _ => false) 0 = none := by
    simp [wlFind]
  simp only [prune, wlRun, hb, hf, wlFill]
  show (if s.box.empty then Run.ok s else _) = _
  split
  · rfl
  · simp only [hn]

/-- After branching on a dimension that one contractor reads, that one is run, and no other before
it: if it refutes the box, that is the result, whatever the others would do. -/
theorem C21_worklist_read (ib : Ibex) (n : Nat) (cs ds : List Ctc) (c : Ctc) (s s' : CStatus) (d : Nat)
    (hb : s.branch = some d) (hc : d ∈ c.input) (h1 : ∀ a ∈ cs, d ∉ a.input)
    (h2 : ∀ a ∈ ds, d ∉ a.input) (hr : prune ib n c { s with output := [] } = .ok s')
    (he : s'.box.empty = true) : prune ib n (.worklist (cs ++ c :: ds)) s = .ok s' := by
  have hps : ∀ l : List Ctc, prunes ib n l = l.map (prune ib n) := by
    intro l; induction l with
    | nil => rfl
    | cons a l ih => simp [prunes, ih]
  have hf : (List.range (prunes ib n (cs ++ c :: ds)).length).filter
      (fun j => (((cs ++ c :: ds).map Ctc.input).getD j []).contains d) = [cs.length] := by
    have hlen : (prunes ib n (cs ++ c :: ds)).length = cs.length + (1 + ds.length) := by
      rw [hps]; simp; omega
    rw [hlen, List.range_add, List.filter_append]
    have e1 : (List.range cs.length).filter
        (fun j => (((cs ++ c :: ds).map Ctc.input).getD j []).contains d) = [] := by
      rw [List.filter_eq_nil_iff]
      intro j hj hcc
      have hj := List.mem_range.1 hj
      rw [List.contains_iff_mem, List.getD_eq_getElem?_getD, List.getElem?_map,
        List.getElem?_append_left hj, List.getElem?_eq_getElem hj] at hcc
      exact h1 _ (List.getElem_mem hj) hcc
    have e2 : ((List.range (1 + ds.length)).map (cs.length + ·)).filter
        (fun j => (((cs ++ c :: ds).map Ctc.input).getD j []).contains d) = [cs.length] := by
      rw [List.range_add, List.map_append (f := (cs.length + ·)), List.filter_append]
      have e3 : (((List.range ds.length).map (1 + ·)).map (cs.length + ·)).filter
          (fun j => (((cs ++ c :: ds).map Ctc.input).getD j []).contains d) = [] := by
        rw [List.filter_eq_nil_iff]
        intro j hj hcc
        simp only [List.map_map, List.mem_map, List.mem_range, Function.comp_apply] at hj
        obtain ⟨k, hk, rfl⟩ := hj
        rw [List.contains_iff_mem, List.getD_eq_getElem?_getD, List.getElem?_map,
          List.getElem?_append_right (by omega),
          show cs.length + (1 + k) - cs.length = k + 1 by omega, List.getElem?_cons_succ,
          List.getElem?_eq_getElem hk] at hcc
        exact h2 _ (List.getElem_mem hk) hcc
      rw [e3]
      simp [List.range_succ, hc]
    rw [e1, e2]; rfl
  have hg : (prunes ib n (cs ++ c :: ds)).getD cs.length (fun _ => .ub) = prune ib n c := by
    rw [hps]; simp
  rw [hb] at hr
  simp only [prune, wlRun, hb, hf, wlFill, hg, hr]
  simp [bind, Run.bind, he]

/-- Two integer contractors and a branching on dimension 1: only the second is run. -/
def wlBox : Box := ⟨[⟨1, .integer⟩, ⟨2, .integer⟩],
  [⟨.fin (1 / 2), .fin 3⟩, ⟨.fin (1 / 4), .fin (1 / 2)⟩], false⟩

example : (do let s ← prune demoIbex 5 (.worklist [.integer [0], .integer [1]])
                ⟨wlBox, some 1, [], [], [], 0⟩
              Run.ok s.box.empty) = .ok true := by decide +kernel

example : (do let s ← prune demoIbex 5 (.worklist [.integer [0]]) ⟨wlBox, some 1, [], [], [], 0⟩
              Run.ok s.box) = .ok wlBox := by decide +kernel

/-- Without a branching the first is run as well. -/
example : (do let s ← prune demoIbex 5 (.worklist [.integer [0]]) ⟨wlBox, none, [], [], [], 0⟩
              Run.ok (s.box.vals.head?)) = .ok (some ⟨.fin 1, .fin 3⟩) := by decide +kernel

/-- **The work-list contractor ends at a fixpoint.**  `Stable c b` says that the contractor `c` has
nothing to do on `b`; it may be any property that holds after `c` has run without changing a dimension
it reads, and that no contractor destroys without reporting a dimension `c` reads.  Then a call
without branching that leaves a non-empty box ends with all contractors stable, unless the termination
condition holds after the first pass: no contractor that has to run again is forgotten. -/
theorem C21_worklist_fixpoint (ib : Ibex) (n : Nat) (cs : List Ctc) (Stable : Ctc → Box → Prop)
    (ha : ∀ c ∈ cs, ∀ s s' : CStatus, prune ib n c { s with output := [] } = .ok s' → s'.box.empty = false →
      (∀ i ∈ s'.output, i ∉ c.input) → Stable c s'.box)
    (hb : ∀ c ∈ cs, ∀ a ∈ cs, ∀ s s' : CStatus, prune ib n a { s with output := [] } = .ok s' →
      s'.box.empty = false → Stable c s.box → (∀ i ∈ s'.output, i ∉ c.input) → Stable c s'.box)
    (s s' : CStatus) (hbr : s.branch = none) (h : prune ib n (.worklist cs) s = .ok s')
    (hne : s'.box.empty = false) :
    ib.term s.box.vals s'.box.vals = true ∨ ∀ c ∈ cs, Stable c s'.box := by
  have hps : ∀ l : List Ctc, prunes ib n l = l.map (prune ib n) := by
    intro l; induction l with
    | nil => rfl
    | cons a l ih => simp [prunes, ih]
  have hget : ∀ j s s', ((prunes ib n cs).getD j fun _ => .ub) s = .ok s' →
      ∃ a, cs[j]? = some a ∧ prune ib n a s = .ok s' := by
    intro j s s' h
    rw [hps, List.getD_eq_getElem?_getD, List.getElem?_map] at h
    cases hj : cs[j]? with
    | none => rw [hj] at h; cases h
    | some a => rw [hj] at h; exact ⟨a, rfl, h⟩
  have hupd : ∀ k c out wl, cs[k]? = some c →
      (wlUpdate (cs.map Ctc.input) out wl k = true ↔ wl k = true ∨ ∃ i ∈ out, i ∈ c.input) := by
    intro k c out wl hk
    simp [wlUpdate, List.getD_eq_getElem?_getD, hk]
  have step : ∀ (j : Nat) (s s' : CStatus) (wl : Nat → Bool) (Q : Nat → Prop),
      ((prunes ib n cs).getD j fun _ => .ub) { s with output := [] } = .ok s' →
      s'.box.empty = false →
      (∀ k c, cs[k]? = some c → k ≠ j → Q k ∨ wl k = true ∨ Stable c s.box) →
      ∀ k c, cs[k]? = some c →
        Q k ∨ wlUpdate (cs.map Ctc.input) s'.output wl k = true ∨ Stable c s'.box := by
    intro j s s' wl Q h he hi k c hk
    obtain ⟨a, haj, hr⟩ := hget j _ _ h
    by_cases hout : ∃ i ∈ s'.output, i ∈ c.input
    · exact .inr (.inl ((hupd k c _ wl hk).2 (.inr hout)))
    · have hout : ∀ i ∈ s'.output, i ∉ c.input := fun i hi hc => hout ⟨i, hi, hc⟩
      by_cases hkj : k = j
      · subst hkj
        rw [hk] at haj
        cases haj
        exact .inr (.inr (ha c (List.mem_of_getElem? hk) s s' hr he hout))
      · rcases hi k c hk hkj with h | h | h
        · exact .inl h
        · exact .inr (.inl ((hupd k c _ wl hk).2 (.inl h)))
        · exact .inr (.inr (hb c (List.mem_of_getElem? hk) a (List.mem_of_getElem? haj) s s' hr he h
            hout))
  have fill : ∀ (js : List Nat) (s : CStatus) (wl : Nat → Bool) (r : CStatus × (Nat → Bool)),
      wlFill (prunes ib n cs) (cs.map Ctc.input) js s wl = .ok r → r.1.box.empty = false →
      (∀ k c, cs[k]? = some c → k ∈ js ∨ wl k = true ∨ Stable c s.box) →
      ∀ k c, cs[k]? = some c → r.2 k = true ∨ Stable c r.1.box := by
    intro js
    induction js with
    | nil =>
      intro s wl r h _ hi k c hk
      simp only [wlFill, Run.ok.injEq] at h; subst h
      rcases hi k c hk with h | h
      · cases h
      · exact h
    | cons j js ih =>
      intro s wl r h hr hi
      simp only [wlFill] at h
      obtain ⟨q, h1, h2⟩ := Proof.bindR_ok h
      split at h2
      · rename_i hq
        simp only [Run.ok.injEq] at h2; subst h2
        rw [hq] at hr; cases hr
      · rename_i hq
        refine ih q _ r h2 hr (step j s q wl (· ∈ js) h1 (by simpa using hq) fun k c hk hkj => ?_)
        rcases hi k c hk with h | h
        · rcases List.mem_cons.1 h with h | h
          · exact absurd h hkj
          · exact .inl h
        · exact .inr h
  have done : ∀ (wl : Nat → Bool) (b : Box), wlFind (prunes ib n cs).length wl 0 = none →
      (∀ k c, cs[k]? = some c → wl k = true ∨ Stable c b) → ∀ c ∈ cs, Stable c b := by
    intro wl b hf hi c hc
    obtain ⟨k, hk⟩ := List.mem_iff_getElem?.1 hc
    rcases hi k c hk with h | h
    · exfalso
      have hlt := (List.getElem?_eq_some_iff.1 hk).1
      have := List.find?_eq_none.1 hf k (by rw [hps]; simpa using hlt)
      simp [h] at this
    · exact h
  have loop : ∀ (m j : Nat) (s : CStatus) (wl : Nat → Bool) (s' : CStatus),
      wlLoop (prunes ib n cs) (cs.map Ctc.input) m j s wl = .ok s' → s'.box.empty = false →
      (∀ k c, cs[k]? = some c → wl k = true ∨ Stable c s.box) → ∀ c ∈ cs, Stable c s'.box := by
    intro m
    induction m with
    | zero => intro j s wl s' h; simp [wlLoop] at h
    | succ m ih =>
      intro j s wl s' h hr hi
      simp only [wlLoop] at h
      obtain ⟨q, h1, h2⟩ := Proof.bindR_ok h
      split at h2
      · rename_i hq
        simp only [Run.ok.injEq] at h2; subst h2
        rw [hq] at hr; cases hr
      · rename_i hq
        have hinv : ∀ k c, cs[k]? = some c → wlUpdate (cs.map Ctc.input) q.output
            (fun k => if k = j then false else wl k) k = true ∨ Stable c q.box := by
          intro k c hk
          have := step j s q (fun k => if k = j then false else wl k) (fun _ => False) h1
            (by simpa using hq) (fun k c hk hkj => by
              rcases hi k c hk with h | h
              · exact .inr (.inl (by simpa [hkj] using h))
              · exact .inr (.inr h)) k c hk
          simpa using this
        split at h2
        · exact ih _ _ _ _ h2 hr hinv
        · split at h2
          · exact ih _ _ _ _ h2 hr hinv
          · rename_i hf
            simp only [Run.ok.injEq] at h2; subst h2
            exact done _ _ hf hinv
  simp only [prune, wlRun, hbr] at h
  obtain ⟨r, h1, h2⟩ := Proof.bindR_ok h
  split at h2
  · rename_i hq
    simp only [Run.ok.injEq] at h2; subst h2
    rw [hq] at hne; cases hne
  · rename_i hq
    have hinv := fill _ _ _ r h1 (by simpa using hq) fun k c hk => .inl (by
      rw [hps]; simpa using (List.getElem?_eq_some_iff.1 hk).1)
    split at h2
    · rename_i hf
      simp only [Run.ok.injEq] at h2; subst h2
      exact .inr (done _ _ hf hinv)
    · split at h2
      · rename_i ht
        simp only [Run.ok.injEq] at h2; subst h2
        exact .inl ht
      · exact .inr (loop _ _ _ _ _ h2 hne hinv)

/-- The contractor for one integer variable has nothing to do. -/
def IntDone : Ctc → Box → Prop
  | .integer [i], b =>
    (b.get i).isEmpty = true ∨ ((b.get i).lb.isInt = true ∧ (b.get i).ub.isInt = true)
  | _, _ => True

theorem integerOne {i : Nat} {s s' : CStatus} (h : integerLoop [i] { s with output := [] } = .ok s')
    (he : s'.box.empty = false) :
    (s'.box = s.box ∧ IntDone (.integer [i]) s.box) ∨ ∃ iv, s'.box = s.box.set i iv ∧ s'.output = [i] := by
  simp only [integerLoop] at h
  split at h
  · rename_i hc
    simp only [Run.ok.injEq] at h; subst h
    have hbot : s.box.bot = false := he
    simp only [hbot, Bool.false_or] at hc
    exact .inl ⟨rfl, .inl hc⟩
  · split at h
    · split at h
      · simp only [Run.ok.injEq] at h; subst h
        exact .inr ⟨_, rfl, rfl⟩
      · split at h
        · simp only [Run.ok.injEq] at h; subst h
          simp [CStatus.addWitness, Box.setEmpty, Box.empty] at he
        · cases h
    · rename_i hc
      simp only [Run.ok.injEq] at h; subst h
      refine .inl ⟨rfl, .inr ?_⟩
      simpa using hc

/-- The hypotheses are met by contractors for one integer variable each: the call ends with integral
bounds, unless the termination condition holds. -/
example (ib : Ibex) (n : Nat) (is : List Nat) (s s' : CStatus) (hbr : s.branch = none)
    (h : prune ib n (.worklist (is.map fun i => .integer [i])) s = .ok s')
    (hne : s'.box.empty = false) :
    ib.term s.box.vals s'.box.vals = true ∨ ∀ i ∈ is, IntDone (.integer [i]) s'.box := by
  have hm : ∀ c ∈ is.map (fun i => Ctc.integer [i]), ∃ i, c = .integer [i] := by
    intro c hc; obtain ⟨i, _, rfl⟩ := List.mem_map.1 hc; exact ⟨i, rfl⟩
  refine (C21_worklist_fixpoint ib n _ IntDone ?_ ?_ s s' hbr h hne).imp id
    fun hh i hi => hh _ (List.mem_map.2 ⟨i, hi, rfl⟩)
  · intro c hc s s' h he ho
    obtain ⟨i, rfl⟩ := hm c hc
    simp only [prune] at h
    rcases integerOne h he with ⟨h1, h2⟩ | ⟨iv, _, h2⟩
    · rw [h1]; exact h2
    · exact absurd (by simp [Ctc.input]) (ho i (by simp [h2]))
  · intro c hc a haa s s' h he hst ho
    obtain ⟨i, rfl⟩ := hm c hc
    obtain ⟨j, rfl⟩ := hm a haa
    simp only [prune] at h
    rcases integerOne h he with ⟨h1, _⟩ | ⟨iv, h1, h2⟩
    · rw [h1]; exact hst
    · have hij : j ≠ i := fun hh => ho j (by simp [h2]) (by simp [Ctc.input, hh])
      rw [h1]
      simpa only [IntDone, Proof.get_set_ne hij] using hst

end Verif.Props
