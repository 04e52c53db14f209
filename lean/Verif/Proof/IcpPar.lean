import Verif.Proof.Icp

/-!
# Parallel branch and prune: invariants over all schedules
-/

namespace Verif.Proof
open Verif Verif.Model Verif.Spec

theorem cnt_nonneg (w : Worker) : 0 ≤ share w := by
  unfold share; split <;> try split
  all_goals decide

/-- `need_to_pop` at the positions after the pop. -/
def WInv (w : Worker) : Prop :=
  match w.pc with
  | .top | .chk | .prune | .done => True
  | _ => w.needPop = true

theorem step_cases {env c fs p i p'} (h : Par.step env c fs p i = .ok p') :
    p' = p ∨ ∃ w w' st n f, p.workers[i]? = some w ∧
      p.workerStep env c fs i w = .ok (w', st, n, f) ∧ p' = ⟨st, n, f, p.workers.set i w'⟩ := by
  unfold Par.step at h
  split at h
  · simp only [Run.ok.injEq] at h; exact Or.inl h.symm
  · rename_i w hw
    obtain ⟨⟨w', st, n, f⟩, h1, h2⟩ := bindR_ok h
    simp only [Run.ok.injEq] at h2
    exact Or.inr ⟨w, w', st, n, f, hw, h1, h2.symm⟩

theorem sum_set {f : Worker → Int} : ∀ {l : List Worker} {i : Nat} {w w' : Worker},
    l[i]? = some w → ((l.set i w').map f).sum = (l.map f).sum - f w + f w'
  | [], i, w, w', h => by simp at h
  | a :: l, 0, w, w', h => by
    simp only [List.getElem?_cons_zero, Option.some.injEq] at h; subst h
    simp; ring
  | a :: l, i + 1, w, w', h => by
    simp only [List.getElem?_cons_succ] at h
    simp only [List.set_cons_succ, List.map_cons, List.sum_cons, sum_set h]; ring

theorem sum_nonneg (l : List Worker) : 0 ≤ (l.map share).sum := by
  induction l with
  | nil => simp
  | cons a l ih => simp only [List.map_cons, List.sum_cons]; have := cnt_nonneg a; omega

theorem cnt_le_sum {l : List Worker} {w} (h : w ∈ l) : share w ≤ (l.map share).sum := by
  induction l with
  | nil => simp at h
  | cons a l ih =>
    simp only [List.map_cons, List.sum_cons]
    have h1 := cnt_nonneg a
    have h2 := sum_nonneg l
    rcases List.mem_cons.mp h with rfl | h
    · omega
    · have := ih h; omega

/-! ### Counting -/

structure CountInv (p : Par) : Prop where
  wi : ∀ w ∈ p.workers, WInv w
  count : p.found = none → p.boxes = p.stack.length + (p.workers.map share).sum
  quiet : p.found = none → ∀ w ∈ p.workers, w.pc = .done → p.boxes = 0

theorem workerStep_count {env c fs i} {p : Par} {w w' : Worker} {st n f}
    (h : p.workerStep env c fs i w = .ok (w', st, n, f)) (hw : WInv w) :
    WInv w' ∧ (f = none → p.found = none) ∧
    (f = none → (share w = 1 → w.pc = .chk → 0 < p.boxes) →
      n - p.boxes = st.length - p.stack.length + (share w' - share w)) ∧
    (f = none → share w = 0 → p.stack = [] → n = p.boxes) ∧
    (f = none → w'.pc = .done → w.pc = .done ∨ (w.pc = .chk ∧ p.boxes ≤ 0 ∧ n = p.boxes)) := by
  obtain ⟨s, pc, np, lf⟩ := w
  unfold Par.workerStep at h
  cases pc with
  | top =>
    simp only [Run.ok.injEq, Prod.mk.injEq] at h
    obtain ⟨rfl, rfl, rfl, rfl⟩ := h
    cases hf : p.found with
    | none => simp [WInv, share]
    | some j => simp [WInv]
  | chk =>
    simp only [Run.ok.injEq, Prod.mk.injEq] at h
    obtain ⟨rfl, rfl, rfl, rfl⟩ := h
    by_cases hb : 0 < p.boxes
    · cases np <;> simp [hb, WInv, share]
    · cases np
      · simp [hb, WInv, share]; omega
      · simp [hb, WInv, share]; omega
  | pop =>
    simp only at h
    split at h
    · rename_i hst
      simp only [Run.ok.injEq, Prod.mk.injEq] at h
      obtain ⟨rfl, rfl, rfl, rfl⟩ := h
      have : np = true := hw
      subst this
      simp [WInv, share, hst]
    · rename_i b rest hst
      simp only [Run.ok.injEq, Prod.mk.injEq] at h
      obtain ⟨rfl, rfl, rfl, rfl⟩ := h
      simp [WInv, share, hst]
  | prune =>
    simp only at h
    obtain ⟨s1, h1, h2⟩ := bindR_ok h
    simp only [Run.ok.injEq, Prod.mk.injEq] at h2
    obtain ⟨rfl, rfl, rfl, rfl⟩ := h2
    cases hs : s1.box.empty <;> simp [WInv, share]
  | eval =>
    simp only at h
    obtain ⟨⟨s1, o⟩, h1, h2⟩ := bindR_ok h
    have : np = true := hw
    subst this
    cases o with
    | none =>
      simp only [Run.ok.injEq, Prod.mk.injEq] at h2
      obtain ⟨rfl, rfl, rfl, rfl⟩ := h2
      simp [WInv, share]
    | some cand =>
      simp only [Run.ok.injEq, Prod.mk.injEq] at h2
      obtain ⟨rfl, rfl, rfl, rfl⟩ := h2
      by_cases hs : bits s1.box cand = [] <;> simp [WInv, share, hs]
  | dec =>
    simp only [Run.ok.injEq, Prod.mk.injEq] at h
    obtain ⟨rfl, rfl, rfl, rfl⟩ := h
    have : np = true := hw
    subst this
    simp [WInv, share]
  | branch cand =>
    simp only at h
    obtain ⟨o, h1, h2⟩ := bindR_ok h
    have : np = true := hw
    subst this
    split at h2
    · simp only [Run.ok.injEq, Prod.mk.injEq] at h2
      obtain ⟨rfl, rfl, rfl, rfl⟩ := h2
      simp [WInv, share]
    · simp only [Run.ok.injEq, Prod.mk.injEq] at h2
      obtain ⟨rfl, rfl, rfl, rfl⟩ := h2
      cases lf <;> simp [WInv, share]
  | inc b1 b2 =>
    simp only [Run.ok.injEq, Prod.mk.injEq] at h
    obtain ⟨rfl, rfl, rfl, rfl⟩ := h
    have : np = true := hw
    subst this
    simp [WInv, share]
  | push b1 b2 =>
    simp only [Run.ok.injEq, Prod.mk.injEq] at h
    obtain ⟨rfl, rfl, rfl, rfl⟩ := h
    simp [WInv, share]
  | find =>
    simp only [Run.ok.injEq, Prod.mk.injEq] at h
    obtain ⟨rfl, rfl, rfl, rfl⟩ := h
    simp [WInv]
  | done =>
    simp only [Run.ok.injEq, Prod.mk.injEq] at h
    obtain ⟨rfl, rfl, rfl, rfl⟩ := h
    simp [WInv]

theorem count_step {env c fs p i p'} (h : Par.step env c fs p i = .ok p') (hi : CountInv p) :
    CountInv p' := by
  rcases step_cases h with rfl | ⟨w, w', st, n, f, hw, hs, rfl⟩
  · exact hi
  · have hwm := List.mem_of_getElem? hw
    obtain ⟨k1, k2, k3, k4, k5⟩ := workerStep_count hs (hi.wi w hwm)
    have hmem : ∀ x ∈ p.workers.set i w', x ∈ p.workers ∨ x = w' := fun x hx =>
      List.mem_or_eq_of_mem_set hx
    have hcount : f = none → n = st.length + ((p.workers.set i w').map share).sum := by
      intro hf
      have hc := hi.count (k2 hf)
      have hle := cnt_le_sum hwm
      have := k3 hf (fun h1 _ => by omega)
      rw [sum_set hw]
      omega
    refine ⟨fun x hx => (hmem x hx).elim (hi.wi x) (fun h => h ▸ k1), hcount, ?_⟩
    intro hf x hx hd
    change n = 0
    have hc := hi.count (k2 hf)
    have hle := cnt_le_sum hwm
    have hnn := sum_nonneg p.workers
    have hcn := cnt_nonneg w
    rcases hmem x hx with hx | rfl
    · have h0 := hi.quiet (k2 hf) x hx hd
      have hst : p.stack = [] := by
        cases hs : p.stack with
        | nil => rfl
        | cons a l => rw [hs] at hc; simp at hc; omega
      rw [k4 hf (by omega) hst]; exact h0
    · rcases k5 hf hd with hd' | ⟨_, h1, h2⟩
      · have h0 := hi.quiet (k2 hf) w hwm hd'
        have hst : p.stack = [] := by
          cases hs : p.stack with
          | nil => rfl
          | cons a l => rw [hs] at hc; simp at hc; omega
        rw [k4 hf (by omega) hst]; exact h0
      · omega

theorem steps_inv {env c fs} {P : Par → Prop}
    (hstep : ∀ p i p', Par.step env c fs p i = .ok p' → P p → P p') :
    ∀ {sched p p'}, Par.steps env c fs sched p = .ok p' → P p → P p'
  | [], p, p', h, hp => by simp only [Par.steps, Run.ok.injEq] at h; exact h ▸ hp
  | i :: is, p, p', h, hp => by
    simp only [Par.steps] at h
    obtain ⟨q, h1, h2⟩ := bindR_ok h
    exact steps_inv hstep h2 (hstep p i q h1 hp)

theorem count_start (jobs left s) : CountInv (Par.start jobs left s) := by
  refine ⟨?_, fun _ => ?_, ?_⟩
  · intro w hw
    simp only [Par.start, List.mem_replicate] at hw
    rw [hw.2]; exact trivial
  · simp [Par.start, share]
  · intro _ w hw hd
    simp only [Par.start, List.mem_replicate] at hw
    rw [hw.2] at hd; cases hd

/-! ### Tracking a point -/

theorem evalBox_mono {env fs cand s s' o} (h : evalBox env fs cand s = .ok (s', o)) : Mono s s' :=
  (evalBox_frame h).1

theorem workerStep_mono {env c fs i} {p : Par} {w w' : Worker} {st n f}
    (h : p.workerStep env c fs i w = .ok (w', st, n, f)) : Mono w.st w'.st := by
  unfold Par.workerStep at h
  cases hpc : w.pc with
  | top =>
    simp only [hpc, Run.ok.injEq, Prod.mk.injEq] at h
    obtain ⟨rfl, -⟩ := h; split <;> exact Mono.refl _
  | chk =>
    simp only [hpc, Run.ok.injEq, Prod.mk.injEq] at h
    obtain ⟨rfl, -⟩ := h; split <;> exact Mono.refl _
  | pop =>
    simp only [hpc] at h
    split at h
    all_goals
      simp only [Run.ok.injEq, Prod.mk.injEq] at h
      obtain ⟨rfl, -⟩ := h; exact Mono.refl w.st
  | prune =>
    simp only [hpc] at h
    obtain ⟨s1, h1, h2⟩ := bindR_ok h
    simp only [Run.ok.injEq, Prod.mk.injEq] at h2
    obtain ⟨rfl, -⟩ := h2
    exact prune_mono c _ _ h1
  | eval =>
    simp only [hpc] at h
    obtain ⟨⟨s1, o⟩, h1, h2⟩ := bindR_ok h
    have := evalBox_mono h1
    cases o with
    | none =>
      simp only [Run.ok.injEq, Prod.mk.injEq] at h2
      obtain ⟨rfl, -⟩ := h2; exact this
    | some cand =>
      simp only [Run.ok.injEq, Prod.mk.injEq] at h2
      obtain ⟨rfl, -⟩ := h2; exact this
  | branch cand =>
    simp only [hpc] at h
    obtain ⟨o, h1, h2⟩ := bindR_ok h
    split at h2
    all_goals
      simp only [Run.ok.injEq, Prod.mk.injEq] at h2
      obtain ⟨rfl, -⟩ := h2; exact Mono.refl _
  | _ =>
    simp only [hpc, Run.ok.injEq, Prod.mk.injEq] at h
    obtain ⟨rfl, -⟩ := h; exact Mono.refl w.st

structure CoverInv (F : CStatus → Prop) (L : Box → Prop) (p : Par) : Prop where
  wi : ∀ w ∈ p.workers, WInv w
  dec : ∀ w ∈ p.workers, w.pc = .dec → F w.st → ¬ L w.st.box
  cover : p.found = none → (∀ w ∈ p.workers, F w.st) →
    (∃ b ∈ p.stack, L b) ∨ ∃ (j : Nat) (w : Worker), p.workers[j]? = some w ∧ ∃ b ∈ pending w, L b

theorem workerStep_cover {env c fs i} {p : Par} {w w' : Worker} {st n f F L} (t : Tracks F L)
    (hp : Closed (TrackR F L) (prune env.ib env.fuel c)) (he : EvalTracks env fs F L)
    (hb : BranchTracks (fun b cand => Box.branchLargestFirst env.fp b cand) L)
    (h : p.workerStep env c fs i w = .ok (w', st, n, f)) (hw : WInv w)
    (hd : w.pc = .dec → F w.st → ¬ L w.st.box) :
    (w'.pc = .dec → F w'.st → ¬ L w'.st.box) ∧
    (f = none → (share w = 1 → w.pc = .chk → 0 < p.boxes) → (w.pc = .done → False) → F w'.st →
      ∀ b, (b ∈ p.stack ∨ b ∈ pending w) → L b → ∃ b', (b' ∈ st ∨ b' ∈ pending w') ∧ L b') := by
  obtain ⟨s, pc, np, lf⟩ := w
  unfold Par.workerStep at h
  cases pc with
  | top =>
    simp only [Run.ok.injEq, Prod.mk.injEq] at h
    obtain ⟨rfl, rfl, rfl, rfl⟩ := h
    cases hf : p.found with
    | none => exact ⟨by simp, fun _ _ _ _ b hbm hl => ⟨b, by simpa [pending] using hbm, hl⟩⟩
    | some j => simp
  | chk =>
    simp only [Run.ok.injEq, Prod.mk.injEq] at h
    obtain ⟨rfl, rfl, rfl, rfl⟩ := h
    by_cases hbx : 0 < p.boxes
    · cases np <;>
        exact ⟨by simp [hbx], fun _ _ _ _ b hbm hl => ⟨b, by simpa [pending, hbx] using hbm, hl⟩⟩
    · cases np
      · simp [hbx, share]
      · exact ⟨by simp [hbx], fun _ _ _ _ b hbm hl => ⟨b, by simpa [pending, hbx] using hbm, hl⟩⟩
  | pop =>
    have : np = true := hw
    subst this
    simp only at h
    split at h
    · rename_i hst
      simp only [Run.ok.injEq, Prod.mk.injEq] at h
      obtain ⟨rfl, rfl, rfl, rfl⟩ := h
      exact ⟨by simp, fun _ _ _ _ b hbm hl => by simp [pending, hst] at hbm⟩
    · rename_i b rest hst
      simp only [Run.ok.injEq, Prod.mk.injEq] at h
      obtain ⟨rfl, rfl, rfl, rfl⟩ := h
      refine ⟨by simp, fun _ _ _ _ b hbm hl => ⟨b, ?_, hl⟩⟩
      simp [pending, hst] at hbm ⊢; tauto
  | prune =>
    simp only at h
    obtain ⟨s1, h1, h2⟩ := bindR_ok h
    obtain ⟨_, k⟩ := hp _ _ h1
    simp only [Run.ok.injEq, Prod.mk.injEq] at h2
    obtain ⟨rfl, rfl, rfl, rfl⟩ := h2
    constructor
    · intro hpc _ hl
      have := t.alive _ hl
      cases hs : s1.box.empty with
      | true => simp only [Box.empty] at hs; rw [hs] at this; cases this
      | false => simp [hs] at hpc
    · intro _ _ _ hF b hbm hl
      rcases hbm with hbm | hbm
      · exact ⟨b, Or.inl hbm, hl⟩
      · simp only [pending, List.mem_singleton] at hbm
        subst hbm
        refine ⟨s1.box, Or.inr ?_, k hF hl⟩
        cases hs : s1.box.empty <;> simp [pending]
  | eval =>
    simp only at h
    obtain ⟨⟨s1, o⟩, h1, h2⟩ := bindR_ok h
    obtain ⟨_, e1, e2⟩ := he _ _ _ h1
    cases o with
    | none =>
      simp only [Run.ok.injEq, Prod.mk.injEq] at h2
      obtain ⟨rfl, rfl, rfl, rfl⟩ := h2
      constructor
      · intro _ _ hl
        have := t.alive _ hl
        rw [(e1 rfl).1] at this; cases this
      · intro _ _ _ hF b hbm hl
        rcases hbm with hbm | hbm
        · exact ⟨b, Or.inl hbm, hl⟩
        · simp only [pending, List.mem_singleton] at hbm
          subst hbm
          exact absurd hl ((e1 rfl).2 hF)
    | some cand =>
      simp only [Run.ok.injEq, Prod.mk.injEq] at h2
      obtain ⟨rfl, rfl, rfl, rfl⟩ := h2
      constructor
      · intro hpc; simp only at hpc; split at hpc <;> cases hpc
      · intro _ _ _ hF b hbm hl
        rcases hbm with hbm | hbm
        · exact ⟨b, Or.inl hbm, hl⟩
        · simp only [pending, List.mem_singleton] at hbm
          subst hbm
          refine ⟨s1.box, Or.inr ?_, by rw [e2 (by simp)]; exact hl⟩
          by_cases hs : bits s1.box cand = [] <;> simp [pending, hs]
  | dec =>
    simp only [Run.ok.injEq, Prod.mk.injEq] at h
    obtain ⟨rfl, rfl, rfl, rfl⟩ := h
    refine ⟨by simp, fun _ _ _ hF b hbm hl => ?_⟩
    rcases hbm with hbm | hbm
    · exact ⟨b, Or.inl hbm, hl⟩
    · simp only [pending, List.mem_singleton] at hbm
      subst hbm
      exact absurd hl (hd rfl hF)
  | branch cand =>
    simp only at h
    obtain ⟨o, h1, h2⟩ := bindR_ok h
    split at h2
    · simp only [Run.ok.injEq, Prod.mk.injEq] at h2
      obtain ⟨rfl, rfl, rfl, rfl⟩ := h2
      exact ⟨by simp, fun _ _ _ _ b hbm hl => ⟨b, by simpa [pending] using hbm, hl⟩⟩
    · rename_i k b1 b2
      simp only [Run.ok.injEq, Prod.mk.injEq] at h2
      obtain ⟨rfl, rfl, rfl, rfl⟩ := h2
      constructor
      · intro hpc; cases lf <;> simp at hpc
      · intro _ _ _ hF b hbm hl
        rcases hbm with hbm | hbm
        · exact ⟨b, Or.inl hbm, hl⟩
        · simp only [pending, List.mem_singleton] at hbm
          subst hbm
          rcases hb _ _ _ _ _ (lift_ok h1) hl with hl | hl
          · exact ⟨b1, Or.inr (by cases lf <;> simp [pending]), hl⟩
          · exact ⟨b2, Or.inr (by cases lf <;> simp [pending]), hl⟩
  | inc b1 b2 =>
    simp only [Run.ok.injEq, Prod.mk.injEq] at h
    obtain ⟨rfl, rfl, rfl, rfl⟩ := h
    exact ⟨by simp, fun _ _ _ _ b hbm hl => ⟨b, by simpa [pending] using hbm, hl⟩⟩
  | push b1 b2 =>
    simp only [Run.ok.injEq, Prod.mk.injEq] at h
    obtain ⟨rfl, rfl, rfl, rfl⟩ := h
    refine ⟨by simp, fun _ _ _ _ b hbm hl => ⟨b, ?_, hl⟩⟩
    simp [pending] at hbm ⊢; tauto
  | find =>
    simp only [Run.ok.injEq, Prod.mk.injEq] at h
    obtain ⟨rfl, rfl, rfl, rfl⟩ := h
    simp
  | done =>
    simp only [Run.ok.injEq, Prod.mk.injEq] at h
    obtain ⟨rfl, rfl, rfl, rfl⟩ := h
    simp

theorem cover_step {env c fs p i p' F L} (t : Tracks F L)
    (hp : Closed (TrackR F L) (prune env.ib env.fuel c)) (he : EvalTracks env fs F L)
    (hb : BranchTracks (fun b cand => Box.branchLargestFirst env.fp b cand) L)
    (h : Par.step env c fs p i = .ok p') (hc : CountInv p) (hi : CoverInv F L p) :
    CoverInv F L p' := by
  rcases step_cases h with rfl | ⟨w, w', st, n, f, hw, hs, rfl⟩
  · exact hi
  · have hwm := List.mem_of_getElem? hw
    have hil : i < p.workers.length := (List.getElem?_eq_some_iff.mp hw).1
    obtain ⟨k1, k2, -, -, -⟩ := workerStep_count hs (hi.wi w hwm)
    obtain ⟨c1, c2⟩ := workerStep_cover t hp he hb hs (hi.wi w hwm) (hi.dec w hwm)
    have hmem : ∀ x ∈ p.workers.set i w', x ∈ p.workers ∨ x = w' := fun x hx =>
      List.mem_or_eq_of_mem_set hx
    refine ⟨fun x hx => (hmem x hx).elim (hi.wi x) (fun h => h ▸ k1),
      fun x hx => (hmem x hx).elim (hi.dec x) (fun h => h ▸ c1), ?_⟩
    intro hf hF
    have hFw' : F w'.st := hF w' (List.mem_set hil w')
    have hself : (p.workers.set i w')[i]? = some w' := by simp [hil]
    have hother : ∀ j, j ≠ i → (p.workers.set i w')[j]? = p.workers[j]? := fun j hj => by
      rw [List.getElem?_set]; simp [Ne.symm hj]
    have hFold : ∀ x ∈ p.workers, F x.st := by
      intro x hx
      obtain ⟨j, hj⟩ := List.getElem?_of_mem hx
      by_cases hji : j = i
      · subst hji; rw [hw] at hj; cases hj
        exact t.anti _ _ (workerStep_mono hs) hFw'
      · exact hF x (List.mem_of_getElem? ((hother j hji).trans hj))
    have hcount := hc.count (k2 hf)
    have hle := cnt_le_sum hwm
    have hdone : w.pc = .done → (∃ b ∈ p.stack, L b) ∨ (∃ b ∈ pending w, L b) → False := by
      intro hd hex
      have h0 := hc.quiet (k2 hf) w hwm hd
      have hnn := sum_nonneg p.workers
      rcases hex with ⟨b, hbm, _⟩ | ⟨b, hbm, _⟩
      · have : 0 < p.stack.length := List.length_pos_of_mem hbm
        omega
      · simp [pending, hd] at hbm
    have fin : ∀ b, (b ∈ p.stack ∨ b ∈ pending w) → L b → (∃ b ∈ st, L b) ∨ ∃ (j : Nat) (x : Worker),
        (p.workers.set i w')[j]? = some x ∧ ∃ b ∈ pending x, L b := by
      intro b hbm hl
      by_cases hd : w.pc = .done
      · exact (hdone hd (hbm.imp (fun h => ⟨b, h, hl⟩) (fun h => ⟨b, h, hl⟩))).elim
      · obtain ⟨b', hb' | hb', hl'⟩ := c2 hf (fun h1 _ => by omega) (fun h => hd h) hFw' b hbm hl
        · exact Or.inl ⟨b', hb', hl'⟩
        · exact Or.inr ⟨i, w', hself, b', hb', hl'⟩
    rcases hi.cover (k2 hf) hFold with ⟨b, hbm, hl⟩ | ⟨j, x, hj, b, hbm, hl⟩
    · exact fin b (Or.inl hbm) hl
    · by_cases hji : j = i
      · subst hji; rw [hw] at hj; cases hj
        exact fin b (Or.inr hbm) hl
      · exact Or.inr ⟨j, x, (hother j hji).trans hj, b, hbm, hl⟩

/-- No worker has found a box and one has returned: nothing is pending. -/
theorem quiet_nothing {p} (hc : CountInv p) (hf : p.found = none) {w} (hw : w ∈ p.workers)
    (hd : w.pc = .done) : p.stack = [] ∧ ∀ w ∈ p.workers, pending w = [] := by
  have h0 := hc.quiet hf w hw hd
  have hcount := hc.count hf
  have hnn := sum_nonneg p.workers
  constructor
  · cases hs : p.stack with
    | nil => rfl
    | cons a l => rw [hs] at hcount; simp at hcount; omega
  · intro x hx
    have h1 := cnt_le_sum hx
    have h2 := cnt_nonneg x
    have : share x = 0 := by omega
    unfold share at this
    unfold pending
    split at this <;> simp_all

theorem par_unsat {env c fs F L} (t : Tracks F L)
    (hp : Closed (TrackR F L) (prune env.ib env.fuel c)) (he : EvalTracks env fs F L)
    (hb : BranchTracks (fun b cand => Box.branchLargestFirst env.fp b cand) L)
    {jobs left sched s p} (hj : 0 < jobs)
    (h : Par.steps env c fs sched (Par.start jobs left s) = .ok p) (hd : p.allDone = true)
    (hf : p.found = none) (hF : ∀ w ∈ p.workers, F w.st) : ¬ L s.box := by
  intro hl
  have hinv : (CountInv p ∧ CoverInv F L p) ∧ p.workers.length = jobs := by
    refine steps_inv (P := fun q => (CountInv q ∧ CoverInv F L q) ∧ q.workers.length = jobs) ?_ h
      ⟨⟨count_start _ _ _, ?_, ?_, ?_⟩, ?_⟩
    · rintro q i q' hq ⟨⟨h1, h2⟩, h3⟩
      refine ⟨⟨count_step hq h1, cover_step t hp he hb hq h1 h2⟩, ?_⟩
      rcases step_cases hq with rfl | ⟨w, w', st, n, f, hw, hs, rfl⟩
      · exact h3
      · simpa using h3
    · exact (count_start _ _ _).wi
    · intro w hw hpc
      simp only [Par.start, List.mem_replicate] at hw
      rw [hw.2] at hpc; cases hpc
    · intro _ _
      exact Or.inl ⟨s.box, by simp [Par.start], hl⟩
    · simp [Par.start]
  obtain ⟨⟨hc, hcv⟩, hlen⟩ := hinv
  have hne : p.workers ≠ [] := by intro h0; rw [h0] at hlen; simp at hlen; omega
  obtain ⟨w, hw⟩ := List.exists_mem_of_ne_nil _ hne
  have hwd : w.pc = .done := by
    simp only [Par.allDone, List.all_eq_true] at hd
    have := hd w hw
    split at this
    · assumption
    · cases this
  obtain ⟨h1, h2⟩ := quiet_nothing hc hf hw hwd
  rcases hcv.cover hf hF with ⟨b, hbm, _⟩ | ⟨j, x, hj, b, hbm, _⟩
  · rw [h1] at hbm; simp at hbm
  · rw [h2 x (List.mem_of_getElem? hj)] at hbm; simp at hbm

/-! ### The accepted box -/

/-- Every box around is a part of the initial one, and a found box has been accepted. -/
structure FoundInv (env : Env) (fs : List Fml) (vs : List Variable) (b0 : Box) (p : Par) :
    Prop where
  wi : ∀ w ∈ p.workers, WInv w
  stack : ∀ b ∈ p.stack, Shape vs b ∧ SubBox b b0
  held : ∀ w ∈ p.workers, ∀ b ∈ pending w, Shape vs b ∧ SubBox b b0
  live : ∀ w ∈ p.workers, w.pc = .eval → w.st.box.bot = false
  br : ∀ w ∈ p.workers, ∀ cand, w.pc = .branch cand → ∃ (s : CStatus) (cd : List Nat),
    s.box = w.st.box ∧ w.st.box.bot = false ∧ evalBox env fs [] s = .ok (w.st, some cd) ∧
    cand = bits w.st.box cd
  fnd : ∀ w ∈ p.workers, w.pc = .find →
    AcceptedAt env fs (fun b cand => Box.branchLargestFirst env.fp b cand) w.st.box
  found : ∀ i, p.found = some i → ∃ w, p.workers[i]? = some w ∧ w.pc = .done ∧
    (Shape vs w.st.box ∧ SubBox w.st.box b0) ∧
    AcceptedAt env fs (fun b cand => Box.branchLargestFirst env.fp b cand) w.st.box

theorem evalBox_none_shape {env} : ∀ {fs cand s s' o}, evalBox env fs cand s = .ok (s', o) →
    o = none → s'.box.vars = s.box.vars ∧ s'.box.vals.length = s.box.vals.length
  | [], cand, s, s', o, h => by
    simp only [evalBox, Run.ok.injEq, Prod.mk.injEq] at h
    obtain ⟨rfl, rfl⟩ := h
    simp
  | f :: fs, cand, s, s', o, h => by
    simp only [evalBox] at h
    obtain ⟨⟨vd, iv⟩, h1, h2⟩ := bindR_ok h
    have hb : (if f.isAll then { s with tick := s.tick + 1 } else s).box = s.box := by
      split <;> rfl
    cases vd with
    | unsat =>
      simp only [Run.ok.injEq, Prod.mk.injEq] at h2
      obtain ⟨rfl, rfl⟩ := h2
      simp [CStatus.addUsed, Box.setEmpty, hb]
    | valid => simp only at h2; rw [← hb]; exact evalBox_none_shape h2
    | unknown => simp only at h2; rw [← hb]; exact evalBox_none_shape h2

theorem found_step {env c fs vs b0 p i p'}
    (hp : Closed (SubR vs) (prune env.ib env.fuel c)) (hc : CutInside env.fp)
    (h : Par.step env c fs p i = .ok p') (hi : FoundInv env fs vs b0 p) :
    FoundInv env fs vs b0 p' := by
  rcases step_cases h with rfl | ⟨w, w', st, n, f, hw, hs, rfl⟩
  · exact hi
  have hwm := List.mem_of_getElem? hw
  have hil : i < p.workers.length := (List.getElem?_eq_some_iff.mp hw).1
  have hmem : ∀ x ∈ p.workers.set i w', x ∈ p.workers ∨ x = w' := fun x hx =>
    List.mem_or_eq_of_mem_set hx
  have hself : (p.workers.set i w')[i]? = some w' := by simp [hil]
  have hother : ∀ j, j ≠ i → (p.workers.set i w')[j]? = p.workers[j]? := fun j hj => by
    rw [List.getElem?_set]; simp [Ne.symm hj]
  -- it is enough to look at the worker that moved
  have build : (∀ b ∈ st, Shape vs b ∧ SubBox b b0) → (∀ b ∈ Spec.pending w', Shape vs b ∧ SubBox b b0) →
      (w'.pc = .eval → w'.st.box.bot = false) →
      (∀ cand, w'.pc = .branch cand → ∃ (s : CStatus) (cd : List Nat), s.box = w'.st.box ∧
        w'.st.box.bot = false ∧ evalBox env fs [] s = .ok (w'.st, some cd) ∧
        cand = bits w'.st.box cd) →
      (w'.pc = .find → AcceptedAt env fs (fun b cand => Box.branchLargestFirst env.fp b cand)
        w'.st.box) →
      (w.pc = .done → w' = w) →
      (f = p.found ∨ (f = some i ∧ w'.pc = .done ∧ (Shape vs w'.st.box ∧ SubBox w'.st.box b0) ∧
        AcceptedAt env fs (fun b cand => Box.branchLargestFirst env.fp b cand) w'.st.box)) →
      FoundInv env fs vs b0 ⟨st, n, f, p.workers.set i w'⟩ := by
    intro g1 g2 g3 g4 g5 g6 g7
    refine ⟨fun x hx => (hmem x hx).elim (hi.wi x) (fun h => h ▸ (workerStep_count hs (hi.wi w hwm)).1),
      g1, fun x hx => (hmem x hx).elim (hi.held x) (fun h => h ▸ g2),
      fun x hx => (hmem x hx).elim (hi.live x) (fun h => h ▸ g3),
      fun x hx => (hmem x hx).elim (hi.br x) (fun h => h ▸ g4),
      fun x hx => (hmem x hx).elim (hi.fnd x) (fun h => h ▸ g5), ?_⟩
    intro j hj
    rcases g7 with rfl | ⟨rfl, e1, e2, e3⟩
    · obtain ⟨x, hx, hxd, e⟩ := hi.found j hj
      by_cases hji : j = i
      · subst hji
        rw [hw] at hx; cases hx
        exact ⟨w', hself, by rw [g6 hxd]; exact hxd, by rw [g6 hxd]; exact e⟩
      · exact ⟨x, (hother j hji).trans hx, hxd, e⟩
    · cases hj
      exact ⟨w', hself, e1, e2, e3⟩
  have hheld := hi.held w hwm
  have hwi := hi.wi w hwm
  have hlive := hi.live w hwm
  have hbr := hi.br w hwm
  have hfnd := hi.fnd w hwm
  clear hmem hself hother
  obtain ⟨s, pc, np, lf⟩ := w
  unfold Par.workerStep at hs
  cases pc with
  | top =>
    simp only [Run.ok.injEq, Prod.mk.injEq] at hs
    obtain ⟨rfl, rfl, rfl, rfl⟩ := hs
    by_cases hf : p.found.isNone = true
    · refine build hi.stack ?_ (by simp [hf]) (by simp [hf]) (by simp [hf]) (by simp)
        (Or.inl rfl)
      simpa [Spec.pending, hf] using hheld
    · exact build hi.stack (by simp [Spec.pending, hf]) (by simp [hf]) (by simp [hf]) (by simp [hf])
        (by simp) (Or.inl rfl)
  | chk =>
    simp only [Run.ok.injEq, Prod.mk.injEq] at hs
    obtain ⟨rfl, rfl, rfl, rfl⟩ := hs
    by_cases hbx : 0 < p.boxes
    · cases np
      · exact build hi.stack (by simpa [Spec.pending, hbx] using hheld) (by simp [hbx])
          (by simp [hbx]) (by simp [hbx]) (by simp) (Or.inl rfl)
      · exact build hi.stack (by simp [Spec.pending, hbx]) (by simp [hbx])
          (by simp [hbx]) (by simp [hbx]) (by simp) (Or.inl rfl)
    · exact build hi.stack (by simp [Spec.pending, hbx]) (by simp [hbx])
          (by simp [hbx]) (by simp [hbx]) (by simp) (Or.inl rfl)
  | pop =>
    simp only at hs
    split at hs
    · rename_i hst
      simp only [Run.ok.injEq, Prod.mk.injEq] at hs
      obtain ⟨rfl, rfl, rfl, rfl⟩ := hs
      refine build (by simp) ?_ (by simp) (by simp) (by simp) (by simp) (Or.inl rfl)
      have : np = true := hwi
      subst this
      simp [Spec.pending]
    · rename_i b rest hst
      simp only [Run.ok.injEq, Prod.mk.injEq] at hs
      obtain ⟨rfl, rfl, rfl, rfl⟩ := hs
      have h1 := hi.stack
      rw [hst] at h1
      exact build (fun b hb => h1 b (by simp [hb])) (by
        intro b' hb'; simp only [Spec.pending, List.mem_singleton] at hb'; subst hb'
        exact h1 _ (by simp)) (by simp) (by simp) (by simp) (by simp) (Or.inl rfl)
  | prune =>
    simp only at hs
    obtain ⟨s1, h1, h2⟩ := bindR_ok hs
    simp only [Run.ok.injEq, Prod.mk.injEq] at h2
    obtain ⟨rfl, rfl, rfl, rfl⟩ := h2
    obtain ⟨a1, a2⟩ := hheld s.box (by simp [Spec.pending])
    obtain ⟨q1, q2⟩ := hp _ _ h1 a1
    have hb : Shape vs s1.box ∧ SubBox s1.box b0 := ⟨q1, subBox_trans q2 a2⟩
    by_cases hs1 : s1.box.empty = true
    · exact build hi.stack (by simpa [Spec.pending, hs1] using hb) (by simp [hs1]) (by simp [hs1])
        (by simp [hs1]) (by simp) (Or.inl rfl)
    · exact build hi.stack (by simpa [Spec.pending, hs1] using hb)
        (fun _ => by simpa [Box.empty] using hs1) (by simp [hs1])
        (by simp [hs1]) (by simp) (Or.inl rfl)
  | eval =>
    simp only at hs
    obtain ⟨⟨s1, o⟩, h1, h2⟩ := bindR_ok hs
    obtain ⟨e1, e2⟩ := evalBox_box h1
    have a := hheld s.box (by simp [Spec.pending])
    cases o with
    | none =>
      simp only [Run.ok.injEq, Prod.mk.injEq] at h2
      obtain ⟨rfl, rfl, rfl, rfl⟩ := h2
      obtain ⟨f1, f2⟩ := evalBox_none_shape h1 rfl
      refine build hi.stack ?_ (by simp) (by simp) (by simp) (by simp) (Or.inl rfl)
      intro b hb; simp only [Spec.pending, List.mem_singleton] at hb; subst hb
      refine ⟨⟨f1.trans a.1.1, ?_, ?_⟩, fun hbot => by rw [e1 rfl] at hbot; cases hbot⟩
      · rw [f1, f2]; exact a.1.2.1
      · rw [f1]; exact a.1.2.2
    | some cand =>
      simp only [Run.ok.injEq, Prod.mk.injEq] at h2
      obtain ⟨rfl, rfl, rfl, rfl⟩ := h2
      have e2 := e2 (by simp)
      have hbot : s1.box.bot = false := by rw [e2]; exact hlive rfl
      have a' : Shape vs s1.box ∧ SubBox s1.box b0 := by rw [e2]; exact a
      by_cases hbit : bits s1.box cand = []
      · exact build hi.stack (by simpa [Spec.pending, hbit] using a') (by simp [hbit])
          (by simp [hbit]) (fun _ => ⟨s, s1, cand, e2.symm, rfl, hbot, h1, Or.inl hbit⟩)
          (by simp) (Or.inl rfl)
      · refine build hi.stack (by simpa [Spec.pending, hbit] using a') (by simp [hbit])
          ?_ (by simp [hbit]) (by simp) (Or.inl rfl)
        intro cd hcd
        simp only [hbit, if_false, Pc.branch.injEq] at hcd
        exact ⟨s, cand, e2.symm, hbot, h1, hcd.symm⟩
  | dec =>
    simp only [Run.ok.injEq, Prod.mk.injEq] at hs
    obtain ⟨rfl, rfl, rfl, rfl⟩ := hs
    have a := hheld s.box (by simp [Spec.pending])
    refine build hi.stack ?_ (by simp) (by simp) (by simp) (by simp) (Or.inl rfl)
    intro b hb; cases np <;> simp [Spec.pending] at hb; subst hb; exact a
  | branch cand =>
    simp only at hs
    obtain ⟨o, h1, h2⟩ := bindR_ok hs
    have h1' := lift_ok h1
    have a := hheld s.box (by simp [Spec.pending])
    split at h2
    · simp only [Run.ok.injEq, Prod.mk.injEq] at h2
      obtain ⟨rfl, rfl, rfl, rfl⟩ := h2
      refine build hi.stack (by simpa [Spec.pending] using a) (by simp) (by simp) ?_ (by simp)
        (Or.inl rfl)
      intro _
      obtain ⟨s0, cd, g1, g2, g3, g4⟩ := hbr cand rfl
      exact ⟨s0, s, cd, g1, rfl, g2, g3, Or.inr (g4 ▸ h1')⟩
    · rename_i k b1 b2
      simp only [Run.ok.injEq, Prod.mk.injEq] at h2
      obtain ⟨rfl, rfl, rfl, rfl⟩ := h2
      have hsp := bisect_splits hc a.1.2 (branch_some h1')
      obtain ⟨sh1, sh2⟩ := hsp.shape a.1
      obtain ⟨sb1, sb2⟩ := hsp.subBox
      refine build hi.stack ?_ (by cases lf <;> simp) (by cases lf <;> simp)
        (by cases lf <;> simp) (by simp) (Or.inl rfl)
      intro b hb
      have : b = b1 ∨ b = b2 := by cases lf <;> simp [Spec.pending] at hb <;> tauto
      rcases this with rfl | rfl
      · exact ⟨sh1, subBox_trans sb1 a.2⟩
      · exact ⟨sh2, subBox_trans sb2 a.2⟩
  | inc b1 b2 =>
    simp only [Run.ok.injEq, Prod.mk.injEq] at hs
    obtain ⟨rfl, rfl, rfl, rfl⟩ := hs
    exact build hi.stack (by simpa [Spec.pending] using hheld) (by simp) (by simp) (by simp) (by simp)
      (Or.inl rfl)
  | push b1 b2 =>
    simp only [Run.ok.injEq, Prod.mk.injEq] at hs
    obtain ⟨rfl, rfl, rfl, rfl⟩ := hs
    refine build ?_ ?_ (by simp) (by simp) (by simp) (by simp) (Or.inl rfl)
    · intro b hb
      rcases List.mem_cons.mp hb with rfl | hb
      · exact hheld _ (by simp [Spec.pending])
      · exact hi.stack b hb
    · intro b hb
      simp [Spec.pending] at hb; subst hb
      exact hheld _ (by simp [Spec.pending])
  | find =>
    simp only [Run.ok.injEq, Prod.mk.injEq] at hs
    obtain ⟨rfl, rfl, rfl, rfl⟩ := hs
    exact build hi.stack (by simp [Spec.pending]) (by simp) (by simp) (by simp) (by simp)
      (Or.inr ⟨rfl, rfl, hheld s.box (by simp [Spec.pending]), hfnd rfl⟩)
  | done =>
    simp only [Run.ok.injEq, Prod.mk.injEq] at hs
    obtain ⟨rfl, rfl, rfl, rfl⟩ := hs
    exact build hi.stack (by simp [Spec.pending]) (by simp) (by simp) (by simp) (by simp) (Or.inl rfl)

theorem joinAll_mono : ∀ {ws s s'}, Par.joinAll ws s = .ok s' → Mono s s' ∧ ∀ w ∈ ws, Mono w.st s'
  | [], s, s', h => by
    simp only [Par.joinAll, Outcome.ok.injEq] at h; subst h; exact ⟨Mono.refl _, by simp⟩
  | w :: ws, s, s', h => by
    simp only [Par.joinAll] at h
    obtain ⟨t, h1, h2⟩ := bindO_ok h
    obtain ⟨m1, m2⟩ := mono_join h1
    obtain ⟨m3, m4⟩ := joinAll_mono h2
    refine ⟨m1.trans m3, fun x hx => ?_⟩
    rcases List.mem_cons.mp hx with rfl | hx
    · exact m2.trans m3
    · exact m4 x hx

theorem found_start {env fs vs} {jobs left s} (hs : Shape vs s.box) :
    FoundInv env fs vs s.box (Par.start jobs left s) := by
  have hw : ∀ w ∈ (Par.start jobs left s).workers, w = ⟨s, .top, true, left⟩ := by
    intro w hw; simp only [Par.start, List.mem_replicate] at hw; exact hw.2
  refine ⟨fun w h => hw w h ▸ trivial, ?_, ?_, ?_, ?_, ?_, ?_⟩
  · intro b hb
    simp only [Par.start, List.mem_singleton] at hb
    subst hb; exact ⟨hs, subBox_refl _⟩
  · intro w h b hb; rw [hw w h] at hb; simp [pending] at hb
  · intro w h hp; rw [hw w h] at hp; cases hp
  · intro w h c hp; rw [hw w h] at hp; cases hp
  · intro w h hp; rw [hw w h] at hp; cases hp
  · intro i h; simp [Par.start] at h

/-- A complete run of the parallel search that answers no. -/
theorem icpPar_unsat {env c fs F L} (t : Tracks F L)
    (hp : Closed (TrackR F L) (prune env.ib env.fuel c)) (he : EvalTracks env fs F L)
    (hb : BranchTracks (fun b cand => Box.branchLargestFirst env.fp b cand) L)
    {jobs left sched s s'} (hj : 0 < jobs)
    (h : icpPar env jobs left c fs sched s = .ok (false, s')) :
    Mono s s' ∧ s'.box.empty = true ∧ (F s' → ¬ L s.box) := by
  unfold icpPar at h
  obtain ⟨s0, h1, h2⟩ := bindR_ok h
  obtain ⟨m1, k1⟩ := hp _ _ h1
  split at h2
  · rename_i hemp
    simp only [Run.ok.injEq, Prod.mk.injEq, true_and] at h2
    subst h2
    refine ⟨m1, hemp, fun hF hl => ?_⟩
    have := t.alive _ (k1 hF hl)
    simp only [Box.empty] at hemp; rw [hemp] at this; cases this
  · obtain ⟨p, h3, h4⟩ := bindR_ok h2
    split at h4
    · rename_i hd
      obtain ⟨s1, h5, h6⟩ := bindR_ok h4
      obtain ⟨m2, m3⟩ := joinAll_mono (lift_ok h5)
      split at h6
      · split at h6
        · simp at h6
        · cases h6
      · rename_i hf
        simp only [Run.ok.injEq, Prod.mk.injEq, true_and] at h6
        subst h6
        refine ⟨m1.trans m2, rfl, fun hF hl => ?_⟩
        have hF1 : F s1 := t.anti s1 { s1 with box := s1.box.setEmpty } (Mono.refl s1) hF
        exact par_unsat t hp he hb hj h3 hd hf (fun w hw => t.anti _ _ (m3 w hw) hF1)
          (k1 (t.anti _ _ m2 hF1) hl)
    · cases h4

/-- A complete run of the parallel search that answers yes. -/
theorem icpPar_sat {env c fs vs} (hp : Closed (SubR vs) (prune env.ib env.fuel c))
    (hc : CutInside env.fp) {jobs left sched s s'} (hs : Shape vs s.box)
    (h : icpPar env jobs left c fs sched s = .ok (true, s')) :
    Shape vs s'.box ∧ SubBox s'.box s.box ∧
    AcceptedAt env fs (fun b cand => Box.branchLargestFirst env.fp b cand) s'.box := by
  unfold icpPar at h
  obtain ⟨s0, h1, h2⟩ := bindR_ok h
  obtain ⟨q1, q2⟩ := hp _ _ h1 hs
  split at h2
  · simp at h2
  · obtain ⟨p, h3, h4⟩ := bindR_ok h2
    split at h4
    · obtain ⟨s1, h5, h6⟩ := bindR_ok h4
      split at h6
      · rename_i i hf
        split at h6
        · rename_i w hw
          simp only [Run.ok.injEq, Prod.mk.injEq, true_and] at h6
          subst h6
          have inv := steps_inv (P := FoundInv env fs vs s0.box)
            (fun q i q' hq hi => found_step hp hc hq hi) h3 (found_start q1)
          obtain ⟨w', hw', _, ⟨a1, a2⟩, a3⟩ := inv.found i hf
          rw [hw] at hw'; cases hw'
          exact ⟨a1, subBox_trans a2 q2, a3⟩
        · cases h6
      · simp at h6
    · cases h4

/-! Tracking nothing, for the part of `icpPar_unsat` that needs no assumption. -/

theorem tracks_false : Tracks (fun _ => True) (fun _ => False) where
  anti := fun _ _ _ _ => trivial
  alive := fun _ h => h.elim

theorem pruneTracks_false {ib n} (c : Ctc) :
    Closed (TrackR (fun _ => True) (fun _ => False)) (prune ib n c) := fun s s' h =>
  ⟨prune_mono c s s' h, fun _ h => h⟩

theorem evalTracks_false {env fs} : EvalTracks env fs (fun _ => True) (fun _ => False) := by
  intro s s' o h
  obtain ⟨m, h1, h2⟩ := evalBox_frame h
  exact ⟨m, fun ho => ⟨(h1 ho).1, fun _ h => h⟩, h2⟩

theorem branchTracks_false {br} : BranchTracks br (fun _ => False) := by
  intro b cand i b1 b2 _ h; exact h.elim

end Verif.Proof
