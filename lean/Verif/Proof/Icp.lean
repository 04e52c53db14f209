import Verif.Spec.Icp
import Verif.Proof.Contractor
import Verif.Proof.Eval

/-!
# Branch and prune: lemmas
-/

namespace Verif.Proof
open Verif Verif.Model Verif.Spec

theorem bisect_splits {fp : Fp} (hc : CutInside fp) {b b1 b2 : Box} {i : Nat} (wf : BoxWf b)
    (h : b.bisect fp i = .ok (b1, b2)) : Splits b i b1 b2 := by
  obtain ⟨f1, f2, f3, f4, f5⟩ := bisect_frame h
  obtain ⟨w1, w2⟩ := bisect_wf wf h
  obtain ⟨n1, n2⟩ := bisect_nonempty hc wf h
  obtain ⟨v, hv, hb, hnb, h'⟩ := bisect_ok h
  have hl : i < b.vals.length := by rw [wf.1]; exact lt_of_getElem? hv
  refine ⟨⟨f1, f2⟩, ⟨by rw [w1.1, wf.1, f1], by rw [w2.1, wf.1, f2]⟩, ⟨f3, f4⟩, f5,
    ⟨exists_in_of_not_isEmpty n1, exists_in_of_not_isEmpty n2⟩, ?_, ?_⟩
  · intro w x hw ht hx
    rw [hv] at hw; cases hw
    rcases h' with ⟨_, rfl, rfl⟩ | ⟨hty, _, _, _, _, rfl, rfl⟩
    · rw [get_set_self hl, get_set_self hl]
      rcases le_total x (fp.cut (b.get i) : ℝ) with hle | hle
      · exact Or.inl ⟨hx.1, hle⟩
      · exact Or.inr ⟨hle, hx.2⟩
    · rw [get_set_self hl, get_set_self hl]
      obtain ⟨n, hn⟩ := integral_of_typeOk hty ht
      subst hn
      rcases le_or_gt n ⌊fp.mid (b.get i)⌋ with hle | hlt
      · left
        refine ⟨below_ceil hx.1, ?_⟩
        simp only [above]; exact_mod_cast hle
      · right
        refine ⟨?_, above_floor hx.2⟩
        simp only [below]; push_cast; exact_mod_cast hlt
  · intro x hx
    rcases h' with ⟨_, rfl, rfl⟩ | ⟨_, c1, c2, c3, c4, rfl, rfl⟩
    · rw [get_set_self hl, get_set_self hl] at hx
      have hcut := hc _ hb
      rcases hx with hx | hx
      · exact ⟨hx.1, above_mono (le_of_lt hcut.2) hx.2⟩
      · exact ⟨below_mono (le_of_lt hcut.1) hx.1, hx.2⟩
    · rw [get_set_self hl, get_set_self hl] at hx
      have hlt : (EQ.fin (⌊fp.mid (b.get i)⌋ : ℤ)) ≤ .fin ((⌊fp.mid (b.get i)⌋ : ℤ) + 1) := by
        simp
      rcases hx with hx | hx
      · exact ⟨below_mono c1 hx.1, above_mono (hlt.trans (c3.trans c4)) hx.2⟩
      · exact ⟨below_mono (c1.trans (c2.trans hlt)) hx.1, above_mono c4 hx.2⟩

theorem branch_some {fp : Fp} {b b1 b2 : Box} {act : List Nat} {i : Nat}
    (h : b.branchLargestFirst fp act = .ok (some (i, b1, b2))) : b.bisect fp i = .ok (b1, b2) := by
  unfold Box.branchLargestFirst at h
  obtain ⟨r, _, h2⟩ := bindO_ok h
  split at h2
  · obtain ⟨p, h3, h4⟩ := bindO_ok h2
    simp only [Outcome.ok.injEq, Option.some.injEq, Prod.mk.injEq] at h4
    obtain ⟨rfl, rfl, rfl⟩ := h4
    exact h3
  · simp at h2

theorem branchOk_default {fp : Fp} (hc : CutInside fp) :
    BranchOk (fun b cand => Box.branchLargestFirst fp b cand) := fun _ _ _ _ _ wf h =>
  bisect_splits hc wf (branch_some h)

theorem _root_.Verif.Spec.Splits.shape {vs b i b1 b2} (h : Splits b i b1 b2) (hs : Shape vs b) :
    Shape vs b1 ∧ Shape vs b2 := by
  obtain ⟨rfl, w1, w2⟩ := hs
  exact ⟨⟨h.vars.1, by rw [h.len.1, h.vars.1]; exact w1, by rw [h.vars.1]; exact w2⟩,
    ⟨h.vars.2, by rw [h.len.2, h.vars.2]; exact w1, by rw [h.vars.2]; exact w2⟩⟩

theorem _root_.Verif.Spec.Splits.subBox {b i b1 b2} (h : Splits b i b1 b2) : SubBox b1 b ∧ SubBox b2 b := by
  refine ⟨fun hb => ⟨h.bot.1 ▸ hb, fun j x hx => ?_⟩, fun hb => ⟨h.bot.2 ▸ hb, fun j x hx => ?_⟩⟩
  · by_cases hj : j = i
    · subst hj; exact h.sub x (Or.inl hx)
    · rwa [(h.frame j hj).1] at hx
  · by_cases hj : j = i
    · subst hj; exact h.sub x (Or.inr hx)
    · rwa [(h.frame j hj).2] at hx

theorem _root_.Verif.Spec.Splits.cover_point {b i b1 b2} (h : Splits b i b1 b2) {ρ} (hty : TypedOn ρ b.vars)
    (hρ : InBox ρ b) : InBox ρ b1 ∨ InBox ρ b2 := by
  have key : ∀ b', b'.vars = b.vars → b'.bot = b.bot → (∀ j, j ≠ i → b'.get j = b.get j) →
      (∀ v, b.vars[i]? = some v → InItv (ρ v) (b'.get i)) → InBox ρ b' := by
    intro b' h1 h2 h3 h4
    refine ⟨h2 ▸ hρ.1, fun j v hv => ?_⟩
    rw [h1] at hv
    by_cases hj : j = i
    · subst hj; exact h4 v hv
    · rw [h3 j hj]; exact hρ.2 j v hv
  cases hv : b.vars[i]? with
  | none =>
    left
    exact key b1 h.vars.1 h.bot.1 (fun j hj => (h.frame j hj).1) (fun v h => by rw [hv] at h; cases h)
  | some v =>
    rcases h.cover v (ρ v) hv (hty v (List.mem_of_getElem? hv)) (hρ.2 i v hv) with hc | hc
    · left
      exact key b1 h.vars.1 h.bot.1 (fun j hj => (h.frame j hj).1)
        (fun w hw => by rw [hv] at hw; cases hw; exact hc)
    · right
      exact key b2 h.vars.2 h.bot.2 (fun j hj => (h.frame j hj).2)
        (fun w hw => by rw [hv] at hw; cases hw; exact hc)

/-! ### A search that tracks one point -/

/-- The recorded sets only grow. -/
def Mono (s s' : CStatus) : Prop := s.used ⊆ s'.used ∧ s.witness ⊆ s'.witness

theorem Mono.refl (s) : Mono s s := ⟨List.Subset.refl _, List.Subset.refl _⟩
theorem Mono.trans {s t u} (h1 : Mono s t) (h2 : Mono t u) : Mono s u :=
  ⟨List.Subset.trans h1.1 h2.1, List.Subset.trans h1.2 h2.2⟩

theorem Mono.from {s t u : CStatus} (h : Mono t u) (h1 : s.used = t.used)
    (h2 : s.witness = t.witness) : Mono s u := ⟨h1 ▸ h.1, h2 ▸ h.2⟩

theorem mono_pre : PreR Mono where
  refl := Mono.refl
  trans := fun _ _ _ => Mono.trans
  reset := fun s => Mono.refl s

theorem mono_addUsed (s : CStatus) (f) : Mono s (s.addUsed f) := by
  constructor
  · intro x hx; simp [CStatus.addUsed, hx]
  · intro x hx; simp only [CStatus.addUsed]; split <;> simp [hx]

theorem mono_addUseds : ∀ (fs : List Fml) (s : CStatus), Mono s (s.addUseds fs)
  | [], s => Mono.refl s
  | f :: fs, s => (mono_addUsed s f).trans (mono_addUseds fs _)

theorem mono_integerLoop : ∀ (is : List Nat), Closed Mono (integerLoop is)
  | [], s, s', h => by simp only [integerLoop, Run.ok.injEq] at h; subst h; exact Mono.refl _
  | i :: is, s, s', h => by
    simp only [integerLoop] at h
    split at h
    · exact mono_integerLoop is _ _ h
    · split at h
      · split at h
        · exact (mono_integerLoop is _ _ h).from rfl rfl
        · split at h
          · simp only [Run.ok.injEq] at h; subst h
            exact ⟨List.Subset.refl _, fun x hx => by simp [CStatus.addWitness, hx]⟩
          · cases h
      · exact mono_integerLoop is _ _ h

theorem mono_join {s t u : CStatus} (h : s.join t = .ok u) : Mono s u ∧ Mono t u := by
  simp only [CStatus.join] at h
  obtain ⟨b, _, h2⟩ := bindO_ok h
  simp only [Outcome.ok.injEq] at h2; subst h2
  exact ⟨⟨List.subset_append_left _ _, List.subset_append_left _ _⟩,
    ⟨List.subset_append_right _ _, List.subset_append_right _ _⟩⟩

theorem mono_joinLoop {s : CStatus} : ∀ {ps : List Pruner} {acc s'},
    joinLoop s ps acc = .ok s' → Mono acc s'
  | [], acc, s', h => by simp only [joinLoop, Run.ok.injEq] at h; subst h; exact Mono.refl _
  | p :: ps, acc, s', h => by
    simp only [joinLoop] at h
    obtain ⟨si, _, h2⟩ := bindR_ok h
    obtain ⟨acc', h3, h4⟩ := bindR_ok h2
    exact (mono_join (lift_ok h3)).1.trans (mono_joinLoop h4)

mutual
theorem prune_mono {ib n} : ∀ c : Ctc, Closed Mono (prune ib n c)
  | .id, s, s', h => by simp only [prune, Run.ok.injEq] at h; subst h; exact Mono.refl _
  | .integer is, s, s', h => by simp only [prune] at h; exact mono_integerLoop is s s' h
  | .seq cs, s, s', h => by
    simp only [prune] at h; exact seqRun_closed mono_pre (prunes_mono cs) s s' h
  | .join cs, s, s', h => by
    simp only [prune, joinRun] at h
    exact (mono_joinLoop h).from rfl rfl
  | .fixpoint cs, s, s', h => by
    simp only [prune] at h; exact fixLoop_closed mono_pre (prunes_mono cs) n s s' h
  | .worklist cs, s, s', h => by
    simp only [prune] at h; exact wlRun_closed mono_pre (prunes_mono cs) n s s' h
  | .fwdbwd vs f c, s, s', h => by
    simp only [prune, fwdbwdRun] at h
    split at h
    · simp only [Run.ok.injEq] at h; subst h; exact Mono.refl s
    · split at h
      · simp only [Run.ok.injEq] at h; subst h
        exact (mono_addUsed _ f).from rfl rfl
      · split at h
        · simp only [Run.ok.injEq] at h; subst h; exact Mono.refl s
        · simp only [Run.ok.injEq] at h; subst h
          exact (mono_addUsed _ f).from rfl rfl
  | .polytope vs fs cs, s, s', h => by
    simp only [prune, polytopeRun] at h
    split at h
    · cases h
    · split at h
      · simp only [Run.ok.injEq] at h; subst h
        exact (mono_addUseds fs _).from rfl rfl
      · split at h
        · simp only [Run.ok.injEq] at h; subst h; exact Mono.refl s
        · simp only [Run.ok.injEq] at h; subst h
          exact (mono_addUseds fs _).from rfl rfl
  | .forallC vs f, s, s', h => by
    simp only [prune, forallRun] at h
    obtain ⟨r, _, h2⟩ := bindR_ok h
    simp only [Run.ok.injEq] at h2; subst h2
    exact (mono_addUsed _ f).from rfl rfl
theorem prunes_mono {ib n} : ∀ cs : List Ctc, ∀ p ∈ prunes ib n cs, Closed Mono p
  | [], p, hp => by simp [prunes] at hp
  | c :: cs, p, hp => by
    simp only [prunes, List.mem_cons] at hp
    rcases hp with rfl | hp
    · exact prune_mono c
    · exact prunes_mono cs p hp
end

/-- What is tracked: `L` says that the point is alive in a box, provided that the recorded sets
satisfy `F` in the end. -/
structure Tracks (F : CStatus → Prop) (L : Box → Prop) : Prop where
  anti : ∀ s s', Mono s s' → F s' → F s
  alive : ∀ b, L b → b.bot = false

def TrackR (F : CStatus → Prop) (L : Box → Prop) (s s' : CStatus) : Prop :=
  Mono s s' ∧ (F s' → L s.box → L s'.box)

theorem trackR_pre {F L} (t : Tracks F L) : PreR (TrackR F L) where
  refl := fun s => ⟨Mono.refl s, fun _ h => h⟩
  trans := fun _ _ _ h1 h2 => ⟨h1.1.trans h2.1, fun hf hl =>
    h2.2 hf (h1.2 (t.anti _ _ h2.1 hf) hl)⟩
  reset := fun s => ⟨Mono.refl s, fun _ h => h⟩

/-- What the evaluation of the constraints has to do to the tracked point. -/
def EvalTracks (env : Env) (fs : List Fml) (F : CStatus → Prop) (L : Box → Prop) : Prop :=
  ∀ s s' o, evalBox env fs [] s = .ok (s', o) → Mono s s' ∧
    (o = none → s'.box.bot = true ∧ (F s' → ¬ L s.box)) ∧ (o ≠ none → s'.box = s.box)

def BranchTracks (br : Box → List Nat → Outcome (Option (Nat × Box × Box))) (L : Box → Prop) :
    Prop := ∀ b cand i b1 b2, br b cand = .ok (some (i, b1, b2)) → L b → L b1 ∨ L b2

theorem evalBox_frame {env} : ∀ {fs cand s s' o}, evalBox env fs cand s = .ok (s', o) →
    Mono s s' ∧ (o = none → s'.box.bot = true ∧
      ∃ f ∈ fs, ∃ n iv, evalLit env n s.box f = .ok (.unsat, iv) ∧ f ∈ s'.used ∧
        ∀ v ∈ f.fv, v ∈ s'.witness) ∧ (o ≠ none → s'.box = s.box)
  | [], cand, s, s', o, h => by
    simp only [evalBox, Run.ok.injEq, Prod.mk.injEq] at h
    obtain ⟨rfl, rfl⟩ := h
    exact ⟨Mono.refl _, by simp, fun _ => rfl⟩
  | f :: fs, cand, s, s', o, h => by
    simp only [evalBox] at h
    obtain ⟨⟨vd, iv⟩, h1, h2⟩ := bindR_ok h
    have hstep : ∀ cand', evalBox env fs cand' (if f.isAll then { s with tick := s.tick + 1 } else s)
        = .ok (s', o) → Mono s s' ∧ (o = none → s'.box.bot = true ∧
          ∃ g ∈ f :: fs, ∃ n iv, evalLit env n s.box g = .ok (.unsat, iv) ∧ g ∈ s'.used ∧
            ∀ v ∈ g.fv, v ∈ s'.witness) ∧ (o ≠ none → s'.box = s.box) := by
      intro cand' hc
      obtain ⟨g1, g2, g3⟩ := evalBox_frame hc
      have hb : (if f.isAll then { s with tick := s.tick + 1 } else s).box = s.box := by
        split <;> rfl
      have hm : Mono s (if f.isAll then { s with tick := s.tick + 1 } else s) := by
        split <;> exact Mono.refl s
      rw [hb] at g2 g3
      refine ⟨hm.trans g1, fun ho => ?_, g3⟩
      obtain ⟨e1, g, hg, e2⟩ := g2 ho
      exact ⟨e1, g, by simp [hg], e2⟩
    cases vd with
    | unsat =>
      simp only [Run.ok.injEq, Prod.mk.injEq] at h2
      obtain ⟨rfl, rfl⟩ := h2
      have hb : (if f.isAll then { s with tick := s.tick + 1 } else s).used = s.used := by
        split <;> rfl
      have hw : (if f.isAll then { s with tick := s.tick + 1 } else s).witness = s.witness := by
        split <;> rfl
      refine ⟨⟨?_, ?_⟩, fun _ => ⟨rfl, f, by simp, s.tick, iv, h1, by simp [CStatus.addUsed], ?_⟩,
        by simp⟩
      · intro x hx; simp [CStatus.addUsed, hb, hx]
      · intro x hx; simp [CStatus.addUsed, hw, hx, Box.setEmpty, Box.empty]
      · intro v hv; simp [CStatus.addUsed, Box.setEmpty, Box.empty, hv]
    | valid => exact hstep _ h2
    | unknown => exact hstep _ h2

theorem icpLoop_unsat {env c fs F L} (t : Tracks F L)
    (hp : Closed (TrackR F L) (prune env.ib env.fuel c)) (he : EvalTracks env fs F L)
    (hb : BranchTracks env.brancher L) : ∀ {n left stack s res s'},
    icpLoop env c fs n left stack s = .ok (res, s') →
    Mono s s' ∧ (res = false → F s' → ∀ p ∈ stack, ¬ L p.1)
  | n, left, [], s, res, s', h => by
    simp only [icpLoop, Run.ok.injEq, Prod.mk.injEq] at h
    obtain ⟨rfl, rfl⟩ := h
    exact ⟨Mono.refl _, by simp⟩
  | 0, _, _ :: _, s, res, s', h => by simp [icpLoop] at h
  | n + 1, left, (b, d) :: stack, s, res, s', h => by
    simp only [icpLoop] at h
    obtain ⟨s1, h1, h2⟩ := bindR_ok h
    obtain ⟨m1, k1⟩ := hp _ _ h1
    have m1' : Mono s s1 := m1
    split at h2
    · rename_i hemp
      obtain ⟨m2, k2⟩ := icpLoop_unsat t hp he hb h2
      refine ⟨m1'.trans m2, fun hr hf p hpm => ?_⟩
      rcases List.mem_cons.mp hpm with rfl | hpm
      · intro hl
        have := t.alive _ (k1 (t.anti _ _ m2 hf) hl)
        simp [Box.empty] at hemp; rw [hemp] at this; cases this
      · exact k2 hr hf p hpm
    · obtain ⟨⟨s2, o⟩, h3, h4⟩ := bindR_ok h2
      obtain ⟨m2, e1, e2⟩ := he _ _ _ h3
      cases o with
      | none =>
        simp only at h4
        obtain ⟨m3, k3⟩ := icpLoop_unsat t hp he hb h4
        refine ⟨m1'.trans (m2.trans m3), fun hr hf p hpm => ?_⟩
        rcases List.mem_cons.mp hpm with rfl | hpm
        · intro hl
          exact (e1 rfl).2 (t.anti _ _ m3 hf) (k1 (t.anti _ _ (m2.trans m3) hf) hl)
        · exact k3 hr hf p hpm
      | some cand =>
        simp only at h4
        split at h4
        · simp only [Run.ok.injEq, Prod.mk.injEq] at h4
          obtain ⟨rfl, rfl⟩ := h4
          exact ⟨m1'.trans m2, by simp⟩
        · obtain ⟨br, h5, h6⟩ := bindR_ok h4
          have h5' := lift_ok h5
          split at h6
          · simp only [Run.ok.injEq, Prod.mk.injEq] at h6
            obtain ⟨rfl, rfl⟩ := h6
            exact ⟨m1'.trans m2, by simp⟩
          · rename_i i b1 b2
            obtain ⟨m3, k3⟩ := icpLoop_unsat t hp he hb h6
            refine ⟨m1'.trans (m2.trans m3), fun hr hf p hpm => ?_⟩
            have k4 := k3 hr hf
            rcases List.mem_cons.mp hpm with rfl | hpm
            · intro hl
              have l1 := k1 (t.anti _ _ (m2.trans m3) hf) hl
              rw [← e2 (by simp)] at l1
              have hb1 : (b1, some i) ∈ (if left then (b2, some i) :: (b1, some i) :: stack
                else (b1, some i) :: (b2, some i) :: stack) := by split <;> simp
              have hb2 : (b2, some i) ∈ (if left then (b2, some i) :: (b1, some i) :: stack
                else (b1, some i) :: (b2, some i) :: stack) := by split <;> simp
              rcases hb _ _ _ _ _ h5' l1 with l | l
              · exact k4 _ hb1 l
              · exact k4 _ hb2 l
            · exact k4 p (by split <;> simp [hpm])

theorem evalBox_box {env fs cand s s' o} (h : evalBox env fs cand s = .ok (s', o)) :
    (o = none → s'.box.bot = true) ∧ (o ≠ none → s'.box = s.box) :=
  ⟨fun ho => ((evalBox_frame h).2.1 ho).1, (evalBox_frame h).2.2⟩

/-- The answer and the emptiness of the final box agree. -/
theorem icpLoop_empty {env c fs} : ∀ {n left stack s res s'},
    icpLoop env c fs n left stack s = .ok (res, s') →
    (res = true → s'.box.empty = false) ∧
    (res = false → stack ≠ [] ∨ s.box.empty = true → s'.box.empty = true)
  | n, left, [], s, res, s', h => by
    simp only [icpLoop, Run.ok.injEq, Prod.mk.injEq] at h
    obtain ⟨rfl, rfl⟩ := h
    simp
  | 0, _, _ :: _, s, res, s', h => by simp [icpLoop] at h
  | n + 1, left, (b, d) :: stack, s, res, s', h => by
    simp only [icpLoop] at h
    obtain ⟨s1, h1, h2⟩ := bindR_ok h
    split at h2
    · rename_i hemp
      obtain ⟨k1, k2⟩ := icpLoop_empty h2
      exact ⟨k1, fun hr _ => k2 hr (Or.inr hemp)⟩
    · rename_i hemp
      obtain ⟨⟨s2, o⟩, h3, h4⟩ := bindR_ok h2
      obtain ⟨e1, e2⟩ := evalBox_box h3
      cases o with
      | none =>
        simp only at h4
        obtain ⟨k1, k2⟩ := icpLoop_empty h4
        exact ⟨k1, fun hr _ => k2 hr (Or.inr (e1 rfl))⟩
      | some cand =>
        simp only at h4
        have hne : s2.box.empty = false := by rw [e2 (by simp)]; simpa using hemp
        split at h4
        · simp only [Run.ok.injEq, Prod.mk.injEq] at h4
          obtain ⟨rfl, rfl⟩ := h4
          exact ⟨fun _ => hne, by simp⟩
        · obtain ⟨br, h5, h6⟩ := bindR_ok h4
          split at h6
          · simp only [Run.ok.injEq, Prod.mk.injEq] at h6
            obtain ⟨rfl, rfl⟩ := h6
            exact ⟨fun _ => hne, by simp⟩
          · rename_i i b1 b2
            obtain ⟨k1, k2⟩ := icpLoop_empty h6
            exact ⟨k1, fun hr _ => k2 hr (Or.inl (by split <;> simp))⟩

/-- How a box was accepted. -/
def AcceptedAt (env : Env) (fs : List Fml) (br : Box → List Nat →
    Outcome (Option (Nat × Box × Box))) (b : Box) : Prop :=
  ∃ (s s' : CStatus) (cand : List Nat), s.box = b ∧ s'.box = b ∧ b.bot = false ∧
    evalBox env fs [] s = .ok (s', some cand) ∧
    (bits b cand = [] ∨ br b (bits b cand) = .ok none)

theorem icpLoop_sat {env c fs vs} (hp : Closed (SubR vs) (prune env.ib env.fuel c))
    (hb : BranchOk env.brancher) : ∀ {n left stack s s'},
    icpLoop env c fs n left stack s = .ok (true, s') → (∀ p ∈ stack, Shape vs p.1) →
    Shape vs s'.box ∧ AcceptedAt env fs env.brancher s'.box ∧ ∃ p ∈ stack, SubBox s'.box p.1
  | n, left, [], s, s', h, _ => by simp [icpLoop] at h
  | 0, _, _ :: _, s, s', h, _ => by simp [icpLoop] at h
  | n + 1, left, (b, d) :: stack, s, s', h, hsh => by
    simp only [icpLoop] at h
    obtain ⟨s1, h1, h2⟩ := bindR_ok h
    have hshb : Shape vs b := hsh (b, d) (by simp)
    obtain ⟨q1, q2⟩ := hp _ _ h1 hshb
    split at h2
    · obtain ⟨r1, r2, p, hpm, r3⟩ := icpLoop_sat hp hb h2 (fun p hpm => hsh p (by simp [hpm]))
      exact ⟨r1, r2, p, by simp [hpm], r3⟩
    · rename_i hemp
      obtain ⟨⟨s2, o⟩, h3, h4⟩ := bindR_ok h2
      obtain ⟨e1, e2⟩ := evalBox_box h3
      cases o with
      | none =>
        simp only at h4
        obtain ⟨r1, r2, p, hpm, r3⟩ := icpLoop_sat hp hb h4 (fun p hpm => hsh p (by simp [hpm]))
        exact ⟨r1, r2, p, by simp [hpm], r3⟩
      | some cand =>
        simp only at h4
        have e2 := e2 (by simp)
        have hne : s2.box.bot = false := by rw [e2]; simpa [Box.empty] using hemp
        split at h4
        · rename_i hbits
          simp only [Run.ok.injEq, Prod.mk.injEq, true_and] at h4
          subst h4
          exact ⟨e2 ▸ q1, ⟨s1, s2, cand, e2.symm, rfl, hne, h3, Or.inl hbits⟩, (b, d), by simp,
            e2 ▸ q2⟩
        · obtain ⟨br, h5, h6⟩ := bindR_ok h4
          have h5' := lift_ok h5
          split at h6
          · simp only [Run.ok.injEq, Prod.mk.injEq, true_and] at h6
            subst h6
            exact ⟨e2 ▸ q1, ⟨s1, s2, cand, e2.symm, rfl, hne, h3, Or.inr h5'⟩, (b, d), by simp,
              e2 ▸ q2⟩
          · rename_i i b1 b2
            have hsp := hb _ _ _ _ _ (e2 ▸ q1.2) h5'
            obtain ⟨sh1, sh2⟩ := hsp.shape (e2 ▸ q1)
            obtain ⟨sb1, sb2⟩ := hsp.subBox
            have hsub : SubBox s2.box b := e2 ▸ q2
            have hall : ∀ p ∈ (if left then (b2, some i) :: (b1, some i) :: stack
                else (b1, some i) :: (b2, some i) :: stack), Shape vs p.1 ∧
                ∃ p' ∈ (b, d) :: stack, SubBox p.1 p'.1 := by
              intro p hpm
              have : p = (b1, some i) ∨ p = (b2, some i) ∨ p ∈ stack := by
                split at hpm <;> simp at hpm <;> tauto
              rcases this with rfl | rfl | hpm
              · exact ⟨sh1, (b, d), by simp, subBox_trans sb1 hsub⟩
              · exact ⟨sh2, (b, d), by simp, subBox_trans sb2 hsub⟩
              · exact ⟨hsh p (by simp [hpm]), p, by simp [hpm], subBox_refl _⟩
            obtain ⟨r1, r2, p, hpm, r3⟩ := icpLoop_sat hp hb h6 (fun p hpm => (hall p hpm).1)
            obtain ⟨p', hp', hs'⟩ := (hall p hpm).2
            exact ⟨r1, r2, p', hp', subBox_trans r3 hs'⟩

/-! ### Verdicts of the evaluation -/

theorem evalLit_unsat {D I env n b f iv ρ} (hops : IOpsOk D I env.ops) (hna : EvalAllNoUnsat env)
    (h : evalLit env n b f = .ok (.unsat, iv)) (hρ : InBox ρ b) (hd : DefF D I ρ f)
    (hrc : RcOkF f) (hv : ∀ v ∈ f.fv, v ∈ b.vars) : ¬ holds I ρ f := by
  unfold evalLit at h
  split at h
  · exact absurd rfl (hna _ _ _ _ h)
  · obtain ⟨op, a, c, h1, h2, h3⟩ := evalRel_encl hops hρ (lift_ok h) hd hrc hv
    rw [asRel_holds h1, relSem_sub]
    exact verdict_unsat h2 h3.symm

/-- Tracking a solution in the whole box. -/
def LivePoint (vs : List Variable) (ρ : Valuation) (b : Box) : Prop := Shape vs b ∧ InBox ρ b

theorem tracks_point (vs ρ) : Tracks (fun _ => True) (LivePoint vs ρ) where
  anti := fun _ _ _ _ => trivial
  alive := fun _ h => h.2.1

theorem pruneTracks_point {D I ib n vs ρ c} (hib : IbexSound D I ib) (hfa : ForallSound D I ib)
    (hty : TypedOn ρ vs) (hb : BuiltFor vs c) (hrc : ∀ f ∈ formulasC c, RcOkF f)
    (hd : ∀ f ∈ formulasC c, DefF D I ρ f) (hsat : SatC I ρ c) :
    Closed (TrackR (fun _ => True) (LivePoint vs ρ)) (prune ib n c) := fun s s' h =>
  ⟨prune_mono c s s' h, fun _ hl => by
    obtain ⟨h1, h2⟩ := prune_keep hib hfa hty c hb hrc hd hsat s s' h hl.1
    exact ⟨h1, h2 hl.2⟩⟩

theorem branchTracks_point {vs ρ br} (hty : TypedOn ρ vs) (hb : BranchOk br) :
    BranchTracks br (LivePoint vs ρ) := by
  intro b cand i b1 b2 h hl
  have sp := hb b cand i b1 b2 hl.1.2 h
  obtain ⟨s1, s2⟩ := sp.shape hl.1
  exact (sp.cover_point (hl.1.1 ▸ hty) hl.2).imp (fun h => ⟨s1, h⟩) (fun h => ⟨s2, h⟩)

theorem evalTracks_point {D I env fs vs ρ} (hops : IOpsOk D I env.ops) (hna : EvalAllNoUnsat env)
    (hl : LitsOk fs vs) (hsol : Solution D I fs vs ρ) :
    EvalTracks env fs (fun _ => True) (LivePoint vs ρ) := by
  intro s s' o h
  obtain ⟨m, h1, h2⟩ := evalBox_frame h
  refine ⟨m, fun ho => ?_, h2⟩
  obtain ⟨hb, f, hf, n, iv, hu, _⟩ := h1 ho
  refine ⟨hb, fun _ hlive => ?_⟩
  exact evalLit_unsat hops hna hu hlive.2 (hsol.defined f hf) (hl.rc f hf)
    (fun v hv => by rw [hlive.1.1]; exact hl.vars f hf v hv) (hsol.holds f hf)

end Verif.Proof
