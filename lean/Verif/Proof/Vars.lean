import Verif.Proof.Theory
import Verif.Proof.Session

/-!
# The search keeps the variables of the box

whatever contractors are in the cache.
-/

namespace Verif.Proof
open Verif Verif.Model Verif.Spec

/-- Pruning keeps the variables. -/
def ShapeR (vs : List Variable) (s s' : CStatus) : Prop := Shape vs s.box → Shape vs s'.box

theorem shapeR_pre (vs) : PreR (ShapeR vs) where
  refl := fun _ h => h
  trans := fun _ _ _ h1 h2 h => h2 (h1 h)
  reset := fun _ h => h

theorem integerLoop_shape {vs} : ∀ {is : List Nat}, Closed (ShapeR vs) (integerLoop is)
  | [], s, s', h => by
    simp only [integerLoop, Run.ok.injEq] at h; subst h; exact (shapeR_pre vs).refl _
  | i :: is, s, s', h => by
    intro hs
    simp only [integerLoop] at h
    split at h
    · exact integerLoop_shape _ _ h hs
    · split at h
      · split at h
        · exact integerLoop_shape _ _ h ⟨hs.1, set_wf hs.2⟩
        · split at h
          · simp only [Run.ok.injEq] at h; subst h; exact hs
          · cases h
      · exact integerLoop_shape _ _ h hs

theorem joinLoop_shape {vs} {s : CStatus} (hs : Shape vs s.box) : ∀ {ps : List Pruner},
    (∀ p ∈ ps, Closed (ShapeR vs) p) → ∀ (acc s' : CStatus), Shape vs acc.box →
      joinLoop s ps acc = .ok s' → Shape vs s'.box
  | [], _, acc, s', ha, h => by
    simp only [joinLoop, Run.ok.injEq] at h; subst h; exact ha
  | p :: ps, hp, acc, s', ha, h => by
    simp only [joinLoop] at h
    obtain ⟨si, h1, h2⟩ := bindR_ok h
    obtain ⟨acc', h3, h4⟩ := bindR_ok h2
    have c1 := hp p (by simp) s si h1 hs
    have hu := join_box (lift_ok h3)
    have hsh := (union_in (ρ := fun _ => 0) hu ha.2 c1.2).1
    rw [ha.1] at hsh
    exact joinLoop_shape hs (fun q hq => hp q (by simp [hq])) acc' s' hsh h4

mutual
theorem prune_shape {D I ib} (ok : IbexSound D I ib) (okf : ForallSound D I ib) {n vs} : ∀ c : Ctc,
    Closed (ShapeR vs) (prune ib n c)
  | .id, s, s', h => by
    simp only [prune, Run.ok.injEq] at h; subst h; exact (shapeR_pre vs).refl _
  | .integer idxs, s, s', h => by simp only [prune] at h; exact integerLoop_shape s s' h
  | .seq cs, s, s', h => by
    simp only [prune] at h; exact seqRun_closed (shapeR_pre vs) (prunes_shape ok okf cs) s s' h
  | .fixpoint cs, s, s', h => by
    simp only [prune] at h; exact fixLoop_closed (shapeR_pre vs) (prunes_shape ok okf cs) n s s' h
  | .worklist cs, s, s', h => by
    simp only [prune] at h; exact wlRun_closed (shapeR_pre vs) (prunes_shape ok okf cs) n s s' h
  | .join cs, s, s', h => by
    intro hs
    simp only [prune, joinRun] at h
    exact joinLoop_shape hs (prunes_shape ok okf cs) { s with box := s.box.setEmpty } s' hs h
  | .fwdbwd ws f c, s, s', h => by
    intro hs
    simp only [prune] at h
    have hb := fwdbwd_box h
    rw [hb]
    obtain ⟨s1, s2⟩ := ok.bwd_shape c ⟨ws, padTo ws.length s.box.vals, s.box.bot⟩
    simp only [padTo_length] at s2
    refine ⟨hs.1, ?_, hs.2.2⟩
    have := hs.2.1
    simp only [posBwd, List.length_take, List.length_append, List.length_drop, s2]; omega
  | .polytope ws fs cs, s, s', h => by
    intro hs
    simp only [prune] at h
    obtain ⟨hl, hb⟩ := polytope_box h
    obtain ⟨s1, s2⟩ := ok.poly_shape cs ⟨ws, s.box.vals, s.box.bot⟩
    rw [hb]
    exact ⟨hs.1, s2.trans hs.2.1, hs.2.2⟩
  | .forallC ws f, s, s', h => by
    intro hs
    simp only [prune] at h
    obtain ⟨out, h1⟩ := forall_box h
    obtain ⟨s1, s2⟩ := okf.shape _ _ _ _ _ _ h1
    exact ⟨by rw [s1, hs.1], by rw [s2, s1]; exact hs.2.1, by rw [s1]; exact hs.2.2⟩
theorem prunes_shape {D I ib} (ok : IbexSound D I ib) (okf : ForallSound D I ib) {n vs} :
    ∀ cs : List Ctc, ∀ p ∈ prunes ib n cs, Closed (ShapeR vs) p
  | [], p, hp => by simp [prunes] at hp
  | c :: cs, p, hp => by
    simp only [prunes, List.mem_cons] at hp
    rcases hp with rfl | hp
    · exact prune_shape ok okf c
    · exact prunes_shape ok okf cs p hp
end

theorem evalBox_shape {env vs fs cand s s' o} (h : evalBox env fs cand s = .ok (s', o))
    (hs : Shape vs s.box) : Shape vs s'.box := by
  cases ho : o with
  | none =>
    obtain ⟨f1, f2⟩ := evalBox_none_shape h ho
    exact ⟨f1.trans hs.1, by rw [f1, f2]; exact hs.2.1, by rw [f1]; exact hs.2.2⟩
  | some c => rw [(evalBox_box h).2 (by simp [ho])]; exact hs

theorem icpLoop_shape {env c fs vs} (hp : Closed (ShapeR vs) (prune env.ib env.fuel c))
    (hb : BranchOk env.brancher) : ∀ {n left stack s res s'},
    icpLoop env c fs n left stack s = .ok (res, s') → (∀ p ∈ stack, Shape vs p.1) →
    Shape vs s.box → Shape vs s'.box
  | n, left, [], s, res, s', h, _, hs => by
    simp only [icpLoop, Run.ok.injEq, Prod.mk.injEq] at h
    rw [← h.2]; exact hs
  | 0, _, _ :: _, s, res, s', h, _, _ => by simp [icpLoop] at h
  | n + 1, left, (b, d) :: stack, s, res, s', h, hsh, hs => by
    simp only [icpLoop] at h
    obtain ⟨s1, h1, h2⟩ := bindR_ok h
    have hshb : Shape vs b := hsh (b, d) (by simp)
    have q1 := hp _ _ h1 hshb
    have hst : ∀ p ∈ stack, Shape vs p.1 := fun p hpm => hsh p (by simp [hpm])
    split at h2
    · exact icpLoop_shape hp hb h2 hst q1
    · obtain ⟨⟨s2, o⟩, h3, h4⟩ := bindR_ok h2
      have e := evalBox_shape h3 q1
      cases o with
      | none => exact icpLoop_shape hp hb h4 hst e
      | some cand =>
        simp only at h4
        split at h4
        · simp only [Run.ok.injEq, Prod.mk.injEq] at h4
          rw [← h4.2]; exact e
        · obtain ⟨br, h5, h6⟩ := bindR_ok h4
          have h5' := lift_ok h5
          split at h6
          · simp only [Run.ok.injEq, Prod.mk.injEq] at h6
            rw [← h6.2]; exact e
          · rename_i i b1 b2
            have hsp := hb _ _ _ _ _ e.2 h5'
            obtain ⟨sh1, sh2⟩ := hsp.shape e
            refine icpLoop_shape hp hb h6 (fun p hpm => ?_) e
            have : p = (b1, some i) ∨ p = (b2, some i) ∨ p ∈ stack := by
              split at hpm <;> simp at hpm <;> tauto
            rcases this with rfl | rfl | hpm
            · exact sh1
            · exact sh2
            · exact hst p hpm

/-- All boxes of a worker have the variables. -/
structure WShape (vs : List Variable) (w : Worker) : Prop where
  st : Shape vs w.st.box
  inc : ∀ b1 b2, w.pc = .inc b1 b2 → Shape vs b1 ∧ Shape vs b2
  push : ∀ b1 b2, w.pc = .push b1 b2 → Shape vs b1 ∧ Shape vs b2

theorem workerStep_shape {env c fs vs i} {p : Par} {w w' : Worker} {st n f}
    (hp : Closed (ShapeR vs) (prune env.ib env.fuel c)) (hc : CutInside env.fp)
    (h : p.workerStep env c fs i w = .ok (w', st, n, f)) (hw : WShape vs w)
    (hst : ∀ b ∈ p.stack, Shape vs b) : WShape vs w' ∧ ∀ b ∈ st, Shape vs b := by
  unfold Par.workerStep at h
  obtain ⟨h1, h2, h3⟩ := hw
  cases hpc : w.pc with
  | top =>
    simp only [hpc, Run.ok.injEq, Prod.mk.injEq] at h
    obtain ⟨rfl, rfl, -⟩ := h
    refine ⟨?_, hst⟩
    split <;> exact ⟨h1, by simp, by simp⟩
  | chk =>
    simp only [hpc, Run.ok.injEq, Prod.mk.injEq] at h
    obtain ⟨rfl, rfl, -⟩ := h
    refine ⟨?_, hst⟩
    split
    · cases w.needPop <;> exact ⟨h1, by simp, by simp⟩
    · exact ⟨h1, by simp, by simp⟩
  | pop =>
    simp only [hpc] at h
    split at h
    · simp only [Run.ok.injEq, Prod.mk.injEq] at h
      obtain ⟨rfl, rfl, -⟩ := h
      exact ⟨⟨h1, by simp, by simp⟩, by simp⟩
    · rename_i b rest hs
      simp only [Run.ok.injEq, Prod.mk.injEq] at h
      obtain ⟨rfl, rfl, -⟩ := h
      rw [hs] at hst
      exact ⟨⟨hst b (by simp), by simp, by simp⟩, fun b hb => hst b (by simp [hb])⟩
  | prune =>
    simp only [hpc] at h
    obtain ⟨s1, g1, g2⟩ := bindR_ok h
    simp only [Run.ok.injEq, Prod.mk.injEq] at g2
    obtain ⟨rfl, rfl, -⟩ := g2
    have := hp _ _ g1 h1
    refine ⟨⟨this, ?_, ?_⟩, hst⟩ <;> (intro b1 b2 e; simp only at e; split at e <;> cases e)
  | eval =>
    simp only [hpc] at h
    obtain ⟨⟨s1, o⟩, g1, g2⟩ := bindR_ok h
    have e := evalBox_shape g1 h1
    cases o with
    | none =>
      simp only [Run.ok.injEq, Prod.mk.injEq] at g2
      obtain ⟨rfl, rfl, -⟩ := g2
      exact ⟨⟨e, by simp, by simp⟩, hst⟩
    | some cand =>
      simp only [Run.ok.injEq, Prod.mk.injEq] at g2
      obtain ⟨rfl, rfl, -⟩ := g2
      refine ⟨⟨e, ?_, ?_⟩, hst⟩ <;> (intro b1 b2 e; simp only at e; split at e <;> cases e)
  | dec =>
    simp only [hpc, Run.ok.injEq, Prod.mk.injEq] at h
    obtain ⟨rfl, rfl, -⟩ := h
    exact ⟨⟨h1, by simp, by simp⟩, hst⟩
  | branch cand =>
    simp only [hpc] at h
    obtain ⟨o, g1, g2⟩ := bindR_ok h
    split at g2
    · simp only [Run.ok.injEq, Prod.mk.injEq] at g2
      obtain ⟨rfl, rfl, -⟩ := g2
      exact ⟨⟨h1, by simp, by simp⟩, hst⟩
    · rename_i k b1 b2
      simp only [Run.ok.injEq, Prod.mk.injEq] at g2
      obtain ⟨rfl, rfl, -⟩ := g2
      obtain ⟨sh1, sh2⟩ := (bisect_splits hc h1.2 (branch_some (lift_ok g1))).shape h1
      refine ⟨⟨h1, ?_, ?_⟩, hst⟩
      · intro a1 a2 e; simp only at e; split at e <;> cases e
        · exact ⟨sh1, sh2⟩
        · exact ⟨sh2, sh1⟩
      · intro a1 a2 e; simp only at e; split at e <;> cases e
  | inc b1 b2 =>
    simp only [hpc, Run.ok.injEq, Prod.mk.injEq] at h
    obtain ⟨rfl, rfl, -⟩ := h
    refine ⟨⟨h1, by simp, ?_⟩, hst⟩
    intro a1 a2 e; simp only [Pc.push.injEq] at e
    obtain ⟨rfl, rfl⟩ := e; exact h2 _ _ hpc
  | push b1 b2 =>
    simp only [hpc, Run.ok.injEq, Prod.mk.injEq] at h
    obtain ⟨rfl, rfl, -⟩ := h
    obtain ⟨a1, a2⟩ := h3 _ _ hpc
    refine ⟨⟨a2, by simp, by simp⟩, ?_⟩
    intro b hb
    rcases List.mem_cons.mp hb with rfl | hb
    · exact a1
    · exact hst b hb
  | find =>
    simp only [hpc, Run.ok.injEq, Prod.mk.injEq] at h
    obtain ⟨rfl, rfl, -⟩ := h
    exact ⟨⟨h1, by simp, by simp⟩, hst⟩
  | done =>
    simp only [hpc, Run.ok.injEq, Prod.mk.injEq] at h
    obtain ⟨rfl, rfl, -⟩ := h
    exact ⟨⟨h1, h2, h3⟩, hst⟩

/-- All boxes of the parallel search have the variables. -/
def PShape (vs : List Variable) (p : Par) : Prop :=
  (∀ b ∈ p.stack, Shape vs b) ∧ ∀ w ∈ p.workers, WShape vs w

theorem pshape_step {env c fs vs} (hp : Closed (ShapeR vs) (prune env.ib env.fuel c))
    (hc : CutInside env.fp) {p i p'} (h : Par.step env c fs p i = .ok p') (hi : PShape vs p) :
    PShape vs p' := by
  rcases step_cases h with rfl | ⟨w, w', st, n, f, hw, hs, rfl⟩
  · exact hi
  obtain ⟨a1, a2⟩ := workerStep_shape hp hc hs (hi.2 w (List.mem_of_getElem? hw)) hi.1
  refine ⟨a2, fun x hx => ?_⟩
  rcases List.mem_or_eq_of_mem_set hx with hx | rfl
  · exact hi.2 x hx
  · exact a1

theorem joinAll_shape {vs} : ∀ {ws s s'}, Par.joinAll ws s = .ok s' → (∀ w ∈ ws, WShape vs w) →
    Shape vs s.box → Shape vs s'.box
  | [], s, s', h, _, hs => by
    simp only [Par.joinAll, Outcome.ok.injEq] at h; subst h; exact hs
  | w :: ws, s, s', h, hw, hs => by
    simp only [Par.joinAll] at h
    obtain ⟨t, h1, h2⟩ := bindO_ok h
    have hu := (union_in (ρ := fun _ => 0) (join_box h1) hs.2 (hw w (by simp)).st.2).1
    rw [hs.1] at hu
    exact joinAll_shape h2 (fun x hx => hw x (by simp [hx])) hu

theorem icp_shape {env cfg c fs vs} (hp : Closed (ShapeR vs) (prune env.ib env.fuel c))
    (hb : BranchOk env.brancher) (hc : CutInside env.fp) {s res s'} (hs : Shape vs s.box)
    (h : icp env cfg c fs s = .ok (res, s')) : Shape vs s'.box := by
  unfold icp at h
  split at h
  · unfold icpPar at h
    obtain ⟨s0, h1, h2⟩ := bindR_ok h
    have q1 := hp _ _ h1 hs
    split at h2
    · simp only [Run.ok.injEq, Prod.mk.injEq] at h2
      rw [← h2.2]; exact q1
    · obtain ⟨p, h3, h4⟩ := bindR_ok h2
      have inv : PShape vs p := steps_inv (P := PShape vs)
        (fun q i q' hq hi => pshape_step hp hc hq hi) h3 (by
          refine ⟨by simpa [Par.start] using q1, fun w hw => ?_⟩
          simp only [Par.start, List.mem_replicate] at hw
          obtain ⟨-, rfl⟩ := hw
          exact ⟨q1, by simp, by simp⟩)
      split at h4
      · obtain ⟨s1, h5, h6⟩ := bindR_ok h4
        have j := joinAll_shape (lift_ok h5) inv.2 q1
        split at h6
        · split at h6
          · rename_i w hw
            simp only [Run.ok.injEq, Prod.mk.injEq] at h6
            rw [← h6.2]
            exact (inv.2 w (List.mem_of_getElem? hw)).st
          · cases h6
        · simp only [Run.ok.injEq, Prod.mk.injEq] at h6
          rw [← h6.2]; exact j
      · cases h4
  · exact icpLoop_shape hp hb h (by simpa using hs) hs

theorem shape_setV {vs} {b : Box} (h : Shape vs b) (v iv) : Shape vs (b.setV v iv) :=
  ⟨h.1, set_wf h.2⟩

theorem shape_setEmpty {vs} {b : Box} (h : Shape vs b) : Shape vs b.setEmpty := h

open Filter in
theorem filter_shape {d : Dbl} {vs f} {b b' : Box} {r} (h : Filter.filter d f b = .ok (r, b'))
    (hs : Shape vs b) : Shape vs b' := by
  have lo : ∀ v q, Shape vs (updLower b v q).2 := by
    intro v q; unfold updLower; simp only
    split_ifs <;> first | exact hs | exact shape_setV hs _ _
  have up : ∀ v q, Shape vs (updUpper b v q).2 := by
    intro v q; unfold updUpper; simp only
    split_ifs <;> first | exact hs | exact shape_setV hs _ _
  rcases filter_cases h with ⟨-, -, rfl⟩ | ⟨v, op, l, u, ex, -, ha⟩
  · exact hs
  · cases op with
    | eq =>
      rcases ha with ⟨-, ha⟩ | ha
      · unfold updEq at ha; simp only at ha
        split_ifs at ha <;> cases ha <;> first | exact hs | exact shape_setV hs _ _
      · unfold updEqItv at ha; simp only at ha
        split_ifs at ha <;> cases ha <;>
          first | exact hs | exact shape_setEmpty (shape_setV hs _ _) | exact shape_setV hs _ _
    | neq => rw [ha.2]; exact hs
    | geq =>
      have ha : updLower b v l = (r, b') := ha
      have := lo v l; rwa [ha] at this
    | leq =>
      have ha : updUpper b v u = (r, b') := ha
      have := up v u; rwa [ha] at this
    | gt =>
      have ha : updStrictLower d b v l = .ok (r, b') := ha
      unfold updStrictLower at ha
      split at ha
      · have := lo v (d.nextafter l d.maxv)
        simp only [Outcome.ok.injEq] at ha; rwa [ha] at this
      · have := lo v l
        simp only [Outcome.ok.injEq, Prod.mk.injEq] at ha; rwa [ha.2] at this
      · have := lo v l
        simp only [Outcome.ok.injEq, Prod.mk.injEq] at ha; rwa [ha.2] at this
      · cases ha
    | lt =>
      have ha : updStrictUpper d b v u = .ok (r, b') := ha
      unfold updStrictUpper at ha
      split at ha
      · have := up v (d.nextafter u d.minv)
        simp only [Outcome.ok.injEq] at ha; rwa [ha] at this
      · have := up v u
        simp only [Outcome.ok.injEq, Prod.mk.injEq] at ha; rwa [ha.2] at this
      · have := up v u
        simp only [Outcome.ok.injEq, Prod.mk.injEq] at ha; rwa [ha.2] at this
      · cases ha

theorem buildLoop_shape {d : Dbl} {vs} : ∀ {fs cache s r}, buildLoop d fs cache s = .ok r →
    Shape vs s.box → Shape vs r.2.2.box
  | [], cache, s, r, h, hs => by simp only [buildLoop, Outcome.ok.injEq] at h; subst h; exact hs
  | f :: fs, cache, s, r, h, hs => by
    simp only [buildLoop] at h
    obtain ⟨⟨q, b'⟩, h1, h2⟩ := bindO_ok h
    have hb := filter_shape h1 hs
    cases q with
    | notFiltered =>
      simp only at h2
      obtain ⟨c, h3, h4⟩ := bindO_ok h2
      obtain ⟨rest, h5, h6⟩ := bindO_ok h4
      simp only [Outcome.ok.injEq] at h6; subst h6
      have := buildLoop_shape (vs := vs) h5 (by
        split
        · exact hb
        · exact hs)
      exact this
    | withChange =>
      simp only at h2
      split at h2
      · simp only [Outcome.ok.injEq] at h2; subst h2; exact hb
      · exact buildLoop_shape h2 hb
    | withoutChange => exact buildLoop_shape h2 hb

theorem theoryCheck_shape {D I env} {cfg : TCfg} (he : EnvOk D I env) {cache tick b fs m cache' tick'}
    {vs} (hs : Shape vs b) (h : theoryCheck env cfg cache tick b fs = .ok (.sat m, cache', tick')) :
    Shape vs m := by
  unfold theoryCheck at h
  obtain ⟨⟨o, c1, s⟩, h1, h2⟩ := bindR_ok h
  have hsb : Shape vs s.box := by
    have h1 := lift_ok h1
    unfold buildContractor at h1
    split at h1
    · simp only [Outcome.ok.injEq, Prod.mk.injEq] at h1
      rw [← h1.2.2]; exact hs
    · obtain ⟨r, g1, g2⟩ := bindO_ok h1
      have hr := buildLoop_shape g1 (vs := vs) hs
      split at g2
      · simp only [Outcome.ok.injEq, Prod.mk.injEq] at g2
        have := g2.2; rw [this] at hr; exact hr
      · simp only at g2
        split at g2
        · obtain ⟨_, -, g3⟩ := bindO_ok g2
          obtain ⟨_, -, g4⟩ := bindO_ok g3
          simp only [Outcome.ok.injEq, Prod.mk.injEq] at g4
          have := g4.2; rw [this] at hr; exact hr
        · obtain ⟨_, -, g3⟩ := bindO_ok g2
          simp only [Outcome.ok.injEq, Prod.mk.injEq] at g3
          have := g3.2; rw [this] at hr; exact hr
  cases o with
  | some c =>
    simp only at h2
    obtain ⟨_, h3, h4⟩ := bindR_ok h2
    obtain ⟨⟨res, s'⟩, h5, h6⟩ := bindR_ok h4
    have := icp_shape (prune_shape he.ib he.fa c) he.br he.cut hsb h5
    simp only at h6
    split at h6
    · obtain ⟨e, h7, h8⟩ := bindR_ok h6
      simp at h8
    · simp only [Run.ok.injEq, Prod.mk.injEq, TAnswer.sat.injEq] at h6
      rw [← h6.1]; exact this
  | none =>
    simp only at h2
    split at h2
    · obtain ⟨e, h7, h8⟩ := bindR_ok h2
      simp at h8
    · cases h2

theorem writeBools_shape {vs} : ∀ {ps : List (Variable × Bool)} {b : Box}, Shape vs b →
    Shape vs (writeBools b ps)
  | [], _, h => h
  | p :: ps, b, h => by simp only [writeBools]; exact writeBools_shape (shape_setV h _ _)

theorem checkLoop_shape {D I cfg} (he : EnvOk D I cfg.env) {vs} :
    ∀ {n box s cache tick m r}, checkLoop cfg n box s cache tick = .ok (some m, r) →
    Shape vs box → Shape vs m
  | 0, _, _, _, _, _, _, h, _ => by simp [checkLoop] at h
  | n + 1, box, s, cache, tick, m, r, h, hs => by
    simp only [checkLoop] at h
    obtain ⟨q, h1, h2⟩ := bindR_ok h
    cases hq : q.1 with
    | none => simp [hq] at h2
    | some sm =>
      simp only [hq] at h2
      have hw := writeBools_shape (ps := sm.bool) hs
      split at h2
      · simp only [Run.ok.injEq, Prod.mk.injEq, Option.some.injEq] at h2
        rw [← h2.1]; exact hw
      · obtain ⟨fs, h3, h4⟩ := bindR_ok h2
        obtain ⟨⟨t, c', tk⟩, h5, h6⟩ := bindR_ok h4
        cases t with
        | sat b =>
          simp only [Run.ok.injEq, Prod.mk.injEq, Option.some.injEq] at h6
          rw [← h6.1]; exact theoryCheck_shape he hw h5
        | unsat e =>
          simp only at h6
          obtain ⟨s', h7, h8⟩ := bindR_ok h6
          exact checkLoop_shape he h8 hw

theorem checkCore_shape {D I cfg} (he : EnvOk D I cfg.env) {c m r}
    (h : checkCore cfg c = .ok (some m, r)) (hs : BoxWf c.box) : Shape c.box.vars m := by
  unfold checkCore at h
  split at h
  · simp at h
  · split at h
    · simp at h
    · split at h
      · simp only [Run.ok.injEq, Prod.mk.injEq, Option.some.injEq] at h
        rw [← h.1]; exact ⟨rfl, hs⟩
      · exact checkLoop_shape he h ⟨rfl, hs⟩

end Verif.Proof
