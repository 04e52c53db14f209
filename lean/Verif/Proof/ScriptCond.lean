import Verif.Proof.DeltaModel
import Verif.Proof.Script
import Verif.Spec.CondLog

/-! # Scripts with conditionals -/

namespace Verif.Proof.Smt2
open Verif Verif.Model Verif.Model.Smt2 Verif.Spec Verif.Spec.Smt2 Verif.Proof

theorem condLog_left {cfg S} {a b : List Cmd} (h : CondLog cfg S (a ++ b)) : CondLog cfg S a where
  asserts := fun l f r e => h.asserts l f (r ++ b) (by simp [e])
  bounds := fun l v x y r e => h.bounds l v x y (r ++ b) (by simp [e])
  first := fun l v m r e => h.first l v m (r ++ b) (by simp [e])

theorem script_cond (cfg : CCfg) {L : List Cmd} (hN : Nested (idsTaken cfg) L) : ∀ {as c},
    runCmds cfg (Ctx.init 0) L = .ok (as, c) → Covered L →
    ∃ k u, Kept cfg L c k u ∧ ∀ S, CondLog cfg S L → PosesCond cfg S k c := by
  induction hN with
  | nil =>
    intro as c h _
    simp only [runCmds, Run.ok.injEq, Prod.mk.injEq] at h
    rw [← h.2]
    exact ⟨_, _, kept_init cfg, fun S _ => .init 0 [] (by simp)⟩
  | @snoc L c _ hok ih =>
    intro as c2 hr hcov
    obtain ⟨as1, c1, a, hr1, hs, -⟩ := runCmds_snoc hr
    obtain ⟨k, u, hk, hp⟩ := ih hr1 (Covered.left hcov)
    have ht := hk.track
    have hb : ¬ k.built := by
      intro q
      obtain ⟨q1, f, q2, q3⟩ := ht.built q
      rcases hcov.quant with h | h
      · exact q3 (h f (by simp [q2]))
      · exact h (by simp [q1])
    have step : k.Uses c1.sat.abs.next c ∧
        Kept cfg (L ++ [c]) c2 (k.step c1.sat.abs.next c) (u.step c1.sat.abs.next c) := by
      have plain : c ≠ .push ∧ c ≠ .pop →
          CallOk (DeclIn (callsInForce L)) L (count (idsTaken cfg) [] 0 L) c → _ := fun h1 h2 =>
        hk.plain h1 hr1 hr hs (by rw [hk.cnt]; exact h2) (fun f e => hcov.wf f (by simp [e]))
          (fun v x y e => hcov.bounds v x y (by simp [e])) hb
      cases c with
      | push => exact ⟨trivial, hk.push hr1 hr hs⟩
      | pop => exact ⟨hb, hk.pop hr1 hr hok hb hs⟩
      | newVar t => exact plain (by simp) hok
      | declare v m => exact plain (by simp) hok
      | setInterval v x y => exact plain (by simp) hok
      | assert f => exact plain (by simp) hok
      | check => exact plain (by simp) hok
    have none : (∀ f, Cmd.assert f ∉ callsInForce L) → k.top.asserted = [] := fun h =>
      List.eq_nil_iff_forall_not_mem.mpr fun f hf => h f ((ht.asserted f).mp hf)
    refine ⟨_, _, step.2, fun S hS => ?_⟩
    refine .step (hp S (condLog_left hS)) step.1 ?_ hs
    cases c with
    | declare v m =>
      left
      rcases hS.first L v m [] rfl with h | ⟨w, m', h⟩
      · exact .inl (none h)
      · obtain ⟨iv, hiv⟩ := (ht.declared w).mpr ⟨m', h⟩
        exact .inr (List.ne_nil_of_mem hiv)
    | setInterval v x y =>
      obtain ⟨h1, h2⟩ := hS.bounds L v x y [] rfl
      exact .inl ⟨h1, none h2⟩
    | assert f =>
      rcases hS.asserts L f [] rfl with h | ⟨h1, h2, h3⟩
      · exact .inl h
      · exact .inr ⟨f, rfl, h1, h2, h3 _ _ hr1⟩
    | _ => exact .inl trivial

end Verif.Proof.Smt2
