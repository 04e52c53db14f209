import Verif.Proof.OptimumPoses
import Verif.Props.Api

/-! # Minimize amounts to calls -/

namespace Verif.Proof
open Verif Verif.Model Verif.Spec Verif.Props

/-- The context that `Minimize` leaves can be had by calls. -/
theorem minimize_poses {D I} {cfg : CCfg} (he : EnvOk D I cfg.env)
    (hd : DblOk cfg.th.dbl) (hp : PicosatOk cfg.ps) {k : Books} {c c1 : Ctx} {objs : List Expr}
    (hk : PosesExact cfg k c) (hobj : ∀ f ∈ objs, IteFreeE f ∧ WfE k.top.Declared f)
    (hm : minimize cfg c objs = .ok c1) : ∃ k1, Poses cfg k1 c1 := by
  obtain ⟨hP, hF, hB⟩ := flat_poses hd hp he hk
  obtain ⟨H, hK⟩ := kinv_poses hd hp he hP
  obtain ⟨P, Ps, hk1, ht, hl, -⟩ := hK.cons
  rw [← ht] at hl
  unfold minimize at hm
  obtain ⟨⟨psi, zs, n'⟩, hpsi, hm⟩ := bindR_ok hm
  have hm := lift_ok hm
  simp only at hm
  obtain ⟨xs, s, hx⟩ := psi_shape hpsi
  have hV : ∀ v, k.top.Declared v → v.id < c.sat.abs.next := fun v hv =>
    (hK.made v (hl.dom v hv).2).1
  have hwf' : ∀ g ∈ c.stack.vec,
      ForAtoms (fun _ a b => (WfE k.top.Declared a ∧ WfE k.top.Declared b) ∧ IteFreeE a ∧
        IteFreeE b) (fun v => v.type = .boolean ∧ k.top.Declared v) NoQ g := by
    intro g hg
    obtain ⟨f, hf, -, h2⟩ := hF.stk g hg
    obtain ⟨f1, f2, f3⟩ := hF.form f hf
    exact h2 _ _ (wf_flat f f1 f2 f3)
  have hz : ∀ v, k.top.Declared v → v ∉ zs := fun v hv hv' =>
    absurd (psi_fresh hpsi v hv') (not_le.mpr (hV v hv))
  obtain ⟨w1, w2⟩ := psi_wf hx hV hwf' hobj
  have hnb : ¬ k.built := fun hb => hB.quant (hK.bq hb)
  obtain ⟨k1, a1, a2, a3, a4, a5, a6, a7⟩ := poses_news (xs.length + objs.length) hP
  have atop : k1.top = k.top := by unfold Books.top; rw [a2]
  have hzn : zs.Nodup := by
    rw [hx.znew]
    refine List.Nodup.map (fun i j hij => ?_) List.nodup_range
    simp only [Variable.mk.injEq] at hij
    omega
  obtain ⟨H1, hK1⟩ := kinv_poses (D := D) (I := I) hd hp he a1
  obtain ⟨k2, b1, b2, b3, b4, b5⟩ := poses_declares zs a1 hK1.wf hzn (fun z hz' => by
    refine ⟨?_, ?_, ?_⟩
    · rw [hx.znew] at hz'
      obtain ⟨i, hi, rfl⟩ := List.mem_map.mp hz'
      rw [Nat.add_assoc]
      exact a7 _ (by have := List.mem_range.mp hi; omega)
    · rw [a3]; intro hu
      exact absurd (psi_fresh hpsi z hz') (not_le.mpr (hK.made z (hB.used z hu)).1)
    · rw [atop]; exact fun hd' => hz z hd' hz') (by rw [a5]; exact hnb)
  rw [atop] at b3 b5
  have hnn : n' = c.sat.abs.next + (xs.length + objs.length) := by rw [hx.nnew, Nat.add_assoc]
  have hdecl : ∀ v, k.top.Declared v ∨ v ∈ zs → k2.top.Declared v := by
    rintro v (⟨iv, hv⟩ | hv)
    · exact ⟨iv, (b5 _).mpr (.inl hv)⟩
    · exact ⟨newItv v.type, (b5 _).mpr (.inr ⟨hv, rfl⟩)⟩
  have hu : k2.Uses n' (.assert psi) := ⟨wfF_mono hdecl psi w1, w2, fun hb => by
    rw [b4, a5] at hb; exact absurd hb hnb⟩
  subst hnn
  refine ⟨_, Poses.step (cfg := cfg) (cmd := .assert psi) (a := []) (c' := c1) b1 hu ?_⟩
  have hm' : assertF cfg (Ctx.setBox { c with sat := { c.sat with abs := { c.sat.abs with
      next := c.sat.abs.next + (xs.length + objs.length) } } } (zs.foldl addToBox c.box)) psi =
      .ok c1 := hm
  show (Run.lift (assertF cfg (Ctx.setBox _ (zs.foldl addToBox c.box)) psi)).bind _ = _
  rw [hm']; rfl

end Verif.Proof
