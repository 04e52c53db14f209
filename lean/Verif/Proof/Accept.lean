import Verif.Proof.Icp

/-!
# What an accepted box satisfies
-/

namespace Verif.Proof
open Verif Verif.Model Verif.Spec

theorem evalBox_some {env} : ∀ {fs cand s s' cand'}, evalBox env fs cand s = .ok (s', some cand') →
    cand ⊆ cand' ∧ ∀ f ∈ fs, ∃ n v iv, evalLit env n s.box f = .ok (v, iv) ∧ v ≠ .unsat ∧
      (v = .unknown → candidates env s.box f iv ⊆ cand')
  | [], cand, s, s', cand', h => by
    simp only [evalBox, Run.ok.injEq, Prod.mk.injEq, Option.some.injEq] at h
    obtain ⟨rfl, rfl⟩ := h
    simp
  | f :: fs, cand, s, s', cand', h => by
    simp only [evalBox] at h
    obtain ⟨⟨vd, iv⟩, h1, h2⟩ := bindR_ok h
    have hb : (if f.isAll then { s with tick := s.tick + 1 } else s).box = s.box := by
      split <;> rfl
    cases vd with
    | unsat => simp at h2
    | valid =>
      simp only at h2
      obtain ⟨g1, g2⟩ := evalBox_some h2
      rw [hb] at g2
      refine ⟨g1, fun g hg => ?_⟩
      rcases List.mem_cons.mp hg with rfl | hg
      · exact ⟨s.tick, .valid, iv, h1, by simp, by simp⟩
      · exact g2 g hg
    | unknown =>
      simp only at h2
      obtain ⟨g1, g2⟩ := evalBox_some h2
      rw [hb] at g2
      refine ⟨fun x hx => g1 (by simp [hx]), fun g hg => ?_⟩
      rcases List.mem_cons.mp hg with rfl | hg
      · exact ⟨s.tick, .unknown, iv, h1, by simp, fun _ x hx => g1 (by simp [hx])⟩
      · exact g2 g hg

theorem bits_nil {b : Box} {cand : List Nat} (h : bits b cand = []) {i} (hi : i < b.size) :
    i ∉ cand := by
  intro hc
  have : i ∈ bits b cand := by simp [bits, hi, hc]
  rw [h] at this; simp at this

theorem candidates_cases {env b f iv cand} (h : candidates env b f iv ⊆ cand)
    (hb : bits b cand = []) (hv : ∀ v ∈ f.fv, v ∈ b.vars) :
    env.fp.diam iv ≤ .fin env.delta ∨ isSimpleRel f = true ∨ isNeq f true = true ∨ f.fv = [] := by
  by_contra hno
  simp only [not_or, not_le, Bool.not_eq_true] at hno
  obtain ⟨h1, h2, h3, h4⟩ := hno
  obtain ⟨v, hvm⟩ := List.exists_mem_of_ne_nil _ h4
  have hc : b.index v ∈ candidates env b f iv := by
    simp only [candidates, h1, h2, h3, if_true, evalVars]
    simp only [Bool.or_self, Bool.false_eq_true, if_false]
    exact List.mem_map_of_mem hvm
  refine bits_nil hb ?_ (h hc)
  have := hv v hvm
  simp only [Box.index, this, if_true, Box.size]
  exact List.idxOf_lt_length_iff.mpr this

theorem weak_of_sem {δ : ℝ} (hδ : 0 ≤ δ) {op x y} (h : relSem op x y) : weakRel δ op x y := by
  cases op <;> simp only [relSem, weakRel] at * <;> try trivial
  · rw [h]; simpa using hδ
  all_goals linarith

theorem isNeq_asRel : ∀ {f : Fml} {p op a c}, isNeq f p = true → asRel f = some (op, a, c) →
    (if p then op else op.neg) = .neq := by
  intro f
  induction f using Fml.rec (motive_1 := fun _ => True) (motive_3 := fun _ => True) with
  | rel o x y =>
    intro p op a c h1 h2
    simp only [asRel, Option.some.injEq, Prod.mk.injEq] at h2
    obtain ⟨rfl, -, -⟩ := h2
    cases p <;> simp [isNeq] at h1 <;> subst h1 <;> rfl
  | neg f ih =>
    intro p op a c h1 h2
    simp only [asRel, Option.map_eq_some_iff] at h2
    obtain ⟨⟨o, x, y⟩, h5, h6⟩ := h2
    simp only [Prod.mk.injEq] at h6
    obtain ⟨rfl, rfl, rfl⟩ := h6
    simp only [isNeq] at h1
    have := ih h1 h5
    cases p <;> simp at this ⊢
    · revert this; cases o <;> simp [RelOp.neg]
    · exact this
  | _ => first | trivial | (intro p op a c h1 h2; simp [asRel] at h2)

/-- Accepted because nothing is left to branch on. -/
theorem accepted_weak {D I env fs vs} (hops : IOpsOk D I env.ops) (hfp : DiamOk env.fp)
    (hδ : 0 ≤ env.delta) (hl : LitsOk fs vs) {s s' : CStatus} {cand}
    (hvs : s.box.vars = vs) (h : evalBox env fs [] s = .ok (s', some cand))
    (hbits : bits s.box cand = []) {f} (hf : f ∈ fs) (hall : f.isAll = false)
    (hsimple : isSimpleRel f = false) (hfv : f.fv ≠ []) {ρ} (hρ : InBox ρ s.box)
    (hd : DefF D I ρ f) : WeakHolds I env.delta ρ f := by
  obtain ⟨n, v, iv, h1, h2, h3⟩ := (evalBox_some h).2 f hf
  have hv : ∀ w ∈ f.fv, w ∈ s.box.vars := fun w hw => hvs ▸ hl.vars f hf w hw
  simp only [evalLit, hall, Bool.false_eq_true, if_false] at h1
  obtain ⟨op, a, c, e1, e2, e3⟩ := evalRel_encl hops hρ (lift_ok h1) hd (hl.rc f hf) hv
  simp only at e2 e3
  refine ⟨op, a, c, e1, ?_⟩
  rw [weakRel_sub]
  cases v with
  | unsat => exact absurd rfl h2
  | valid =>
    exact weak_of_sem (by exact_mod_cast hδ) (verdict_valid e2 e3.symm)
  | unknown =>
    rcases candidates_cases (h3 rfl) hbits hv with hc | hc | hc | hc
    · exact verdict_unknown hfp e2 e3.symm hc
    · rw [hsimple] at hc; cases hc
    · have := isNeq_asRel hc e1
      simp only [if_true] at this
      subst this; trivial
    · exact absurd hc hfv

end Verif.Proof
