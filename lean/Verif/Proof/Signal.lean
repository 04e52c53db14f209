import Verif.Spec.Signal

/-! # Helper lemmas on interrupts -/

namespace Verif.Proof
open Verif.Model Verif.Spec

theorem sigBody_set {H : Type} : ∀ (es : List SigEv) (s : SigState H), s.action = .own →
    s.flag = true → (sigBody es s).2 = decide (SigEv.check ∈ es) ∧ (sigBody es s).1.got = s.got
  | [], s, _, _ => by simp [sigBody]
  | .signal :: es, s, ha, _ => by
    have h := sigBody_set es s.deliver (by simp [SigState.deliver, ha])
      (by simp [SigState.deliver, ha])
    simp only [sigBody]
    refine ⟨by simp [h.1], by rw [h.2]; simp [SigState.deliver, ha]⟩
  | .check :: es, s, _, hf => by simp [sigBody, hf]

theorem interrupted_check {es : List SigEv} : Interrupted (.check :: es) ↔ Interrupted es := by
  constructor
  · rintro ⟨a, b, h, hc⟩
    cases a with
    | nil => cases h
    | cons e a => simp only [List.cons_append, List.cons.injEq] at h; exact ⟨a, b, h.2, hc⟩
  · rintro ⟨a, b, h, hc⟩
    exact ⟨.check :: a, b, by rw [h]; rfl, hc⟩

theorem interrupted_signal {es : List SigEv} :
    Interrupted (.signal :: es) ↔ SigEv.check ∈ es := by
  constructor
  · rintro ⟨a, b, h, hc⟩
    cases a with
    | nil => simp only [List.nil_append, List.cons.injEq, true_and] at h; exact h ▸ hc
    | cons e a =>
      simp only [List.cons_append, List.cons.injEq] at h
      rw [h.2]; simp [hc]
  · intro h; exact ⟨[], es, rfl, h⟩

theorem sigBody_clear {H : Type} : ∀ (es : List SigEv) (s : SigState H), s.action = .own →
    s.flag = false → ((sigBody es s).2 = true ↔ Interrupted es) ∧ (sigBody es s).1.got = s.got
  | [], s, _, _ => by
    refine ⟨by simp [sigBody, Interrupted], rfl⟩
  | .signal :: es, s, ha, _ => by
    have h := sigBody_set es s.deliver (by simp [SigState.deliver, ha])
      (by simp [SigState.deliver, ha])
    simp only [sigBody]
    refine ⟨?_, by rw [h.2]; simp [SigState.deliver, ha]⟩
    rw [h.1, interrupted_signal]; simp
  | .check :: es, s, ha, hf => by
    have h := sigBody_clear es s ha hf
    simp only [sigBody, hf, Bool.false_eq_true, if_false]
    exact ⟨h.1.trans interrupted_check.symm, h.2⟩

theorem sigCall_all {H : Type} (body : List SigEv) (late : Bool) (s : SigState H) (h : H)
    (ha : s.action = .other h) (hf : s.flag = false) :
    ((sigCall body late s).2 = true ↔ Interrupted body) ∧
      (sigCall body late s).1 = ⟨.other h, false, s.got ++ if late then [h] else []⟩ := by
  have hb := sigBody_clear body { s with action := .own } rfl hf
  refine ⟨hb.1, ?_⟩
  have hg := hb.2
  unfold sigCall
  generalize sigBody body { s with action := .own } = r at hg
  obtain ⟨⟨a, f, g⟩, t⟩ := r
  simp only at hg
  subst hg
  cases late <;> cases f <;> simp [SigState.deliver, ha]

end Verif.Proof
