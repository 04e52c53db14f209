import Verif.Proof.Signal

/-!
# C78: interrupts of calls from Python
-/

namespace Verif.Props
open Verif Verif.Model Verif.Spec

/-- After any Python program the handler for SIGINT is the one the program installed last, the flag
is clear, and that handler has got exactly the signals outside the solver. -/
theorem C78_handler {H : Type} : ∀ (as : List (SigAct H)) (h : H) (g : List H),
    (sigSession as ⟨.other h, false, g⟩).1 =
      ⟨.other (lastInstalled h as), false, g ++ sentOutside h as⟩
  | [], h, g => by simp [sigSession, lastInstalled, sentOutside]
  | .call body late :: as, h, g => by
    have hc := (Proof.sigCall_all body late (⟨.other h, false, g⟩ : SigState H) h rfl rfl).2
    simp only [sigSession, hc, C78_handler as, lastInstalled, sentOutside, List.append_assoc]
  | .signal :: as, h, g => by
    simp [sigSession, SigState.deliver, C78_handler as, lastInstalled, sentOutside]
  | .install k :: as, h, g => by
    simp [sigSession, C78_handler as, lastInstalled, sentOutside]

/-- A call throws if and only if the user interrupts it and the solver looks at the flag after that:
no call throws because of an interrupt of an earlier one. -/
theorem C78_throws {H : Type} : ∀ (as : List (SigAct H)) (h : H) (g : List H),
    List.Forall₂ (fun t body => t = true ↔ Interrupted body)
      (sigSession as ⟨.other h, false, g⟩).2 (callsOf as)
  | [], h, g => by simp [sigSession, callsOf]
  | .call body late :: as, h, g => by
    have hc := Proof.sigCall_all body late (⟨.other h, false, g⟩ : SigState H) h rfl rfl
    simp only [sigSession, callsOf]
    refine .cons hc.1 ?_
    rw [hc.2]
    exact C78_throws as h _
  | .signal :: as, h, g => by
    simp only [sigSession, callsOf, SigState.deliver]
    exact C78_throws as h _
  | .install k :: as, h, g => by
    simp only [sigSession, callsOf]
    exact C78_throws as k g

/-- Three calls: interrupted, not interrupted, interrupted too late; one signal between. -/
example : (sigSession [.call [.check, .signal, .check] false, .signal, .call [.check] false,
      .install 5, .call [.check, .signal] true] (⟨.other 3, false, []⟩ : SigState Nat)) =
    (⟨.other 5, false, [3, 5]⟩, [true, false, false]) := rfl

/-- If the solver looks at the flag after every signal, then every interrupted call throws. -/
theorem C78_no_loss_partial {H : Type} (body : List SigEv) (late : Bool) (s : SigState H) (h : H)
    (ha : s.action = .other h) (hf : s.flag = false)
    (hlast : ∀ a b, body = a ++ .signal :: b → SigEv.check ∈ b) (hs : SigEv.signal ∈ body) :
    (sigCall body late s).2 = true := by
  obtain ⟨a, b, hb⟩ := List.append_of_mem hs
  exact (Proof.sigCall_all body late s h ha hf).1.2 ⟨a, b, hb, hlast a b hb⟩

example : (sigCall [.check, .signal, .check] false (⟨.other 3, false, []⟩ : SigState Nat)).2 = true :=
  C78_no_loss_partial _ _ _ 3 rfl rfl
    (fun a b h => by
      match a, h with
      | [], h => cases h
      | [_], h => simp at h; simp [← h.2]
      | [_, _], h => simp at h
      | [_, _, _], h => simp at h
      | _ :: _ :: _ :: _ :: _, h => simp at h) (by simp)

/-- **An interrupt is lost.**  If the signals arrive after the last look at the flag, the call
leaves everything as it was: it does not throw, and the earlier handler (that of Python) does not
learn of them.  The destructor of the guard clears the flag without telling anybody. -/
theorem C78_lost {H : Type} (body : List SigEv) (s : SigState H) (h : H)
    (ha : s.action = .other h) (hf : s.flag = false)
    (hlate : ∀ a b, body = a ++ .signal :: b → SigEv.check ∉ b) :
    sigCall body false s = (s, false) := by
  have hc := Proof.sigCall_all body false s h ha hf
  have h2 : (sigCall body false s).2 = false := by
    cases ht : (sigCall body false s).2 with
    | false => rfl
    | true =>
      obtain ⟨a, b, hb, hm⟩ := hc.1.1 ht
      exact absurd hm (hlate a b hb)
  refine Prod.ext ?_ h2
  rw [hc.2]
  obtain ⟨act, f, g⟩ := s
  simp only at ha hf
  subst ha; subst hf
  simp

/-- Two signals while the last box is evaluated. -/
example : sigCall [.check, .check, .signal, .signal] false (⟨.other 3, false, []⟩ : SigState Nat) =
    (⟨.other 3, false, []⟩, false) := rfl

end Verif.Props
