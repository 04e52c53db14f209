import Verif.Proof.Unsat
import Verif.Props.Session

/-!
# C27, C29: an unsat answer
-/

namespace Verif.Props
open Verif Verif.Model Verif.Spec Verif.Proof

/-- C27 and C29, as far as they hold.  After any history of calls in which intervals are only made
smaller once something has been asserted, and variables of closed scopes are not declared again,
an unsat answer means that the
problem posed by the calls of the open scopes has no solution at which the terms have values and
which keeps off the gaps next to the literals of strict bounds.  Earlier checks, with all they
have learned and cached, are part of the history.  Assumed of the environment: sound interval
contractors (`EnvOk`), rounding to neighbours (`DblOk`), and a SAT solver whose unsat answers are
right (`PicosatOk`).  Quantified formulas may be asserted (`C27_quantified_partial`).  Missing:
Boolean variables, conditionals and further quantifiers under a quantifier; after a check with a
quantified formula, new variables, conditionals and closing scopes; points where a term has no value
and the gaps (`C07_*`, `C20_*`); histories that make intervals larger after an assertion, for which
the claim is wrong (`C29_stale_unsat`), and that declare variables of closed scopes again, for which
it is wrong as well (`C30_stale_contractor`). -/
theorem C27_unsat_partial (D : Dom) (I : Interp) (cfg : CCfg) (he : EnvOk D I cfg.env)
    (hd : DblOk cfg.th.dbl) (hp : PicosatOk cfg.ps) (k : Books) (c c' : Ctx) (hk : Poses cfg k c)
    (h : checkSat cfg c = .ok (none, c')) :
    ¬ ∃ ρ, SolvedBy I k.top ρ ∧ RegularAt D I cfg.th.dbl k.top ρ := by
  obtain ⟨H, hK⟩ := kinv_poses hd hp he hk
  rintro ⟨ρ, h1, h2⟩
  exact (kinv_check hd hp he hK h).2 rfl ρ h1 h2

theorem poses_after {cfg : CCfg} {k : Books} {c : Ctx} (cmd : Cmd) (hr : Poses cfg k c)
    (hu : k.Uses c.sat.abs.next cmd) (h : fine cfg c cmd = true) :
    Poses cfg (k.step c.sat.abs.next cmd) (after cfg c cmd) := by
  unfold fine at h
  unfold after
  cases hs : stepCmd cfg c cmd with
  | ok r => exact .step hr hu hs
  | _ => simp [hs] at h

/-- The answer of a check. -/
def answerOf (cfg : CCfg) (c : Ctx) : Option Bool :=
  match checkSat cfg c with
  | .ok (m, _) => some m.isSome
  | _ => none

theorem answerOf_unsat {cfg c} (h : answerOf cfg c = some false) :
    ∃ c', checkSat cfg c = .ok (none, c') := by
  unfold answerOf at h
  split at h
  · rename_i m c' hs
    cases m with
    | none => exact ⟨c', hs⟩
    | some m => simp at h
  · cases h

/-- The hypotheses are met by a history with two scopes, in which a check inside the inner scope
answers delta-sat before the interval is made smaller and the check considered answers unsat. -/
example (D : Dom) (I : Interp) : EnvOk D I demoCfg.env ∧ DblOk demoCfg.th.dbl ∧
    PicosatOk demoCfg.ps ∧ ∃ k c c', Poses demoCfg k c ∧ k.levels.length = 2 ∧
      k.top.asserted = [demoSum] ∧ k.top.dom = [(varX, ⟨.fin 0, .fin 1⟩)] ∧
      checkSat demoCfg c = .ok (none, c') := by
  refine ⟨demoCfg_ok D I, quarterDbl_ok, demoSat_ok, ?_⟩
  have h0 : Poses demoCfg { made := [varX] } (Ctx.init 10) := .init _ _ (by decide)
  have h1 := poses_after (.declare varX true) h0 ⟨by simp, .inr ⟨by simp, id⟩⟩ (by decide +kernel)
  have h2 := poses_after (.setInterval varX (.fin 0) (.fin 10)) h1
    ⟨⟨newItv varX.type, by decide +kernel⟩, .inl rfl⟩ (by decide +kernel)
  have h3 := poses_after .push h2 trivial (by decide +kernel)
  have h4 := poses_after (.assert demoSum) h3
    ⟨⟨⟨⟨by decide, ⟨.fin 0, .fin 10⟩, by decide +kernel⟩, by decide,
      ⟨.fin 0, .fin 10⟩, by decide +kernel⟩, trivial⟩, by
        refine ⟨⟨?_, ?_⟩, trivial⟩ <;> (show varX.id < _; decide +kernel), fun h => absurd h id⟩
    (by decide +kernel)
  have h5 := poses_after .check h4 trivial (by decide +kernel)
  have h6 := poses_after (.setInterval varX (.fin 0) (.fin 1)) h5
    ⟨⟨⟨.fin 0, .fin 10⟩, by decide +kernel⟩, .inr fun iv hiv x hx => by
      have : iv = ⟨.fin 0, .fin 10⟩ := by
        simpa [Books.top, Books.step, Books.setTop, varX] using hiv
      rw [this]; simp [InItv, below, above] at hx ⊢; constructor <;> linarith⟩
    (by decide +kernel)
  obtain ⟨c', hc'⟩ := answerOf_unsat (cfg := demoCfg) (c := after demoCfg (after demoCfg
    (after demoCfg (after demoCfg (after demoCfg (after demoCfg (Ctx.init 10)
    (.declare varX true)) (.setInterval varX (.fin 0) (.fin 10))) .push) (.assert demoSum)) .check)
    (.setInterval varX (.fin 0) (.fin 1))) (by decide +kernel)
  exact ⟨_, _, c', h6, rfl, rfl, by decide +kernel, hc'⟩

end Verif.Props
