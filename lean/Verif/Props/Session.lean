import Verif.Proof.Tighten
import Verif.Props.Theory
import Verif.Spec.Sat

/-!
# C30, C31, C32, and histories on which C28, C29, C30, C31, C33 fail
-/

namespace Verif.Props
open Verif Verif.Model Verif.Spec Verif.Proof

/-- The context of the concrete cases. -/
def demoCfg : CCfg :=
  { env := { demoEnv with delta := 1 }, th := demoTh, ps := demoSat, rounds := 10 }

theorem demoCfg_ok (D : Dom) (I : Interp) : EnvOk D I demoCfg.env :=
  let h := demoEnv_ok D I
  ⟨h.ops, h.ib, h.loc, h.fa, h.faLoc, h.br, h.cut, h.noUnsat⟩

def varX : Variable := ⟨1, .continuous⟩
def varY : Variable := ⟨2, .continuous⟩
def varN : Variable := ⟨3, .integer⟩
def varB : Variable := ⟨4, .boolean⟩

/-! ## C30: what a scope leaves behind -/

/-- C30, as far as it holds.  After any history of calls, any balanced sequence of calls between
a push and its pop leaves the boxes of all scopes (the declared variables and their intervals),
the asserted formulas, the clauses and the names of their variables as they were.  Missing: that
later answers are the same, which is wrong (`C30_stale_contractor`). -/
theorem C30_pop_restores_partial (cfg : CCfg) (next : Nat) (hist cmds : List Cmd)
    (as bs : List (Option Box)) (c c' : Ctx)
    (hh : runCmds cfg (Ctx.init next) hist = .ok (as, c)) (hb : Balanced cmds)
    (h : runCmds cfg c (.push :: (cmds ++ [.pop])) = .ok (bs, c')) :
    problemPart c' = problemPart c :=
  scope_restores (run_wf (ctxWf_init next) hh) hb h

/-- `2x ≤ 1`. -/
def demoHalf : Fml := .rel .leq (.mul (.const 2) (.var varX)) (.const 1)

/-- A problem over `x` and `y`. -/
def demoAsk : List Cmd :=
  [.declare varX true, .setInterval varX (.fin 0) (.fin (1 / 10)),
   .declare varY true, .setInterval varY (.fin 5) (.fin 6), .assert demoHalf, .check]

/-- The same problem with the variables declared in the other order. -/
def demoScope : List Cmd :=
  [.declare varY true, .setInterval varY (.fin 5) (.fin 6),
   .declare varX true, .setInterval varX (.fin 0) (.fin (1 / 10)), .assert demoHalf, .check]

/-- A nested scope inside a scope is covered. -/
example : Balanced (demoScope ++ .push :: (demoAsk ++ .pop :: demoScope)) := by
  have f : ∀ {l r : List Cmd}, (∀ c ∈ l, Flat c) → Balanced r → Balanced (l ++ r) := by
    intro l r hl hr
    induction l with
    | nil => exact hr
    | cons a l ih => exact .flat (hl a (by simp)) (ih fun c hc => hl c (by simp [hc]))
  have s : ∀ c ∈ demoScope, Flat c := by simp [demoScope, Flat]
  have a : ∀ c ∈ demoAsk, Flat c := by simp [demoAsk, Flat]
  exact f s (.scope (by simpa using f a .nil) (by simpa using f s .nil))

/-- … and the run of a scope that declares, asserts and checks does not throw. -/
example : (seen (runCmds demoCfg (Ctx.init 10)
    (.declare varN true :: .push :: (demoScope ++ [.pop])))).map Prod.snd =
    some ⟨[varN], [⟨.fin (-2147483647), .fin 2147483647⟩], false⟩ := by decide +kernel

/-- C30 is wrong for later answers: after a scope in which the variables were declared in the
other order, the contractor cached for `2x ≤ 1` is applied to the interval of `y`, and the answer
turns from delta-sat into unsat although `x = 0, y = 5` is a solution. -/
theorem C30_stale_contractor :
    (seen (runCmds demoCfg (Ctx.init 10) demoAsk)).map (fun r => r.1.map Option.isSome) =
      some [true] ∧
    (seen (runCmds demoCfg (Ctx.init 10) (.push :: (demoScope ++ .pop :: demoAsk)))).map
      (fun r => r.1.map Option.isSome) = some [true, false] ∧
    ∃ b as, seen (runCmds demoCfg (Ctx.init 10) (.push :: (demoScope ++ .pop :: demoAsk))) =
        some (as, b) ∧
      ∃ ρ : Valuation, InBox ρ b ∧ ∀ I : Interp, holds I ρ demoHalf := by
  refine ⟨by decide +kernel, by decide +kernel,
    ⟨[varX, varY], [⟨.fin 0, .fin (1 / 10)⟩, ⟨.fin 5, .fin 6⟩], false⟩,
    [some ⟨[varY, varX], [⟨.fin 5, .fin 6⟩, ⟨.fin 0, .fin (1 / 10)⟩], false⟩, none],
    by decide +kernel, fun v => if v = varX then 0 else 5, ?_, ?_⟩
  · refine ⟨rfl, fun i v hv => ?_⟩
    rcases i with _ | _ | i
    · simp at hv; subst hv; simp [Box.get, InItv, below, above]
    · simp at hv; subst hv
      have : varY ≠ varX := by decide
      simp [Box.get, InItv, below, above, this]
      norm_num
    · simp at hv
  · intro I
    simp [demoHalf, holds, relSem, eval]

/-! ## C31: the variables of a model -/

/-- C31, as far as it holds.  After any history of calls of a user who declares and asserts only
with variables that exist, the model of a delta-sat answer has exactly the variables the user
declared as model variables in the scopes now open, provided that every variable so declared in
a closed scope is declared again.  Missing: that proviso, without which the claim is wrong
(`C31_leak`). -/
theorem C31_model_variables_partial (D : Dom) (I : Interp) (cfg : CCfg) (he : EnvOk D I cfg.env)
    (u : User) (c c' : Ctx) (m : Box) (hr : Reach cfg u c)
    (hg : ∀ v ∈ u.gone, v ∈ u.scopes.flatten) (h : checkSat cfg c = .ok (some m, c')) :
    m.vars.Nodup ∧ ∀ v, v ∈ m.vars ↔ v ∈ u.scopes.flatten := by
  obtain ⟨b, r, t, h1, h2, h3⟩ := checkSat_some h
  have hi := rinv_reach hr
  have hs := checkCore_shape he h1 hi.box.1
  obtain ⟨hs2, -, -⟩ := tighten_spec hs.2 h2
  rw [hs.1] at hs2
  exact ⟨(extractModel_values h3 hs2.2).1.2, extractModel_vars hi hg hs2 h3⟩

/-- `(if 2x ≤ 1 then x else 2) ≤ x + 3`. -/
def demoIte : Fml :=
  .rel .leq (.ite demoHalf (.var varX) (.const 2)) (.add (.var varX) (.const 3))

/-- The context after a call that does not throw. -/
def after (cfg : CCfg) (c : Ctx) (cmd : Cmd) : Ctx :=
  match stepCmd cfg c cmd with
  | .ok r => r.2
  | _ => c

/-- The call does not throw. -/
def fine (cfg : CCfg) (c : Ctx) (cmd : Cmd) : Bool :=
  match stepCmd cfg c cmd with
  | .ok _ => true
  | _ => false

theorem reach_after {cfg : CCfg} {u : User} {c : Ctx} (cmd : Cmd) (hr : Reach cfg u c)
    (hu : u.Uses c.sat.abs.next cmd) (h : fine cfg c cmd = true) :
    Reach cfg (u.step c.sat.abs.next cmd) (after cfg c cmd) := by
  unfold fine at h
  unfold after
  cases hs : stepCmd cfg c cmd with
  | ok r => exact .step hr hu hs
  | _ => simp [hs] at h

/-- The variables of the model of a check. -/
def modelVarsOf (cfg : CCfg) (c : Ctx) : Option (List Variable) :=
  match checkSat cfg c with
  | .ok (some m, _) => some m.vars
  | _ => none

theorem modelVarsOf_some {cfg c vs} (h : modelVarsOf cfg c = some vs) :
    ∃ m c', checkSat cfg c = .ok (some m, c') ∧ m.vars = vs := by
  unfold modelVarsOf at h
  split at h
  · rename_i m c' hs
    exact ⟨m, c', hs, by simpa using h⟩
  · cases h

/-- The hypotheses are met by a history with a closed scope, a variable declared there and again
outside, and an if-then-else term whose auxiliary variable is in the box but not in the model. -/
example (D : Dom) (I : Interp) : EnvOk D I demoCfg.env ∧ ∃ u c m c', Reach demoCfg u c ∧ u.gone = [varX] ∧ u.scopes.flatten = [varX] ∧
    c.box.vars = [varX, ⟨10, .continuous⟩] ∧ checkSat demoCfg c = .ok (some m, c') ∧
    m.vars = [varX] := by
  refine ⟨demoCfg_ok D I, ?_⟩
  have h0 : Reach demoCfg { made := [varX] } (Ctx.init 10) := .init _ _ (by decide) (by decide)
  have h1 := reach_after .push h0 trivial (by decide +kernel)
  have h2 := reach_after (.declare varX true) h1 (by simp [User.Uses, User.step])
    (by decide +kernel)
  have h3 := reach_after .pop h2 trivial (by decide +kernel)
  have h4 := reach_after (.declare varX true) h3 (by simp [User.Uses, User.step])
    (by decide +kernel)
  have h5 := reach_after (.setInterval varX (.fin 0) (.fin (1 / 10))) h4 trivial
    (by decide +kernel)
  have h6 := reach_after (.assert demoIte) h5 (by
      simp only [User.Uses, demoIte, demoHalf, Old, OldE, and_true, true_and]
      refine ⟨⟨?_, ?_⟩, ?_⟩ <;> decide +kernel)
    (by decide +kernel)
  obtain ⟨m, c', h7, h8⟩ := modelVarsOf_some (cfg := demoCfg) (c := after demoCfg (after demoCfg
    (after demoCfg (after demoCfg (after demoCfg (after demoCfg (Ctx.init 10) .push)
    (.declare varX true)) .pop) (.declare varX true))
    (.setInterval varX (.fin 0) (.fin (1 / 10)))) (.assert demoIte)) (vs := [varX])
    (by decide +kernel)
  exact ⟨_, _, m, c', h6, by decide +kernel, by decide +kernel, by decide +kernel, h7, h8⟩

/-- C31 is wrong after a closed scope: the ids of the model variables are not scoped, so with `y`
declared in a scope since closed the two sizes agree and the auxiliary variable of the
if-then-else term (id 10) is reported. -/
theorem C31_leak :
    (seen (runCmds demoCfg (Ctx.init 10)
      [.declare varX true, .setInterval varX (.fin 0) (.fin (1 / 10)), .push, .declare varY true,
       .pop, .assert demoIte, .check])).map (fun r => r.1.map (Option.map Box.vars)) =
    some [some [varX, ⟨10, .continuous⟩]] := by decide +kernel

/-! ## C32: tightening -/

/-- C32, precision.  Every interval of the tightened box has width at most `w`, where `w ≥ δ`
bounds the distance of the two rounded bounds (`w = δ` in exact arithmetic). -/
theorem C32_width (fp : Fp) (rnd : ℚ → ℚ) (δ w : ℚ) (hd : DiamOk fp) (h0 : 0 ≤ w) (hw : δ ≤ w)
    (hr : ∀ q, rnd (q + δ / 2) - rnd (q - δ / 2) ≤ w) (b t : Box) (hb : BoxWf b)
    (h : tighten fp rnd δ b = .ok t) :
    t.vars = b.vars ∧ ∀ v ∈ b.vars, (b.getV v).isEmpty = false →
      ∀ x y : ℝ, InItv x (t.getV v) → InItv y (t.getV v) → |x - y| ≤ w := by
  obtain ⟨h1, -, h2⟩ := tighten_spec hb h
  exact ⟨h1.1, fun v hv hne x y hx hy => tighten1_width hd hw h0 hr hne (h2 v hv) hx hy⟩

/-- C32, domains and types, as far as they hold.  The tightened interval of a continuous variable
is a non-empty part of its interval; a variable of another type whose interval has integral
bounds (for binary and Boolean ones among 0 and 1) gets one integral value of that interval,
if `δ < 1`.  Missing: intervals with other bounds and larger `δ`, for which the claim is wrong
(`C32_integer_outside`, `C32_binary_outside`, `C32_large_delta`). -/
theorem C32_domain_partial (fp : Fp) (rnd : ℚ → ℚ) (δ : ℚ) (hd : DiamOk fp) (hm : MidIn fp)
    (hp : ∀ q, fp.diam (Itv.point q) = .fin 0) (h0 : 0 ≤ δ)
    (hr : ∀ q, rnd (q - δ / 2) ≤ q ∧ q ≤ rnd (q + δ / 2)) (b t : Box) (hb : BoxWf b)
    (h : tighten fp rnd δ b = .ok t) :
    (∀ v ∈ b.vars, v.type = .continuous → (b.getV v).isEmpty = false →
      (∀ x, InItv x (t.getV v) → InItv x (b.getV v)) ∧ ∃ x, InItv x (t.getV v)) ∧
    (δ < 1 → ∀ v ∈ b.vars, ∀ l u : ℤ, l ≤ u → b.getV v = ⟨.fin l, .fin u⟩ →
      (v.type = .integer ∨ (v.type = .binary ∨ v.type = .boolean) ∧ 0 ≤ l ∧ u ≤ 1) →
      ∃ n : ℤ, l ≤ n ∧ n ≤ u ∧ t.getV v = Itv.point n) := by
  obtain ⟨-, -, h2⟩ := tighten_spec hb h
  refine ⟨fun v hv ht hne => ?_, fun hδ v hv l u hlu hlu' ht => ?_⟩
  · have := h2 v hv
    rw [ht] at this
    exact tighten1_cont hm hr hne this
  · have := h2 v hv
    rw [hlu'] at this
    rcases ht with ht | ⟨ht, hl, hu⟩
    · rw [ht] at this; exact tighten1_integer hd hm hδ hlu this
    · exact tighten1_binary hd hp h0 hδ ht hl hlu hu this

/-- The hypotheses are met; one variable of each kind. -/
example : DiamOk exactFp ∧ MidIn exactFp ∧ (∀ q, exactFp.diam (Itv.point q) = .fin 0) ∧
    (∀ q : ℚ, id (q - (1 / 2) / 2) ≤ q ∧ q ≤ id (q + (1 / 2) / 2)) ∧
    tighten exactFp id (1 / 2) ⟨[varX, varN, varB],
      [⟨.fin 0, .fin 10⟩, ⟨.fin (-3), .fin 4⟩, ⟨.fin 0, .fin 1⟩], false⟩ =
    .ok ⟨[varX, varN, varB], [⟨.fin (19 / 4), .fin (21 / 4)⟩, Itv.point 0, Itv.point 1], false⟩ :=
  ⟨exactFp_diamOk, exactFp_midIn, fun q => by simp [exactFp, Itv.point],
    fun q => by simp only [id]; constructor <;> linarith, by decide +kernel⟩

/-- C32 is wrong for an integer variable whose interval has other bounds: the domain `[1/5, 4/5]`
gives the model value 0 (there is no integer in the domain, and the answer should be unsat). -/
theorem C32_integer_outside :
    seen (runCmds { demoCfg with env := demoEnv } (Ctx.init 10)
      [.declare varN true, .setInterval varN (.fin (1 / 5)) (.fin (4 / 5)), .check]) =
    some ([some ⟨[varN], [Itv.point 0], false⟩],
      ⟨[varN], [⟨.fin (1 / 5), .fin (4 / 5)⟩], false⟩) := by decide +kernel

/-- C32 is wrong for a binary or Boolean variable with another upper bound: `[0, 1/2]` gives 1. -/
theorem C32_binary_outside :
    seen (runCmds { demoCfg with env := demoEnv } (Ctx.init 10)
      [.declare varB true, .setInterval varB (.fin 0) (.fin (1 / 2)), .check]) =
    some ([some ⟨[varB], [Itv.point 1], false⟩],
      ⟨[varB], [⟨.fin 0, .fin (1 / 2)⟩], false⟩) := by decide +kernel

/-- C32 is wrong for `δ ≥ 1`: a Boolean variable keeps the interval `[0, 1]`. -/
theorem C32_large_delta :
    seen (runCmds demoCfg (Ctx.init 10) [.declare varB true, .check]) =
    some ([some ⟨[varB], [⟨.fin 0, .fin 1⟩], false⟩],
      ⟨[varB], [⟨.fin 0, .fin 1⟩], false⟩) := by decide +kernel

/-! ## Histories that break C28, C29 and C33 -/

/-- `x + x ≥ 5`. -/
def demoSum : Fml := .rel .geq (.add (.var varX) (.var varX)) (.const 5)

/-- C29 is wrong: what was learned for `x ∈ [0, 1]` is kept when the interval is set to
`[0, 10]`, and the answer stays unsat although `x = 3` is a solution. -/
theorem C29_stale_unsat :
    (∃ as b, seen (runCmds demoCfg (Ctx.init 10)
        [.declare varX true, .setInterval varX (.fin 0) (.fin 1), .assert demoSum, .check,
         .setInterval varX (.fin 0) (.fin 10), .check]) = some (as ++ [none], b) ∧
      InBox (fun _ => 3) b) ∧ ∀ I : Interp, holds I (fun _ => 3) demoSum := by
  refine ⟨⟨[none], ⟨[varX], [⟨.fin 0, .fin 10⟩], false⟩, by decide +kernel, rfl, ?_⟩, ?_⟩
  · intro i v hv
    rcases i with _ | i
    · simp [Box.get, InItv, below, above]; norm_num
    · simp at hv
  · intro I
    simp [demoSum, holds, relSem, eval]
    norm_num

/-- `x ≤ 1`. -/
def demoBound : Fml := .rel .leq (.var varX) (.const 1)

/-- C33 is wrong: `x ≤ 1` is only recorded in the interval of `x`, so setting the interval to
`[0, 10]` drops it; the next model is `[9/2, 11/2]`, which violates it by more than `δ = 1`. -/
theorem C33_forgotten_bound :
    (∃ as b, seen (runCmds demoCfg (Ctx.init 10)
        [.declare varX true, .setInterval varX (.fin 0) (.fin 10), .assert demoBound, .check,
         .setInterval varX (.fin 0) (.fin 10), .check]) =
      some (as ++ [some ⟨[varX], [⟨.fin (9 / 2), .fin (11 / 2)⟩], false⟩], b)) ∧
    InBox (fun _ => 5) ⟨[varX], [⟨.fin (9 / 2), .fin (11 / 2)⟩], false⟩ ∧
    ∀ I : Interp, ¬ WeakHolds I 1 (fun _ => 5) demoBound := by
  refine ⟨⟨[some ⟨[varX], [⟨.fin 0, .fin 1⟩], false⟩], ⟨[varX], [⟨.fin 0, .fin 10⟩], false⟩,
    by decide +kernel⟩, ⟨rfl, ?_⟩, ?_⟩
  · intro i v hv
    rcases i with _ | i
    · simp [Box.get, InItv, below, above]; norm_num
    · simp at hv
  · rintro I ⟨op, l, r, h1, h2⟩
    simp only [demoBound, asRel, Option.some.injEq, Prod.mk.injEq] at h1
    obtain ⟨rfl, rfl, rfl⟩ := h1
    simp only [weakRel, eval] at h2
    norm_num at h2

/-- C33 is wrong even for `false`: it only makes the first component of the box empty, and
setting the interval of the first variable removes it. -/
theorem C33_forgotten_false :
    (seen (runCmds demoCfg (Ctx.init 10)
        [.declare varX true, .assert .ff, .check, .setInterval varX (.fin 0) (.fin 1),
         .check])).map (fun r => r.1) =
      some [none, some ⟨[varX], [⟨.fin 0, .fin 1⟩], false⟩] := by decide +kernel

/-- `exp x ≤ -5`. -/
def demoExpX : Fml := .rel .leq (.app1 .exp (.var varX)) (.const (-5))

/-- C28 is wrong: a point box that cannot be split is returned as delta-sat, for a constraint it
violates by more than `δ = 1`. -/
theorem C28_stuck_box :
    (seen (runCmds demoCfg (Ctx.init 10)
        [.declare varX true, .setInterval varX (.fin 1) (.fin 1), .assert demoExpX, .check])).map
      (fun r => r.1) = some [some ⟨[varX], [Itv.point 1], false⟩] ∧
    InBox (fun _ => 1) ⟨[varX], [Itv.point 1], false⟩ ∧
    ∀ I : Interp, I.f1 .exp 1 = Real.exp 1 → ¬ WeakHolds I 1 (fun _ => 1) demoExpX := by
  refine ⟨by decide +kernel, ⟨rfl, ?_⟩, ?_⟩
  · intro i v hv
    rcases i with _ | i
    · simp [Box.get, InItv, below, above, Itv.point]
    · simp at hv
  · rintro I hI ⟨op, l, r, h1, h2⟩
    simp only [demoExpX, asRel, Option.some.injEq, Prod.mk.injEq] at h1
    obtain ⟨rfl, rfl, rfl⟩ := h1
    simp only [weakRel, eval, hI] at h2
    have := Real.exp_pos 1
    push_cast at h2
    linarith

end Verif.Props
