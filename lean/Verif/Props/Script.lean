import Verif.Proof.Script
import Verif.Props.DeltaSat
import Verif.Props.Smt2

/-!
# C54: the answers to an SMT-LIB script
-/

namespace Verif.Props
open Verif Verif.Model Verif.Model.Smt2 Verif.Spec Verif.Spec.Smt2 Verif.Proof Verif.Proof.Smt2

/-- The first part of a script gets the same answers alone: the theorems below, on the last check
of a script, are on every check. -/
theorem C54_prefix (cfg : CCfg) (s t : List SCmd) (ht : TidyScript (s ++ t))
    (rs : List (Option Box)) (h : solve cfg (s ++ t) = .ok rs) :
    ∃ as bs, rs = as ++ bs ∧ solve cfg s = .ok as := by
  unfold solve at h
  obtain ⟨d2, h1, h⟩ := bindR_ok h
  obtain ⟨p, h2, hp⟩ := bindR_ok h
  simp only [Run.ok.injEq] at hp
  obtain ⟨d, e1, e2⟩ := run_append (lift_ok h1)
  obtain ⟨t', fs', k1, -, k2, -⟩ := nest_run s nest_init ht.2 (fun c hc => ht.1 c (by simp [hc])) e1
  obtain ⟨_, _, -, -, -, l, hl⟩ := nest_run t (rest := []) k1 (by simpa using k2)
    (fun c hc => ht.1 c (by simp [hc])) e2
  rw [← hl] at h2
  obtain ⟨q, q', e3, e4, e5⟩ := runCmds_append h2
  refine ⟨q.1, q'.1, by rw [← hp, e5], ?_⟩
  simp only [solve, e1, Run.lift, Run.bind_ok, e3]

theorem script_nest {use s d} (hr : run use s {} = .ok d) (ht : TidyScript s) :
    Nested use d.log ∧ ∀ I xs, stated I (inForce s) xs ↔ posed I (callsInForce d.log) xs := by
  obtain ⟨t', fs', k1, k2, -, -⟩ := nest_run s (rest := []) nest_init (by simpa using ht.2) ht.1 hr
  refine ⟨k1.nested, fun I xs => ?_⟩
  have e1 : inForce s = t'.s := by
    rw [inForce]
    exact congrArg Prod.fst k2
  have e2 : callsInForce d.log = t'.l := by rw [callsInForce, k1.log]
  rw [e1, e2]
  exact k1.ok.means.stated I xs

/-- C39, C40 and C41 for scripts with scopes: at its end a script has posed the problem that the
commands in force state.  Commands must use only names in force and must not give a name that can
be seen in a scope around (`C38_shadow`). -/
theorem C39_scopes_partial (use : List Cmd → Nat) (s : List SCmd) (d : Drv)
    (h : run use s {} = .ok d) (ht : TidyScript s) (I : Interp) (xs : List ℝ) :
    stated I (inForce s) xs ↔ posed I (callsInForce d.log) xs :=
  (script_nest h ht).2 I xs

theorem script_facts {cfg : CCfg} {s : List SCmd} {d : Drv} {as r}
    (hr : run (idsTaken cfg) s {} = .ok d) (ht : TidyScript s) (hc : Covered d.log)
    (h : solve cfg (s ++ [.check]) = .ok (as ++ [r])) :
    ∃ c c' k u, runCmds cfg (Ctx.init 0) d.log = .ok (as, c) ∧ checkSat cfg c = .ok (r, c') ∧
      Kept cfg d.log c k u ∧
      ∀ S, PlainLog cfg.th.dbl cfg.env.delta S d.log → PosesPlain cfg S k c := by
  obtain ⟨d', c, c', e1, e2, e3⟩ := solve_check h
  rw [hr] at e1
  simp only [Outcome.ok.injEq] at e1
  subst e1
  obtain ⟨k, u, k1, k2, -⟩ := script_books cfg (script_nest hr ht).1 e2 hc
  exact ⟨c, c', k, u, e2, e3, k1, k2⟩

theorem track_solved {I : Interp} {D : Dom} {db : Dbl} {L l n k ρ} (ht : Track L l n k)
    (hf : Fulfils I l ρ) (ho : Ordinary D I db l ρ) :
    SolvedBy I k.top ρ ∧ RegularAt D I db k.top ρ := by
  refine ⟨⟨fun p hp => ?_, fun p hp => ?_, fun f hf' => hf (.assert f) ((ht.asserted f).mp hf')⟩,
    fun f hf' => ho.regular f ((ht.asserted f).mp hf')⟩
  · obtain ⟨m, hm⟩ := (ht.declared p.1).mp ⟨p.2, hp⟩
    exact hf _ hm
  · obtain ⟨m, hm⟩ := (ht.declared p.1).mp ⟨p.2, hp⟩
    rcases ht.itv p.1 p.2 hp with h | ⟨x, y, h1, h2⟩
    · have ty : typeOk p.1.type (ρ p.1) := hf _ hm
      have sm := ho.small _ m hm
      rw [h]
      cases hty : p.1.type <;> rw [hty] at ty <;> simp only [newItv, InItv, below, above, and_self]
      · exact_mod_cast sm hty
      · rcases ty with h | h <;> rw [h] <;> norm_num
      · rcases ty with h | h <;> rw [h] <;> norm_num
    · have := hf _ h1
      rw [h2]
      simp only [CmdHolds, inBounds] at this
      obtain ⟨a, b, c, e⟩ := this
      refine ⟨?_, ?_⟩
      · cases x <;> simp_all [below]
      · cases y <;> simp_all [above]

/-- C54, as far as it holds, for `unsat`: when the last check of a script answers `unsat`, no
ordinary point fulfils the calls in force, which say what the commands in force state; a solution of
the stated problem extends to a point that fulfils them.  Assumed of the environment: sound
interval contractors, rounding to neighbours, and a SAT solver whose unsat answers are right.
Missing: the terms `C39_script_partial` leaves out, and scripts that use names from closed scopes
or give a name seen in a scope around (`C38_pop`, `C38_shadow`); under quantifiers anything but
comparisons of terms without conditionals; a check before the last one if there are quantifiers;
points that are not ordinary, for which the claim is wrong (`C54_large_integer`). -/
theorem C54_unsat_partial (D : Dom) (I : Interp) (cfg : CCfg) (he : EnvOk D I cfg.env)
    (hd : DblOk cfg.th.dbl) (hp : PicosatOk cfg.ps) (s : List SCmd) (d : Drv)
    (as : List (Option Box)) (hr : run (idsTaken cfg) s {} = .ok d) (ht : TidyScript s)
    (hc : Covered d.log) (h : solve cfg (s ++ [.check]) = .ok (as ++ [none])) (xs : List ℝ)
    (hs : stated I (inForce s) xs) :
    (∃ ρ, Fulfils I (callsInForce d.log) ρ ∧ xs = (modelVars (callsInForce d.log)).map ρ) ∧
    ∀ ρ, Fulfils I (callsInForce d.log) ρ → xs = (modelVars (callsInForce d.log)).map ρ →
      ¬ Ordinary D I cfg.th.dbl (callsInForce d.log) ρ := by
  refine ⟨(C39_scopes_partial _ s d hr ht I xs).mp hs, fun ρ hf _ ho => ?_⟩
  obtain ⟨c, c', k, u, -, e2, hk, -⟩ := script_facts hr ht hc h
  exact C27_unsat_partial D I cfg he hd hp k c c' hk.poses e2 ⟨ρ, track_solved hk.track hf ho⟩

/-- C54 for `unsat`, for problems all of whose points are ordinary: the stated problem has no
solution. -/
theorem C54_no_solution_partial (D : Dom) (I : Interp) (cfg : CCfg) (he : EnvOk D I cfg.env)
    (hd : DblOk cfg.th.dbl) (hp : PicosatOk cfg.ps) (s : List SCmd) (d : Drv)
    (as : List (Option Box)) (hr : run (idsTaken cfg) s {} = .ok d) (ht : TidyScript s)
    (hc : Covered d.log) (h : solve cfg (s ++ [.check]) = .ok (as ++ [none]))
    (ho : ∀ ρ, Fulfils I (callsInForce d.log) ρ → Ordinary D I cfg.th.dbl (callsInForce d.log) ρ)
    (xs : List ℝ) : ¬ stated I (inForce s) xs := fun hs => by
  obtain ⟨⟨ρ, h1, h2⟩, h3⟩ := C54_unsat_partial D I cfg he hd hp s d as hr ht hc h xs hs
  exact h3 ρ h1 h2 (ho ρ h1)

/-- C54 for `delta-sat`: the model printed has the declared variables of the script, each once, if
none was declared in a scope closed since (see C31). -/
theorem C54_model_partial (D : Dom) (I : Interp) (cfg : CCfg) (he : EnvOk D I cfg.env)
    (s : List SCmd) (d : Drv) (as : List (Option Box)) (m : Box)
    (hr : run (idsTaken cfg) s {} = .ok d) (ht : TidyScript s) (hc : Covered d.log)
    (hg : ∀ v, .declare v true ∈ d.log → .declare v true ∈ callsInForce d.log)
    (h : solve cfg (s ++ [.check]) = .ok (as ++ [some m])) :
    m.vars.Nodup ∧ ∀ v, v ∈ m.vars ↔ v ∈ modelVars (callsInForce d.log) := by
  obtain ⟨c, c', k, u, -, e2, hk, -⟩ := script_facts hr ht hc h
  have e := hk.scopes.top.2
  have := C31_model_variables_partial D I cfg he u c c' m hk.reach (fun v hv => by
    rw [e, List.mem_reverse, mem_modelVars]
    exact hg v (mem_modelVars.mp (hk.gone v hv))) e2
  simpa [e] using this

/-- C54 for `delta-sat`: every point of the model is in the stated bounds and satisfies the
`δ`-weakening of every asserted formula in force whose terms have values there, provided that the
search did not end with a box that it could not split.  Missing besides: quantifiers, if-then-else,
integer and binary variables, `let` and functions with arguments, which declare variables that are
not reported, declarations in scopes closed since, and the proviso (see C28). -/
theorem C54_delta_sat_partial (D : Dom) (I : Interp) (cfg : CCfg) (he : EnvOk D I cfg.env)
    (hd : DblOk cfg.th.dbl) (hp : PicosatOk cfg.ps) (hfp : DiamOk cfg.env.fp)
    (hz : DiamZero cfg.env.fp) (hδ : 0 ≤ cfg.env.delta) (S : Expr → Expr → Prop)
    (s : List SCmd) (d : Drv) (as : List (Option Box)) (m : Box)
    (hr : run (idsTaken cfg) s {} = .ok d) (ht : TidyScript s) (hc : Covered d.log)
    (hS : PlainLog cfg.th.dbl cfg.env.delta S d.log)
    (hm : ∀ v b, .declare v b ∈ d.log → b = true ∧ (v.type = .continuous ∨ v.type = .boolean) ∧
      .declare v b ∈ callsInForce d.log)
    (h : solve cfg (s ++ [.check]) = .ok (as ++ [some m]))
    (hst : ∀ c b r, runCmds cfg (Ctx.init 0) d.log = .ok (as, c) →
      checkCore cfg c = .ok (some b, r) → ∀ a e, S a e → ¬ StuckOn cfg.env cfg.th b a e)
    (ρ : Valuation) (hρ : InBox ρ m) :
    (∀ v l u, .setInterval v l u ∈ callsInForce d.log → InItv (ρ v) ⟨l, u⟩) ∧
    ∀ f, .assert f ∈ callsInForce d.log → DefF D I ρ f → weakF I cfg.env.delta ρ true f := by
  have hv := (C54_model_partial D I cfg he s d as m hr ht hc (fun v hv => (hm v true hv).2.2) h).2
  obtain ⟨c, c', k, u, e1, e2, hk, hP⟩ := script_facts hr ht hc h
  have hT := hk.track
  have hin : ∀ p ∈ k.top.dom, (p.1.type = .continuous ∨ p.1.type = .boolean) ∧ p.1 ∈ m.vars := by
    intro p hp
    obtain ⟨b, hb⟩ := (hT.declared p.1).mp ⟨p.2, hp⟩
    obtain ⟨rfl, h2, -⟩ := hm _ b (hT.sub _ hb)
    exact ⟨h2, (hv _).mpr (mem_modelVars.mpr hb)⟩
  obtain ⟨a1, a2⟩ := C28_delta_sat_partial D I cfg he hd hp hfp hz hδ S k c c' m (hP S hS) e2
    (fun p hp => (hin p hp).1) (fun p hp => (hin p hp).2) (hst c · · e1 ·) ρ hρ
  refine ⟨fun v l u hl => ?_, fun f hf => a2 f ((hT.asserted f).mpr hf)⟩
  obtain ⟨iv, hiv⟩ := (hT.declared v).mpr (hT.setd v l u hl)
  have := a1 _ hiv
  rwa [hT.set v l u hl iv hiv] at this

/-! ### Concrete cases -/

/-- `x ∈ [0, 1]`, a check, `f(a, b) = a + b`, `let p = (f(x, x) ≥ 3) in p`. -/
def demoScript : List SCmd :=
  [.declare "x" .real (some (.fin 0, .fin 1)), .check,
   .define "f" [("a", .real), ("b", .real)] .real (.add (.sym "a") [.sym "b"]),
   .assert (.let_ ["p"] [.rel .ge (.call "f" [.sym "x", .sym "x"]) (.num 3)] (.sym "p"))]

deriving instance DecidableEq for Cmd

/-- The calls the front end makes for a script. -/
def logOf (cfg : CCfg) (s : List SCmd) : Option (List Cmd) :=
  match run (idsTaken cfg) s {} with
  | .ok d => some d.log
  | _ => none

theorem logOf_some {cfg s l} (h : logOf cfg s = some l) :
    ∃ d, run (idsTaken cfg) s {} = .ok d ∧ d.log = l := by
  unfold logOf at h
  split at h
  · rename_i d hd
    exact ⟨d, hd, by simpa using h⟩
  · cases h

/-- Whether the checks of a script answer delta-sat. -/
def answersOf (cfg : CCfg) (s : List SCmd) : Option (List Bool) :=
  match solve cfg s with
  | .ok as => some (as.map Option.isSome)
  | _ => none

theorem answersOf_unsat {cfg s bs} (h : answersOf cfg s = some (bs ++ [false])) :
    ∃ as, solve cfg s = .ok (as ++ [none]) ∧ as.map Option.isSome = bs := by
  unfold answersOf at h
  split at h
  · rename_i as hs
    simp only [Option.some.injEq] at h
    rcases List.eq_nil_or_concat as with rfl | ⟨l, r, rfl⟩
    · simp at h
    · rw [List.concat_eq_append, List.map_append] at h
      obtain ⟨h1, h2⟩ := List.append_inj' h rfl
      have : r = none := by simpa using h2
      subst this
      exact ⟨l, by rw [hs, List.concat_eq_append], h1⟩
  · cases h

/-- `x` and `p` of `demoScript`, and `f(x, x) ≥ 3`. -/
def scX : Variable := ⟨0, .continuous⟩
def scP : Variable := ⟨3, .boolean⟩
def scBig : Fml := .rel .geq (.add (.var scX) (.var scX)) (.const 3)
def demoScriptLog : List Cmd :=
  [.newVar .continuous, .declare scX true, .setInterval scX (.fin 0) (.fin 1), .check,
   .newVar .continuous, .declare ⟨1, .continuous⟩ false, .newVar .continuous,
   .declare ⟨2, .continuous⟩ false, .newVar .boolean, .declare scP false,
   .assert (.disj [.conj [.bvar scP, scBig], .conj [.neg (.bvar scP), .neg scBig]]),
   .assert (.bvar scP)]

theorem demoScript_tame : TameScript demoScript := by
  simp [demoScript, TameScript, Tame, Tames, LetFree, LetFrees]

theorem demoScript_covered : Covered demoScriptLog where
  wf := by simp [demoScriptLog, WfF, WfFs, WfE, scBig, scX, scP]
  bounds := by
    intro v l u h x _
    simp [demoScriptLog, scX] at h
    rw [h.1]
    exact ⟨trivial, trivial⟩
  quant := .inl (by simp [demoScriptLog, QFree, QFrees, QFreeE, scBig])

theorem demoScript_ordinary (D : Dom) (I : Interp) (db : Dbl) (ρ : Valuation) :
    Ordinary D I db demoScriptLog ρ where
  regular := by simp [demoScriptLog, RegF, RegFs, RegE, scBig, RelOff, isPlace, asNum]
  small := by
    intro v m hv ht
    simp [demoScriptLog, scX, scP] at hv
    rcases hv with ⟨rfl, _⟩ | ⟨rfl, _⟩ | ⟨rfl, _⟩ | ⟨rfl, _⟩ <;> cases ht

/-- The first check of `demoScript` answers delta-sat and one at its end unsat, so it states a
problem without solution. -/
example (D : Dom) (I : Interp) : EnvOk D I demoCfg.env ∧ DblOk demoCfg.th.dbl ∧
    PicosatOk demoCfg.ps ∧ TidyScript demoScript ∧ ∃ d as,
      run (idsTaken demoCfg) demoScript {} = .ok d ∧ Covered d.log ∧
      solve demoCfg (demoScript ++ [.check]) = .ok (as ++ [none]) ∧ as.map Option.isSome = [true] ∧
      (∀ ρ, Fulfils I (callsInForce d.log) ρ →
        Ordinary D I demoCfg.th.dbl (callsInForce d.log) ρ) ∧
      ∀ xs, ¬ stated I demoScript xs := by
  obtain ⟨d, hd, hl⟩ := logOf_some (cfg := demoCfg) (s := demoScript) (l := demoScriptLog)
    (by decide +kernel)
  obtain ⟨as, h1, h2⟩ := answersOf_unsat (cfg := demoCfg) (s := demoScript ++ [.check])
    (bs := [true]) (by decide +kernel)
  have hc : Covered d.log := hl ▸ demoScript_covered
  have hf : callsInForce d.log = demoScriptLog := by rw [hl]; rfl
  have ho : ∀ ρ, Fulfils I (callsInForce d.log) ρ →
      Ordinary D I demoCfg.th.dbl (callsInForce d.log) ρ :=
    fun ρ _ => hf ▸ demoScript_ordinary D I _ ρ
  obtain ⟨ht, hi⟩ := tidy_of_tame demoScript_tame hd
  refine ⟨demoCfg_ok D I, quarterDbl_ok, demoSat_ok, ht, d, as, hd, hc, h1, h2, ho, ?_⟩
  rw [← hi]
  exact C54_no_solution_partial D I demoCfg (demoCfg_ok D I) quarterDbl_ok demoSat_ok _ d as hd
    ht hc h1 ho

/-- `x ∈ [0, 1]`, a scope with `y ≤ x` and a check, which is closed, and another with
`x + x ≥ 3`. -/
def scopedScript : List SCmd :=
  [.declare "x" .real (some (.fin 0, .fin 1)), .push 1, .declare "y" .real (some (.fin 0, .fin 1)),
   .assert (.rel .le (.sym "y") (.sym "x")), .check, .pop 1, .push 1,
   .assert (.rel .ge (.add (.sym "x") [.sym "x"]) (.num 3))]

def scopedLog : List Cmd :=
  [.newVar .continuous, .declare scX true, .setInterval scX (.fin 0) (.fin 1), .push,
   .newVar .continuous, .declare ⟨1, .continuous⟩ true,
   .setInterval ⟨1, .continuous⟩ (.fin 0) (.fin 1),
   .assert (.rel .leq (.var ⟨1, .continuous⟩) (.var scX)), .check, .pop, .push, .assert scBig]

theorem scopedScript_tidy : TidyScript scopedScript := by
  refine ⟨by simp [scopedScript, TameCmd, Tame, Tames], ?_⟩
  simp [scopedScript, Nests, CmdUsesOnly, UsesOnly, Decls.add, Decls.Has, freeNames, freeNamess,
    callNames, callNamess]

/-- Scripts with scopes are covered: in `scopedScript` the first check answers delta-sat and one at
its end unsat, so the commands in force there have no solution. -/
example (D : Dom) (I : Interp) : TidyScript scopedScript ∧
    inForce scopedScript = [.declare "x" .real (some (.fin 0, .fin 1)),
      .assert (.rel .ge (.add (.sym "x") [.sym "x"]) (.num 3))] ∧ ∃ d as,
      run (idsTaken demoCfg) scopedScript {} = .ok d ∧ Covered d.log ∧
      solve demoCfg (scopedScript ++ [.check]) = .ok (as ++ [none]) ∧
      as.map Option.isSome = [true] ∧
      (∀ ρ, Fulfils I (callsInForce d.log) ρ →
        Ordinary D I demoCfg.th.dbl (callsInForce d.log) ρ) ∧
      ∀ xs, ¬ stated I (inForce scopedScript) xs := by
  obtain ⟨d, hd, hl⟩ := logOf_some (cfg := demoCfg) (s := scopedScript) (l := scopedLog)
    (by decide +kernel)
  obtain ⟨as, h1, h2⟩ := answersOf_unsat (cfg := demoCfg) (s := scopedScript ++ [.check])
    (bs := [true]) (by decide +kernel)
  have hc : Covered d.log := hl ▸ {
    wf := by simp [scopedLog, WfF, WfE, scBig, scX]
    bounds := by
      intro v l u h x _
      simp [scopedLog, scX] at h
      rcases h with h | h <;> rw [h.1] <;> exact ⟨trivial, trivial⟩
    quant := .inl (by simp [scopedLog, QFree, QFreeE, scBig]) }
  have hf : callsInForce d.log = [.newVar .continuous, .declare scX true,
    .setInterval scX (.fin 0) (.fin 1), .assert scBig] := by rw [hl]; rfl
  have ho : ∀ ρ, Fulfils I (callsInForce d.log) ρ →
      Ordinary D I demoCfg.th.dbl (callsInForce d.log) ρ := fun ρ _ => by
    rw [hf]
    exact ⟨by simp [RegF, RegE, scBig, RelOff, isPlace, asNum], fun v m hv ht => by
      simp [scX] at hv
      rw [hv.1] at ht
      cases ht⟩
  exact ⟨scopedScript_tidy, rfl, d, as, hd, hc, h1, h2, ho, C54_no_solution_partial D I demoCfg
    (demoCfg_ok D I) quarterDbl_ok demoSat_ok _ d as hd scopedScript_tidy hc h1 ho⟩

/-- C39 and C38 are wrong if a name is given again in a scope: after the scope is closed the name
still means the inner variable, which is not declared any more.  Here the commands in force are
`x ∈ [0, 1]` and `x ≥ 3`, but a problem with solutions is posed. -/
theorem C38_shadow : ∃ (s : List SCmd) (d : Drv), run (fun _ => 0) s {} = .ok d ∧
    WellScoped ([], []) [] s ∧ ∀ I, (∀ xs, ¬ stated I (inForce s) xs) ∧
    ∃ xs, posed I (callsInForce d.log) xs := by
  refine ⟨[.declare "x" .real (some (.fin 0, .fin 1)), .push 1, .declare "x" .real none, .pop 1,
    .assert (.rel .ge (.sym "x") (.num 3))], _, rfl, ?_, fun I => ⟨?_, ?_⟩⟩
  · simp [WellScoped, CmdUsesOnly, UsesOnly, Decls.add, freeNames, callNames]
  · rintro xs ⟨x, ys, -, h1, h2, h3, -⟩
    simp [den, Names.set, toVal, sortType, liftR, relOf, SVal.asProp, inBounds] at h2 h3
    linarith
  · refine ⟨[1], fun v => if v = scX then 1 else 3, ?_, rfl⟩
    show ∀ c ∈ [Cmd.newVar .continuous, .declare scX true, .setInterval scX (.fin 0) (.fin 1),
      .assert (.rel .geq (.var ⟨1, .continuous⟩) (.const 3))], _
    intro c hc
    simp only [List.mem_cons, List.not_mem_nil, or_false] at hc
    rcases hc with rfl | rfl | rfl | rfl <;>
      simp [CmdHolds, inBounds, typeOk, scX, holds, eval, relSem]

/-- C54 is wrong for large integers: the interval of an integer variable ends at `2147483647`, and
a script that asks for an integer of at least `3000000000` is answered unsat. -/
theorem C54_large_integer : ∃ s : List SCmd, TameScript s ∧
    solve demoCfg (s ++ [.check]) = .ok [none] ∧ ∀ I, stated I s [3000000000] := by
  refine ⟨[.declare "n" .int none, .assert (.rel .ge (.sym "n") (.num 3000000000))], ?_, ?_, ?_⟩
  · simp [TameScript, Tame]
  · obtain ⟨as, h1, h2⟩ := answersOf_unsat (cfg := demoCfg) (s := [.declare "n" .int none,
      .assert (.rel .ge (.sym "n") (.num 3000000000)), .check]) (bs := []) (by decide +kernel)
    have : as = [] := by simpa using h2
    subst this
    exact h1
  · intro I
    refine ⟨3000000000, [], rfl, ⟨3000000000, by norm_num⟩, trivial, ?_, rfl⟩
    simp [den, Names.set, toVal, sortType, liftR, relOf, SVal.asProp]

/-- `x ∈ [2, 11/4]` and `b` with `b ∨ x + x ≥ 5` and `¬ b`. -/
def demoScript2 : List SCmd :=
  [.declare "x" .real (some (.fin 2, .fin (11 / 4))), .declare "b" .bool none,
   .assert (.or [.sym "b", .rel .ge (.add (.sym "x") [.sym "x"]) (.num 5)]),
   .assert (.not (.sym "b"))]

def scB : Variable := ⟨1, .boolean⟩
def scSum : Expr := .add (.var scX) (.var scX)
def demoScript2Log : List Cmd :=
  [.newVar .continuous, .declare scX true, .setInterval scX (.fin 2) (.fin (11 / 4)),
   .newVar .boolean, .declare scB true,
   .assert (.disj [.bvar scB, .rel .geq scSum (.const 5)]), .assert (.neg (.bvar scB))]
/-- The only relation used. -/
def scS (a e : Expr) : Prop := a = scSum ∧ e = .const 5
def scFound : Box := ⟨[scX, scB], [⟨.fin (19 / 8), .fin (11 / 4)⟩, ⟨.fin 0, .fin 0⟩], false⟩

theorem scS_not_stuck : ∀ a e, scS a e → ¬ StuckOn demoCfg.env demoCfg.th scFound a e := by
  rintro a e ⟨rfl, rfl⟩ ⟨f, op, iv, cand, h1, -, h2, h3, -⟩
  unfold evalRel at h2
  obtain ⟨o, -, h2⟩ := bindO_ok h2
  obtain ⟨x, h4, h2⟩ := bindO_ok h2
  obtain ⟨j, h5, h2⟩ := bindO_ok h2
  rw [extractExpr_asRel h1] at h4
  simp only [Outcome.ok.injEq] at h4; subst h4
  have key : evalI demoCfg.env.ops scFound (Expr.sub scSum (.const 5)) =
      .ok ⟨.fin (-1 / 4), .fin (1 / 2)⟩ := by decide +kernel
  rw [key] at h5
  simp only [Outcome.ok.injEq] at h5
  subst h5
  injection h2 with h2
  rw [← (Prod.mk.inj h2).2] at h3
  revert h3
  decide +kernel

theorem demoScript2_plain : PlainLog demoCfg.th.dbl demoCfg.env.delta scS demoScript2Log where
  plain := by
    intro f hf
    simp only [demoScript2Log, List.mem_cons, Cmd.assert.injEq, reduceCtorEq, false_or,
      List.not_mem_nil, or_false] at hf
    rcases hf with rfl | rfl
    · refine ⟨trivial, ⟨⟨⟨⟨trivial, trivial⟩, trivial⟩, by decide +kernel, by decide, ?_, ?_⟩, rfl, rfl⟩,
        trivial⟩
      · intro lo hi ex h; simp [asNum, scSum] at h
      · intro lo hi ex h
        simp only [asNum, Option.some.injEq, Prod.mk.injEq] at h
        obtain ⟨rfl, rfl, rfl⟩ := h
        decide +kernel
    · trivial
  bounds := by
    intro l v x y r h
    match l, h with
    | [_, _], h =>
      simp only [demoScript2Log, List.cons_append, List.nil_append, List.cons.injEq,
        Cmd.setInterval.injEq] at h
      obtain ⟨rfl, rfl, ⟨rfl, -⟩, -⟩ := h
      exact ⟨by decide, by simp [callsInForce, enforceCall]⟩
    | [], h | [_], h | [_, _, _], h | [_, _, _, _], h | [_, _, _, _, _], h | [_, _, _, _, _, _], h =>
      simp [demoScript2Log] at h
    | _ :: _ :: _ :: _ :: _ :: _ :: _ :: l, h =>
      have := congrArg List.length h
      simp [demoScript2Log] at this
  first := by
    intro l v m r h
    match l, h with
    | [_], h =>
      simp only [demoScript2Log, List.cons_append, List.nil_append, List.cons.injEq] at h
      obtain ⟨rfl, -⟩ := h
      exact .inl (by simp [callsInForce, enforceCall])
    | [_, _, _, _], h =>
      simp only [demoScript2Log, List.cons_append, List.nil_append, List.cons.injEq] at h
      obtain ⟨rfl, rfl, rfl, rfl, -⟩ := h
      exact .inr ⟨scX, true, by simp [callsInForce, enforceCall]⟩
    | [], h | [_, _], h | [_, _, _], h | [_, _, _, _, _], h | [_, _, _, _, _, _], h =>
      simp [demoScript2Log] at h
    | _ :: _ :: _ :: _ :: _ :: _ :: _ :: l, h =>
      have := congrArg List.length h
      simp [demoScript2Log] at this

theorem scFound_point : InBox (fun v => if v = scX then 19 / 8 else 0) scFound := by
  refine ⟨rfl, fun i v h => ?_⟩
  match i, h with
  | 0, h =>
    have : scX = v := by simpa [scFound] using h
    subst this
    simp [scFound, Box.get, InItv, below, above]
    norm_num
  | 1, h =>
    have : scB = v := by simpa [scFound] using h
    subst this
    simp [scFound, Box.get, InItv, below, above, scX, scB]
  | n + 2, h => simp [scFound] at h

/-- The hypotheses of the theorems on delta-sat answers are met: the model has `x ∈ [19/8, 11/4]`,
where `x + x ≥ 5` holds only up to `δ`. -/
example (D : Dom) (I : Interp) : EnvOk D I demoCfg.env ∧ DblOk demoCfg.th.dbl ∧
    PicosatOk demoCfg.ps ∧ DiamOk demoCfg.env.fp ∧ DiamZero demoCfg.env.fp ∧
    0 ≤ demoCfg.env.delta ∧ TidyScript demoScript2 ∧ ∃ d,
      run (idsTaken demoCfg) demoScript2 {} = .ok d ∧ Covered d.log ∧
      PlainLog demoCfg.th.dbl demoCfg.env.delta scS d.log ∧
      (∀ v b, .declare v b ∈ d.log → b = true ∧ (v.type = .continuous ∨ v.type = .boolean) ∧
        .declare v b ∈ callsInForce d.log) ∧
      solve demoCfg (demoScript2 ++ [.check]) = .ok ([] ++ [some scFound]) ∧
      (∀ c b r, runCmds demoCfg (Ctx.init 0) d.log = .ok ([], c) →
        checkCore demoCfg c = .ok (some b, r) → ∀ a e, scS a e →
        ¬ StuckOn demoCfg.env demoCfg.th b a e) ∧ InBox (fun v => if v = scX then 19 / 8 else 0) scFound := by
  obtain ⟨d, hd, hl⟩ := logOf_some (cfg := demoCfg) (s := demoScript2) (l := demoScript2Log)
    (by decide +kernel)
  refine ⟨demoCfg_ok D I, quarterDbl_ok, demoSat_ok, exactFp_diamOk, exactFp_diamZero,
    by decide +kernel, ?_, d, hd, ?_, ?_, ?_, ?_, ?_, ?_⟩
  · exact (tidy_of_tame (by simp [demoScript2, TameScript, Tame, Tames]) hd).1
  · rw [hl]
    refine ⟨?_, ?_, .inr (by simp [demoScript2Log])⟩
    · simp [demoScript2Log, WfF, WfFs, WfE, scSum, scX, scB]
    · intro v l u h x _
      simp [demoScript2Log, scX] at h
      rw [h.1]
      exact ⟨trivial, trivial⟩
  · rw [hl]; exact demoScript2_plain
  · rw [hl]
    simp [demoScript2Log, scX, scB, callsInForce, enforceCall]
  · have : (match solve demoCfg (demoScript2 ++ [.check]) with | .ok as => some as | _ => none) =
        some [some scFound] := by decide +kernel
    split at this
    · rename_i as hs
      rw [hs]
      simp only [Option.some.injEq] at this
      rw [this]; rfl
    · cases this
  · intro c b r h1 h2
    rw [hl] at h1
    have : (match runCmds demoCfg (Ctx.init 0) demoScript2Log with
      | .ok (_, c) => foundBy demoCfg c | _ => none) = some scFound := by decide +kernel
    rw [h1] at this
    obtain ⟨r', h3⟩ := foundBy_some this
    rw [h3] at h2
    simp only [Run.ok.injEq, Prod.mk.injEq, Option.some.injEq] at h2
    rw [← h2.1]
    exact scS_not_stuck
  · exact scFound_point

end Verif.Props
