import Verif.Proof.Exec
import Verif.Props.Smt2Scan
import Verif.Props.ScriptMin

/-!
# C74: what is printed before an error, and objectives in files
-/

namespace Verif.Props
open Verif Verif.Model Verif.Model.Smt2 Verif.Model.Smt2Parse Verif.Model.Smt2Scan Verif.Model.Exec
open Verif.Spec Verif.Spec.Smt2Scan Verif.Spec.Smt2Grammar Verif.Spec.Smt2 Verif.Proof Verif.Proof.Smt2
open Verif.Proof.Exec
open Verif.Spec.Main (Asks IsSetting askedPrecision askedFlag)

/-- **C74**: every line printed for a file is printed by a check, and depends on nothing behind that
check: it is printed whatever follows, errors included. -/
theorem C74_line (hv : List Char → Option ℚ) (A : Actions) (fmt : ℚ → String) (mk : Opts → CCfg)
    (o : Opts) (text : String) (l1 l2 : List Main.Line) (x : Main.Line) (e : Run Unit)
    (h : execText hv A fmt mk o text = (l1 ++ x :: l2, e)) :
    ∃ pre post, (readScript hv A text).1 = pre ++ .core .check :: post ∧ .exit ∉ pre ∧
      (exec fmt mk pre { opts := o }).1 = l1 ∧
      ∀ text' post', (readScript hv A text').1 = pre ++ .core .check :: post' →
        ∃ l e', execText hv A fmt mk o text' = (l1 ++ x :: l, e') := by
  obtain ⟨pre, post, h1, h2, h3⟩ := exec_line h
  refine ⟨pre, post, h1, h2, exec_before h2 h3, fun text' post' h4 => ?_⟩
  obtain ⟨l, e', h5⟩ := exec_more (q := post') (p := pre ++ [.core .check]) (by simp [h2]) h3
  refine ⟨l, e', ?_⟩
  rw [execText, h4]
  simpa using h5

/-- **C74**: as long as there are no errors and no objectives, executing the commands one by one and
collecting the calls first, as `Main.lean` does, print the same. -/
theorem C74_agrees (hv : List Char → Option ℚ) (A : Actions) (fmt : ℚ → String) (mk : Opts → CCfg)
    (o : Opts) (text : String) (fs : List Main.FCmd) (h : Runs (readScript hv A text).1 fs)
    (ls : List Main.Line) :
    execText hv A fmt mk o text = (ls, .ok ()) ↔ Main.answers fmt mk o fs = .ok ls :=
  exec_answers h

theorem asks_smt2 {w cl name text} (h : Asks w cl .smt2 name text) :
    Main.task w cl = .smt2 name ∧ w.read name = some text := by
  have h1 := (C69_asked ⟨fun _ => [], fun _ => none⟩ (fun _ => "") (fun _ => demoCfg) w cl name text).1 h
  refine ⟨?_, by simp only [Main.World.read, h.named, if_false, h.file]⟩
  unfold Main.task
  obtain ⟨h1, h2, h3⟩ := h.plain
  simp only [h1, h2, h3, asks_valid h, asks_args h, h.file, List.headD_cons, Bool.not_true]
  simp only [Bool.false_eq_true, if_false, List.isEmpty_cons, Bool.not_false, Bool.true_and,
    decide_eq_true_eq, h.named, Option.isNone_some, or_false]
  rw [if_pos]
  rcases h.format with e | ⟨e, stem, ⟨-, e2⟩ | ⟨e2, -⟩⟩
  · exact .inl e
  · refine .inr ⟨e, ?_⟩
    have := Verif.Proof.Main.extension_append (stem := stem) (e := "smt2") (by decide)
    rw [String.append_assoc] at this
    rw [e2]; exact this
  · cases e2

/-- **C74**: what the program prints for the file it is asked to solve. -/
theorem C74_program (hv : List Char → Option ℚ) (A : Actions) (dr : String → Option Dr.DProb)
    (fmt : ℚ → String) (mk : Opts → CCfg) (w : Main.World) (cl : Main.CmdLine) (name text : String)
    (hA : Asks w cl .smt2 name text) :
    programX hv A dr fmt mk w cl = ((execText hv A fmt mk cl.extract text).1,
      (execText hv A fmt mk cl.extract text).2.bind fun _ => .ok 0) := by
  obtain ⟨h1, h2⟩ := asks_smt2 hA
  simp only [programX, h1, h2]

theorem runs_append {p fs q gs} (h : Runs p fs) (h2 : Runs q gs) : Runs (p ++ q) (fs ++ gs) := by
  induction h with
  | nil => exact h2
  | core _ ih => exact .core ih
  | setNum _ ih => exact .setNum ih
  | setStr _ ih => exact .setStr ih
  | exit _ ih => exact .exit ih
  | info _ ih => exact .info ih
  | logic _ ih => exact .logic ih
  | getModel _ ih => exact .getModel ih
  | getValue _ ih => exact .getValue ih
  | getOption _ ih => exact .getOption ih

theorem line_program {fmt mk w cl name text l1 x} {pre : List PCmd} {cs : List Main.FCmd}
    {s : List SCmd} (hA : Asks w cl .smt2 name text) (hp : Runs pre (cs ++ s.map .core))
    (h : exec fmt mk (pre ++ [.core .check]) { opts := cl.extract } = (l1 ++ [x], .ok ())) :
    Main.program ⟨fun _ => cs ++ (s ++ [SCmd.check]).map .core, fun _ => none⟩ fmt mk w cl =
      .ok (0, l1 ++ [x]) := by
  rw [(C69_asked _ fmt mk w cl name text).1 hA]
  have := (exec_answers (runs_append hp (.core (c := .check) .nil))).1 h
  simp only [List.map_append, List.map_cons, List.map_nil, ← List.append_assoc] at this ⊢
  rw [this]
  rfl

/-- C74 for a line `unsat`, wherever it is printed and whatever happens later: the commands in force at
the check that printed it have no solution.  Missing: options set between other commands, and what is
missing for scripts (see `C54_no_solution_partial`). -/
theorem C74_unsat_partial (D : Dom) (I : Interp) (hv : List Char → Option ℚ) (A : Actions)
    (dr : String → Option Dr.DProb) (fmt : ℚ → String) (mk : Opts → CCfg) (w : Main.World)
    (cl : Main.CmdLine) (name text : String) (hA : Asks w cl .smt2 name text)
    (hmk : ∀ o, EnvOk D I (mk o).env ∧ DblOk (mk o).th.dbl ∧ PicosatOk (mk o).ps)
    (l1 l2 : List Main.Line) (e : Run Nat)
    (h : programX hv A dr fmt mk w cl = (l1 ++ .unsat :: l2, e)) :
    ∃ pre post, (readScript hv A text).1 = pre ++ .core .check :: post ∧
      (exec fmt mk pre { opts := cl.extract }).1 = l1 ∧
      ∀ cs s, (∀ c ∈ cs, IsSetting c) → Runs pre (cs ++ s.map .core) → TidyScript s →
        (∀ o d, o.precision.get = askedPrecision cl cs → run (idsTaken (mk o)) s {} = .ok d →
          Covered d.log ∧ ∀ ρ, Fulfils I (callsInForce d.log) ρ →
            Ordinary D I (mk o).th.dbl (callsInForce d.log) ρ) →
        ∀ xs, ¬ stated I (inForce s) xs := by
  rw [C74_program hv A dr fmt mk w cl name text hA, Prod.mk.injEq] at h
  obtain ⟨pre, post, h1, h2, h3⟩ := exec_line (Prod.ext h.1 rfl)
  refine ⟨pre, post, h1, exec_before h2 h3, fun cs s hs hp hts hc xs => ?_⟩
  exact C69_unsat_partial D I ⟨fun _ => cs ++ (s ++ [SCmd.check]).map .core, fun _ => none⟩ fmt mk w cl
    name text hA cs hs s rfl hmk hts hc 0 l1 (line_program hA hp h3) xs

/-- C74 for a line `delta-sat with delta = δ` and a model.  Missing: what is missing in
`C69_delta_sat_partial`. -/
theorem C74_delta_sat_partial (D : Dom) (I : Interp) (hv : List Char → Option ℚ) (A : Actions)
    (dr : String → Option Dr.DProb) (fmt : ℚ → String) (mk : Opts → CCfg) (w : Main.World)
    (cl : Main.CmdLine) (name text : String) (hA : Asks w cl .smt2 name text)
    (hmk : ∀ o, EnvOk D I (mk o).env ∧ DblOk (mk o).th.dbl ∧ PicosatOk (mk o).ps ∧
      DiamOk (mk o).env.fp ∧ DiamZero (mk o).env.fp ∧ (mk o).env.delta = o.precision.get)
    (l1 l2 : List Main.Line) (δ : ℚ) (m : Box) (hδ : 0 ≤ δ) (e : Run Nat)
    (h : programX hv A dr fmt mk w cl = (l1 ++ .deltaSat (some δ) (some m) :: l2, e)) :
    ∃ pre post, (readScript hv A text).1 = pre ++ .core .check :: post ∧
      (exec fmt mk pre { opts := cl.extract }).1 = l1 ∧
      ∀ cs s S, (∀ c ∈ cs, IsSetting c) → Runs pre (cs ++ s.map .core) → TidyScript s →
        (∀ o d, o.precision.get = δ → run (idsTaken (mk o)) s {} = .ok d →
          Covered d.log ∧ CondLog (mk o) S d.log ∧
          (∀ v b, .declare v b ∈ callsInForce d.log → v.type = .continuous ∨ v.type = .boolean) ∧
          ∀ as c b r, runCmds (mk o) (Ctx.init 0) d.log = .ok (as, c) →
            checkCore (mk o) c = .ok (some b, r) →
            (∀ a e, S a e → ¬ StuckOn (mk o).env (mk o).th b a e) ∧
            ∀ v ∈ b.vars, v ∉ m.vars → ∃ x : ℝ, InItv x (b.getV v)) →
        δ = askedPrecision cl cs ∧ askedFlag cl cs .produceModels = true ∧
        ∃ o d, o.precision.get = δ ∧ run (idsTaken (mk o)) s {} = .ok d ∧
        ∀ ρ, InBox ρ m → ∃ ρ1 : Valuation, (∀ v ∈ m.vars, ρ1 v = ρ v) ∧
          (∀ v l u, .setInterval v l u ∈ callsInForce d.log → InItv (ρ1 v) ⟨l, u⟩) ∧
          ∀ f, .assert f ∈ callsInForce d.log → DefC D I δ ρ1 f → weakC I δ ρ1 true f := by
  rw [C74_program hv A dr fmt mk w cl name text hA, Prod.mk.injEq] at h
  obtain ⟨pre, post, h1, h2, h3⟩ := exec_line (Prod.ext h.1 rfl)
  refine ⟨pre, post, h1, exec_before h2 h3, fun cs s S hs hp hts hc => ?_⟩
  exact C69_delta_sat_partial D I ⟨fun _ => cs ++ (s ++ [SCmd.check]).map .core, fun _ => none⟩ fmt mk w
    cl name text hA cs hs s rfl hmk hts S 0 l1 δ m hδ (line_program hA hp h3) hc

/-- C74 for a line `unsat` printed by a check directly behind an objective: the problem stated before the
objective has no solution at which the objective is best, unless one that is not ordinary.  Missing:
options set between other commands, and what is missing in `C60_unsat_partial`. -/
theorem C74_optimum_partial (D : Dom) (I : Interp) (hv : List Char → Option ℚ) (A : Actions)
    (dr : String → Option Dr.DProb) (fmt : ℚ → String) (mk : Opts → CCfg) (w : Main.World)
    (cl : Main.CmdLine) (name text : String) (hA : Asks w cl .smt2 name text)
    (hmk : ∀ o, EnvOk D I (mk o).env ∧ DblOk (mk o).th.dbl ∧ PicosatOk (mk o).ps)
    (l1 l2 : List Main.Line) (e : Run Nat)
    (h : programX hv A dr fmt mk w cl = (l1 ++ .unsat :: l2, e)) :
    ∃ pre post, (readScript hv A text).1 = pre ++ .core .check :: post ∧
      (exec fmt mk pre { opts := cl.extract }).1 = l1 ∧
      ∀ p max t cs s, pre = p ++ [.optimise max t] → (∀ c ∈ cs, IsSetting c) →
        Runs p (cs ++ s.map .core) → TidyScript s → LetFree t → Tame t → InScope s [t] →
        (∀ o d, o.precision.get = askedPrecision cl cs → run (idsTaken (mk o)) s {} = .ok d →
          Covered d.log ∧ ExactLog (mk o).th.dbl d.log ∧
          (∀ x d', tr (idsTaken (mk o)) t d = .ok (.expr x, d') → ExactObj x ∧ EverywhereLog D I d.log x) ∧
          ∀ ρ, Fulfils I d.log ρ → Ordinary D I (mk o).th.dbl d.log ρ) →
        ∀ xs, ¬ OptimumOf I (inForce s) max t xs := by
  rw [C74_program hv A dr fmt mk w cl name text hA, Prod.mk.injEq] at h
  obtain ⟨pre, post, h1, h2, h3⟩ := exec_line (Prod.ext h.1 rfl)
  refine ⟨pre, post, h1, exec_before h2 h3, ?_⟩
  rintro p max t cs s rfl hs hp hts hlf htm hsc hc xs hx
  rw [List.append_assoc] at h3
  obtain ⟨f1, o, r, e1, rfl, e2, e3⟩ := exec_opt hp (fun k => h2 (by simp [k])) hs h3
  have hpr : o.precision.get = askedPrecision cl cs := by
    obtain ⟨g1, -⟩ := Verif.Proof.Main.runF_asked cs e1 (Verif.Proof.Main.asked_extract cl)
      (fun i _ => rfl)
    simpa [askedPrecision, Main.FState.now] using g1.prec
  have hr : r = none := by
    cases r with
    | none => rfl
    | some m =>
      simp only [Main.smt2Line] at e3
      split at e3 <;> cases e3
  subst hr
  obtain ⟨he, hd, hps⟩ := hmk o
  have e4 := e2
  unfold solveOpt at e4
  obtain ⟨d, h5, -⟩ := bindR_ok e4
  have h5 := lift_ok h5
  obtain ⟨c1, c2, c3, c4⟩ := hc o d hpr h5
  obtain ⟨⟨ρ, k1, k2⟩, k3⟩ := C60_unsat_partial D I (mk o) he hd hps s d max t h5 hts c1 c2 hlf htm hsc c3
    e2 xs hx
  exact k3 ρ k1 k2 (c4 ρ k1)

/-- The tokens of a file as `demoToks`, with an error behind its checks: `(assert x)` for a real `x`. -/
def badToks : List Tok := demoToks.take (demoToks.length - 3) ++ [.lp, .assert, .sym "x", .rp, .lp, .checkSat, .rp]

/-- Its commands. -/
def badCmds : List PCmd :=
  (demoScript ++ [SCmd.check]).map .core ++ [.core (.assert (.sym "x")), .core .check]

theorem badToks_reads : script plainActions badToks = (badCmds, true) := rfl

theorem badToks_writes : ∀ t ∈ badToks, ∃ w, Writes noHex t w := by
  have : ∀ t ∈ badToks, t ∈ demoToks := by decide +kernel
  exact fun t ht => demoToks_writes t (this t ht)

/-- There is a file with these commands. -/
theorem bad_text : ∃ text, readScript noHex plainActions text = (badCmds, true) := by
  obtain ⟨us, rest, h1, h2, h3⟩ := (C72_script _ _ _).1 badToks_reads
  refine C73_writable noHex plainActions us badCmds (fun t ht => badToks_writes t ?_) h2
  rw [h1]
  simp [ht]

/-- What is printed, and whether the execution ends with an exception. -/
def badEnd : List Main.Line × Bool :=
  let r := exec (fun _ => "") demoMk badCmds { opts := (demoLine "a.smt2").extract }
  (r.1, match r.2 with
    | .throw => true
    | _ => false)

theorem badEnd_eq : badEnd = ([.deltaSat (some 1) none, .unsat], true) := by decide +kernel

theorem bad_exec : exec (fun _ => "") demoMk badCmds { opts := (demoLine "a.smt2").extract } =
    ([.deltaSat (some 1) none, .unsat], .throw) := by
  have h := badEnd_eq
  unfold badEnd at h
  rw [Prod.mk.injEq] at h
  refine Prod.ext h.1 ?_
  have h2 := h.2
  split at h2
  · assumption
  · cases h2

theorem asks_any (text : String) :
    Asks ⟨fun _ => some text, ""⟩ (demoLine "a.smt2") .smt2 "a.smt2" text :=
  ⟨rfl, ⟨rfl, rfl, rfl⟩, rfl, by decide, rfl, .inr ⟨rfl, "a", .inl ⟨rfl, rfl⟩⟩⟩

/-- The second line is printed by the second check. -/
theorem bad_pre {pre post} (h1 : badCmds = pre ++ .core .check :: post)
    (h2 : (exec (fun _ => "") demoMk pre { opts := (demoLine "a.smt2").extract }).1 =
      [.deltaSat (some 1) none]) : pre = demoScript.map .core := by
  match pre, h1 with
  | [], h1 => simp [badCmds, demoScript] at h1
  | [a], h1 =>
    simp only [badCmds, demoScript, List.map_cons, List.cons_append, List.cons.injEq] at h1
    rw [← h1.1] at h2
    have : (exec (fun _ => "") demoMk (badCmds.take 1)
      { opts := (demoLine "a.smt2").extract }).1 = [] := by decide +kernel
    have e := h2.symm.trans this
    cases e
  | [a, b], h1 => simp [badCmds, demoScript] at h1
  | [a, b, c], h1 => simp [badCmds, demoScript] at h1
  | [a, b, c, d], h1 =>
    simp only [badCmds, demoScript, List.map_cons, List.cons_append, List.cons.injEq] at h1
    simp [demoScript, h1]
  | [a, b, c, d, e], h1 => simp [badCmds, demoScript] at h1
  | [a, b, c, d, e, f], h1 =>
    simp only [badCmds, demoScript, List.map_cons, List.map_nil, List.nil_append, List.cons_append,
      List.cons.injEq] at h1
    rw [← h1.1, ← h1.2.1, ← h1.2.2.1, ← h1.2.2.2.1, ← h1.2.2.2.2.1, ← h1.2.2.2.2.2.1] at h2
    have : (exec (fun _ => "") demoMk (badCmds.take 6)
      { opts := (demoLine "a.smt2").extract }).1 = [.deltaSat (some 1) none, .unsat] := by
      decide +kernel
    have e := h2.symm.trans this
    cases e
  | _ :: _ :: _ :: _ :: _ :: _ :: _ :: _, h1 => simp [badCmds, demoScript] at h1

/-- The second line of `bad_exec` is printed for every file that begins with the same commands. -/
example (text' : String) (post : List PCmd)
    (h : (readScript noHex plainActions text').1 = demoScript.map .core ++ .core .check :: post) :
    ∃ l e, execText noHex plainActions (fun _ => "") demoMk (demoLine "a.smt2").extract text' =
      ([.deltaSat (some 1) none] ++ .unsat :: l, e) := by
  obtain ⟨text, ht⟩ := bad_text
  have hx : execText noHex plainActions (fun _ => "") demoMk (demoLine "a.smt2").extract text =
      ([.deltaSat (some 1) none] ++ .unsat :: [], .throw) := by
    rw [execText, ht, bad_exec]
    rfl
  obtain ⟨pre, post', h1, -, h2, h3⟩ := C74_line _ _ _ _ _ _ _ _ _ _ hx
  rw [ht] at h1
  obtain rfl := bad_pre h1 h2
  exact h3 text' post h

/-- The hypotheses of `C74_unsat_partial` are met: for a file with these commands the program prints
`unsat` and then fails, and `unsat` is right. -/
example (D : Dom) (I : Interp) : ∃ text, programX noHex plainActions (fun _ => none) (fun _ => "") demoMk
      ⟨fun _ => some text, ""⟩ (demoLine "a.smt2") = ([.deltaSat (some 1) none, .unsat], .throw) ∧
    ∀ xs, ¬ stated I (inForce demoScript) xs := by
  obtain ⟨text, ht⟩ := bad_text
  have hA := asks_any text
  have hp : programX noHex plainActions (fun _ => none) (fun _ => "") demoMk
      ⟨fun _ => some text, ""⟩ (demoLine "a.smt2") = ([.deltaSat (some 1) none] ++ .unsat :: [], .throw) := by
    rw [C74_program noHex plainActions _ _ demoMk _ _ "a.smt2" text hA, execText, ht, bad_exec]
    rfl
  refine ⟨text, hp, ?_⟩
  obtain ⟨d, hd, hlog⟩ : ∃ d, run (idsTaken demoCfg) demoScript {} = .ok d ∧ d.log = demoScriptLog :=
    logOf_some (by decide +kernel)
  obtain ⟨pre, post, h1, h2, h3⟩ := C74_unsat_partial D I noHex plainActions (fun _ => none) (fun _ => "")
    demoMk _ _ "a.smt2" text hA (fun o => ⟨demoMk_ok D I o, quarterDbl_ok, demoSat_ok⟩) _ _ _ hp
  rw [ht] at h1
  have hpre := bad_pre h1 h2
  subst hpre
  refine h3 [] demoScript (by simp) (by repeat constructor) (tidy_of_tame demoScript_tame hd).1
    fun o d' ho hr => ?_
  rw [demoMk_one (by rw [ho]; decide +kernel)] at hr ⊢
  rw [hd] at hr
  simp only [Outcome.ok.injEq] at hr
  subst hr
  rw [hlog]
  exact ⟨demoScript_covered, fun ρ _ => demoScript_ordinary D I _ ρ⟩

/-- The tokens of a file with an objective:
`(declare-fun x () Real) (assert (<= x 5)) (minimize x) (check-sat)`. -/
def omToks : List Tok :=
  [.lp, .declareFun, .sym "x", .lp, .rp, .sym "Real", .rp,
   .lp, .assert, .lp, .rel .le, .sym "x", .int 5, .rp, .rp,
   .lp, .minimize, .sym "x", .rp, .lp, .checkSat, .rp]

/-- Its commands. -/
def omCmds : List PCmd := omScript.map .core ++ [.optimise false (.sym "x"), .core .check]

theorem omToks_reads : script plainActions omToks = (omCmds, true) := rfl

theorem om_text : ∃ text, readScript noHex plainActions text = (omCmds, true) := by
  obtain ⟨us, rest, h1, h2, h3⟩ := (C72_script _ _ _).1 omToks_reads
  refine C73_writable noHex plainActions us omCmds (fun t ht => ?_) h2
  have hf : ∀ (t : Tok) (s : String), s ∈ words t → ∃ w, Writes noHex t w :=
    fun t s h => ⟨_, .fixed h⟩
  have hall : ∀ t ∈ omToks, t ∈ demoToks ∨ t = .rel .le ∨ t = .int 5 ∨ t = .minimize := by
    decide +kernel
  rcases hall t (by rw [h1]; simp [ht]) with h | rfl | rfl | rfl
  · exact demoToks_writes t h
  · exact hf _ "<=" (by decide)
  · exact ⟨['5'], .int ⟨[], ['5'], rfl, .inl rfl, .inr ⟨'5', [], rfl, by decide, by decide, by simp⟩⟩
      (by decide +kernel)⟩
  · exact hf _ "minimize" (by decide)

/-- The names after the declaration, and after the assertion. -/
def omD0 : Drv := (({} : Drv).register "x" .real).2.call (fun _ => 0) (.declare omX true)
def omD1 : Drv := { omD0 with log := [.assert omFive] }

theorem om_exec : exec (fun _ => "") (fun _ => omCfg) omCmds { opts := (demoLine "a.smt2").extract } =
    ([.unsat], .ok ()) := by
  obtain ⟨s, hs, h, -⟩ := om_sat
  obtain ⟨c, hc⟩ := answerOf_unsat h
  generalize (demoLine "a.smt2").extract = o
  have h0 : stepP (fun _ => "") (fun _ => omCfg) { opts := o } (.core (.declare "x" .real none)) =
      .ok ([], ⟨omD0, o, om0⟩) := rfl
  have h1 : stepP (fun _ => "") (fun _ => omCfg) ⟨omD0, o, om0⟩
      (.core (.assert (.rel .le (.sym "x") (.num 5)))) = .ok ([], ⟨omD1, o, om1⟩) := by
    have e : step (idsTakenFrom omCfg om0) { omD0 with log := [] }
        (.assert (.rel .le (.sym "x") (.num 5))) = .ok omD1 := rfl
    simp only [stepP, e, Run.lift, Run.bind_ok, XState.calls, omD1, runCmds, stepCmd, om_assert,
      List.append_nil, List.map_nil]
  have h2 : stepP (fun _ => "") (fun _ => omCfg) ⟨omD1, o, om1⟩ (.optimise false (.sym "x")) =
      .ok ([], ⟨{ omD1 with log := [], next := (om3 s).sat.abs.next }, o, om3 s⟩) := by
    have e : tr (idsTakenFrom omCfg om1) (.sym "x") { omD1 with log := [] } =
        .ok (.expr (.var omX), { omD1 with log := [] }) := rfl
    simp only [stepP, e, Run.lift, Run.bind_ok, XState.calls, runCmds, List.map_nil, optimise,
      Bool.false_eq_true, if_false, om_minimize hs]
  have h3 : stepP (fun _ => "") (fun _ => omCfg)
      ⟨{ omD1 with log := [], next := (om3 s).sat.abs.next }, o, om3 s⟩ (.core .check) =
      .ok ([.unsat], ⟨({ omD1 with log := [], next := (om3 s).sat.abs.next } : Drv).call
        (idsTakenFrom omCfg (om3 s)) .check, o, c⟩) := by
    simp only [stepP, step, Drv.call, Run.lift, Run.bind_ok, XState.calls, List.nil_append,
        runCmds, stepCmd, hc, List.append_nil, List.map_cons, List.map_nil, Main.smt2Line]
  simp only [omCmds, omScript, List.map_cons, List.map_nil, List.cons_append, List.nil_append, exec, h0,
    h1, h2, h3, List.append_nil]

/-- The hypotheses of `C74_optimum_partial` are met: for a file with these commands the program prints
`unsat`, and there is no least `x ≤ 5`. -/
example (D : Dom) (I : Interp) : ∃ text, programX noHex plainActions (fun _ => none) (fun _ => "")
      (fun _ => omCfg) ⟨fun _ => some text, ""⟩ (demoLine "a.smt2") = ([.unsat], .ok 0) ∧
    ∀ xs, ¬ OptimumOf I (inForce omScript) false (.sym "x") xs := by
  obtain ⟨text, ht⟩ := om_text
  have hA := asks_any text
  have hp : programX noHex plainActions (fun _ => none) (fun _ => "") (fun _ => omCfg)
      ⟨fun _ => some text, ""⟩ (demoLine "a.smt2") = ([] ++ .unsat :: [], .ok 0) := by
    rw [C74_program noHex plainActions _ _ _ _ _ "a.smt2" text hA, execText, ht, om_exec]
    rfl
  refine ⟨text, hp, ?_⟩
  obtain ⟨he, hd, hps, h1, h2, h3, h4, -, -, d, h5, h6, h7, h8, h9⟩ := om_meets D I
  obtain ⟨pre, post, k1, -, k2⟩ := C74_optimum_partial D I noHex plainActions (fun _ => none)
    (fun _ => "") (fun _ => omCfg) _ _ "a.smt2" text hA (fun _ => ⟨he, hd, hps⟩) _ _ _ hp
  rw [ht] at k1
  have hpre : pre = omScript.map .core ++ [.optimise false (.sym "x")] := by
    match pre, k1 with
    | [], k1 => simp [omCmds, omScript] at k1
    | [a], k1 => simp [omCmds, omScript] at k1
    | [a, b], k1 => simp [omCmds, omScript] at k1
    | [a, b, c], k1 =>
      simp only [omCmds, omScript, List.map_cons, List.map_nil, List.cons_append, List.nil_append,
        List.cons.injEq] at k1
      simp [omScript, k1]
    | _ :: _ :: _ :: _ :: _, k1 => simp [omCmds, omScript] at k1
  refine k2 _ false (.sym "x") [] omScript hpre (by simp) (by repeat constructor) h1 h2 h3 h4
    fun o d' _ hr => ?_
  rw [h5] at hr
  cases hr
  refine ⟨h6, h7, h8, fun ρ hρ => h9 ρ ?_⟩
  obtain ⟨d2, h10, hl⟩ := logOf_some (cfg := omCfg) (s := omScript) (l := omLog) (by decide +kernel)
  rw [h5] at h10
  cases h10
  rw [hl] at hρ
  have := hρ (.assert omFive) (by simp [omLog])
  simpa [CmdHolds, omFive, relSem, eval] using this

/-- The tokens of a file as `hiddenToks`, with an error behind its check. -/
def lateToks : List Tok := hiddenToks ++ [.lp, .assert, .sym "x", .rp]

/-- Its commands before the check. -/
def latePre : List PCmd :=
  .setStr ":produce-models" "true" :: .logic "QF_NRA" :: hiddenScript.map PCmd.core

theorem lateToks_reads : script quotActions lateToks =
    (latePre ++ .core .check :: [.core (.assert (.sym "x"))], true) := rfl

theorem late_text : ∃ text, readScript noHex quotActions text =
    (latePre ++ .core .check :: [.core (.assert (.sym "x"))], true) := by
  obtain ⟨us, rest, h1, h2, h3⟩ := (C72_script _ _ _).1 lateToks_reads
  refine C73_writable noHex quotActions us _ (fun t ht => ?_) h2
  have : ∀ t ∈ lateToks, t ∈ hiddenToks := by decide +kernel
  exact hiddenToks_writes t (this t (by rw [h1]; simp [ht]))

/-- What is printed, and whether the execution ends with an exception. -/
def lateEnd : List Main.Line × Bool :=
  let r := exec (fun _ => "") demoMk (latePre ++ .core .check :: [.core (.assert (.sym "x"))])
    { opts := (demoLine "a.smt2").extract }
  (r.1, match r.2 with
    | .throw => true
    | _ => false)

theorem lateEnd_eq : lateEnd = ([.deltaSat (some 1) (some hiddenModel)], true) := by decide +kernel

theorem late_exec : exec (fun _ => "") demoMk (latePre ++ .core .check :: [.core (.assert (.sym "x"))])
    { opts := (demoLine "a.smt2").extract } =
    ([.deltaSat (some 1) (some hiddenModel)], .throw) := by
  have h := lateEnd_eq
  unfold lateEnd at h
  rw [Prod.mk.injEq] at h
  refine Prod.ext h.1 ?_
  have h2 := h.2
  split at h2
  · assumption
  · cases h2

/-- The hypotheses of `C74_delta_sat_partial` are met: for a file with these commands the program prints
a model and then fails, and the model is right. -/
example (D : Dom) (I : Interp) : ∃ d, run (idsTaken demoCfg) hiddenScript {} = .ok d ∧
    ∀ ρ, InBox ρ hiddenModel → ∃ ρ1 : Valuation, (∀ v ∈ hiddenModel.vars, ρ1 v = ρ v) ∧
      (∀ v l u, .setInterval v l u ∈ callsInForce d.log → InItv (ρ1 v) ⟨l, u⟩) ∧
      ∀ f, .assert f ∈ callsInForce d.log → DefC D I 1 ρ1 f → weakC I 1 ρ1 true f := by
  obtain ⟨text, ht⟩ := late_text
  have hA := asks_any text
  have hp : programX noHex quotActions (fun _ => none) (fun _ => "") demoMk
      ⟨fun _ => some text, ""⟩ (demoLine "a.smt2") =
        ([] ++ .deltaSat (some 1) (some hiddenModel) :: [], .throw) := by
    rw [C74_program noHex quotActions _ _ demoMk _ _ "a.smt2" text hA, execText, ht, late_exec]
    rfl
  obtain ⟨d, hd, hlog⟩ := logOf_some (cfg := demoCfg) (s := hiddenScript) (l := hiddenLog)
    (by decide +kernel)
  obtain ⟨pre, post, h1, -, h3⟩ := C74_delta_sat_partial D I noHex quotActions (fun _ => none)
    (fun _ => "") demoMk _ _ "a.smt2" text hA
    (fun o => ⟨demoMk_ok D I o, quarterDbl_ok, demoSat_ok, exactFp_diamOk, exactFp_diamZero, rfl⟩) _ _ 1
    hiddenModel (by norm_num) _ hp
  rw [ht] at h1
  have hpre : pre = latePre := by
    have hn : PCmd.core .check ∉ latePre := by simp [latePre, hiddenScript]
    have h2 : latePre ++ [PCmd.core .check, .core (.assert (.sym "x"))] = pre ++ .core .check :: post := h1
    rcases List.append_eq_append_iff.1 h2 with ⟨l, e1, e2⟩ | ⟨l, e1, e2⟩
    · match l, e2 with
      | [], _ => simpa using e1
      | [_], e2 => simp at e2
      | _ :: _ :: _, e2 => simp at e2
    · match l, e2 with
      | [], _ => simpa using e1.symm
      | y :: l, e2 =>
        simp only [List.cons_append, List.cons.injEq] at e2
        exact absurd (by rw [e1, ← e2.1]; simp) hn
  subst hpre
  obtain ⟨-, -, o, d', h4, h5, h6⟩ := h3 [.setStr ":produce-models" "true"] hiddenScript hiddenS
    (by simp [IsSetting]) (by repeat constructor)
    (tidy_of_tame (by simp [hiddenScript, TameScript, Tame, Tames]) hd).1 hidden_meets
  rw [demoMk_one h4] at h5
  exact ⟨d', h5, by simpa only [Rat.cast_one] using h6⟩

end Verif.Props
