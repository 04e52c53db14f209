import Verif.Proof.Main
import Verif.Props.CondFront

/-! # C69: the program

What `dreal` prints for a command line and files: which text is solved, with which options, and what
its answers say. -/

namespace Verif.Props
open Verif Verif.Model Verif.Model.Main Verif.Model.Smt2 Verif.Spec Verif.Spec.Smt2
open Verif.Spec.Main Verif.Proof Verif.Proof.Smt2 Verif.Proof.Main

/-- C69: the status is 0 or 1, and with 1 nothing has been printed. -/
theorem C69_status (rd : Readers) (fmt : ℚ → String) (mk : Opts → CCfg) (w : World) (cl : CmdLine)
    (n : Nat) (ls : List Line) (h : program rd fmt mk w cl = .ok (n, ls)) :
    n = 0 ∨ (n = 1 ∧ ls = []) := by
  unfold program at h
  split at h
  · rename_i k hk
    simp only [Run.ok.injEq, Prod.mk.injEq] at h
    obtain ⟨rfl, rfl⟩ := h
    unfold task at hk
    simp only at hk
    split_ifs at hk <;> simp only [Task.done.injEq] at hk <;> simp [← hk]
  · split at h
    · simp only [Run.ok.injEq, Prod.mk.injEq] at h
      exact .inl h.1.symm
    · obtain ⟨r, -, h⟩ := bindR_ok h
      simp only [Run.ok.injEq, Prod.mk.injEq] at h
      exact .inl h.1.symm
  · split at h
    · simp only [Run.ok.injEq, Prod.mk.injEq] at h
      exact .inl h.1.symm
    · obtain ⟨r, -, h⟩ := bindR_ok h
      simp only [Run.ok.injEq, Prod.mk.injEq] at h
      exact .inl h.1.symm

theorem asks_args {w cl fm name text} (h : Asks w cl fm name text) : cl.args = [name] := by
  unfold CmdLine.args
  rw [if_pos h.ok, h.arg]

theorem asks_valid {w cl fm name text} (h : Asks w cl fm name text) : cl.validate = true := by
  unfold CmdLine.validate
  simp [h.ok, h.plain, asks_args h]

theorem asks_dr {w cl name text} (h : Asks w cl .dr name text) : task w cl = .dr name := by
  unfold task
  obtain ⟨h1, h2, h3⟩ := h.plain
  simp only [h1, h2, h3, asks_valid h, asks_args h, h.file, List.headD_cons, Bool.not_true]
  simp only [Bool.false_eq_true, if_false, List.isEmpty_cons, Bool.not_false, Bool.true_and,
    decide_eq_true_eq, h.named, Option.isNone_some, or_false]
  rcases h.format with e | ⟨e, stem, ⟨e2, -⟩ | ⟨-, e2⟩⟩
  · simp [e]
  · cases e2
  · have := extension_append (stem := stem) (e := "dr") (by decide)
    rw [String.append_assoc] at this
    have e3 : extension name = "dr" := by rw [e2]; exact this
    simp [e, e3]

/-- C69: if the command line asks to solve a file, it is solved in the format asked for. -/
theorem C69_asked (rd : Readers) (fmt : ℚ → String) (mk : Opts → CCfg) (w : World) (cl : CmdLine)
    (name text : String) :
    (Asks w cl .smt2 name text → program rd fmt mk w cl =
      (answers fmt mk cl.extract (rd.smt2 text)).bind fun ls => .ok (0, ls)) ∧
    ∀ p, rd.dr text = some p → Asks w cl .dr name text → program rd fmt mk w cl =
      (Dr.solve (mk cl.extract) p).bind fun r => .ok (0, [drLine cl.extract r]) := by
  refine ⟨fun h => ?_, fun p hp h => ?_⟩
  · have ht : task w cl = .smt2 name := by
      unfold task
      obtain ⟨h1, h2, h3⟩ := h.plain
      simp only [h1, h2, h3, asks_valid h, asks_args h, h.file, List.headD_cons, Bool.not_true]
      simp only [Bool.false_eq_true, if_false, List.isEmpty_cons, Bool.not_false, Bool.true_and,
        decide_eq_true_eq, h.named, Option.isNone_some, or_false]
      rw [if_pos]
      rcases h.format with e | ⟨e, stem, ⟨-, e2⟩ | ⟨e2, -⟩⟩
      · exact .inl e
      · refine .inr ⟨e, ?_⟩
        have := extension_append (stem := stem) (e := "smt2") (by decide)
        rw [String.append_assoc] at this
        rw [e2]; exact this
      · cases e2
    unfold program
    rw [ht]
    simp only [World.read, h.named, if_false, h.file]
    rfl
  · have ht := asks_dr h
    unfold program
    rw [ht]
    simp only [World.read, h.named, if_false, h.file, Option.bind_some, hp]
    rfl

/-- The tasks are what is asked for. -/
theorem task_asks {w : World} {cl : CmdLine} (hin : cl.fromIn = false) :
    ∀ file, (task w cl = .smt2 file ∨ task w cl = .dr file) → ∃ text,
      w.read file = some text ∧ (task w cl = .smt2 file → Asks w cl .smt2 file text) ∧
      (task w cl = .dr file → Asks w cl .dr file text) := by
  intro file ht
  unfold task at ht
  simp only [hin, Bool.not_false, Bool.true_and, or_false] at ht ⊢
  unfold task
  by_cases h1 : cl.version = true
  · simp [h1] at ht
  by_cases h2 : cl.help = true
  · simp [h1, h2] at ht
  by_cases h3 : cl.validate = true
  swap
  · simp [h1, h2, h3] at ht
  have hp : cl.parsed = true := by
    by_contra hp
    unfold CmdLine.validate at h3
    simp [hp] at h3
  obtain ⟨a, ha⟩ : ∃ a, cl.args = [a] := by
    unfold CmdLine.validate at h3
    simp only [hp, h1, h2, hin] at h3
    match hh : cl.args with
    | [] => simp [hh] at h3
    | [a] => exact ⟨a, rfl⟩
    | _ :: _ :: _ => simp [hh] at h3
  have ha' : cl.first ++ cl.unknown ++ cl.last = [a] := by
    unfold CmdLine.args at ha
    rwa [if_pos hp] at ha
  simp only [Bool.not_eq_true] at h1 h2
  simp only [h1, h2, h3, ha, hin, List.headD_cons, List.isEmpty_cons, Bool.not_false, Bool.true_and,
    Bool.not_true, Bool.false_eq_true, if_false, decide_eq_true_eq, or_false] at ht ⊢
  by_cases h4 : a = ""
  · simp [h4] at ht
  cases h5 : w.files a with
  | none => simp [h4, h5] at ht
  | some text =>
    simp only [h4, if_false, h5, Option.isNone_some, Bool.false_eq_true] at ht ⊢
    have base : ∀ fm, (cl.format = fm ∨ (cl.format = .auto ∧ ∃ stem : String,
        (fm = .smt2 ∧ a = stem ++ ".smt2") ∨ (fm = .dr ∧ a = stem ++ ".dr"))) →
        Asks w cl fm a text := fun fm hf =>
      ⟨hp, ⟨h1, h2, hin⟩, ha', h4, h5, hf⟩
    have hfile : file = a := by
      rcases ht with ht | ht <;> split_ifs at ht <;> simp_all
    subst hfile
    refine ⟨text, by simp [World.read, h4, h5], fun h => base _ ?_, fun h => base _ ?_⟩
    · split_ifs at h with c1
      rcases c1 with c1 | ⟨c1, c2⟩
      · exact .inl c1
      · obtain ⟨stem, e⟩ := extension_split (by decide) c2
        exact .inr ⟨c1, stem, .inl ⟨rfl, by rw [e, String.append_assoc]; rfl⟩⟩
    · split_ifs at h with c0 c1
      rcases c1 with c1 | ⟨c1, c2⟩
      · exact .inl c1
      · obtain ⟨stem, e⟩ := extension_split (by decide) c2
        exact .inr ⟨c1, stem, .inr ⟨rfl, by rw [e, String.append_assoc]; rfl⟩⟩

/-- C69: without `--in`, and if neither the version nor help is asked for, a command line that does not
ask to solve a file is refused: the status is 1. -/
theorem C69_refused (rd : Readers) (fmt : ℚ → String) (mk : Opts → CCfg) (w : World) (cl : CmdLine)
    (hv : cl.version = false ∧ cl.help = false) (hin : cl.fromIn = false)
    (h : ∀ name text, ¬ Asks w cl .smt2 name text ∧ ¬ Asks w cl .dr name text) :
    program rd fmt mk w cl = .ok (1, []) := by
  unfold program
  split
  · rename_i n hn
    unfold task at hn
    simp only [hv.1, hv.2, Bool.false_eq_true, if_false] at hn
    split_ifs at hn <;> simp only [Task.done.injEq] at hn <;> rw [← hn]
  · rename_i file hf
    obtain ⟨text, -, h1, -⟩ := task_asks hin file (.inl hf)
    exact absurd (h1 hf) (h file text).1
  · rename_i file hf
    obtain ⟨text, -, -, h1⟩ := task_asks hin file (.inr hf)
    exact absurd (h1 hf) (h file text).2

/-- A command line with two files asks for nothing. -/
example (w : World) (name text : String) : ¬ Asks w { last := ["a.smt2", "b.smt2"] } .smt2 name text ∧
    ¬ Asks w { last := ["a.smt2", "b.smt2"] } .dr name text :=
  ⟨fun h => absurd h.arg (by simp), fun h => absurd h.arg (by simp)⟩

/-- C69: without `--in` everything printed answers a file that the command line asks to solve. -/
theorem C69_printed (rd : Readers) (fmt : ℚ → String) (mk : Opts → CCfg) (w : World) (cl : CmdLine)
    (n : Nat) (ls : List Line) (hin : cl.fromIn = false)
    (h : program rd fmt mk w cl = .ok (n, ls)) (hl : ls ≠ []) :
    ∃ name text, (Asks w cl .smt2 name text ∧ answers fmt mk cl.extract (rd.smt2 text) = .ok ls) ∨
      ∃ p r, Asks w cl .dr name text ∧ rd.dr text = some p ∧ Dr.solve (mk cl.extract) p = .ok r ∧
        ls = [drLine cl.extract r] := by
  unfold program at h
  split at h
  · simp only [Run.ok.injEq, Prod.mk.injEq] at h
    exact absurd h.2.symm hl
  · rename_i file hf
    obtain ⟨text, h1, h2, -⟩ := task_asks hin file (.inl hf)
    rw [h1] at h
    obtain ⟨r, h3, h⟩ := bindR_ok h
    simp only [Run.ok.injEq, Prod.mk.injEq] at h
    exact ⟨file, text, .inl ⟨h2 hf, by rw [h3, h.2]⟩⟩
  · rename_i file hf
    obtain ⟨text, h1, -, h2⟩ := task_asks hin file (.inr hf)
    rw [h1] at h
    simp only [Option.bind_some] at h
    split at h
    · simp only [Run.ok.injEq, Prod.mk.injEq] at h
      exact absurd h.2.symm hl
    · rename_i p hp
      obtain ⟨r, h3, h⟩ := bindR_ok h
      simp only [Run.ok.injEq, Prod.mk.injEq] at h
      exact ⟨file, text, .inr ⟨p, r, h2 hf, hp, h3, h.2.symm⟩⟩

/-- C69: with `--in` and no other argument the standard input is solved. -/
theorem C69_stdin (rd : Readers) (fmt : ℚ → String) (mk : Opts → CCfg) (w : World) (cl : CmdLine)
    (hp : cl.parsed = true) (hv : cl.version = false ∧ cl.help = false) (hin : cl.fromIn = true)
    (ha : cl.first ++ cl.unknown ++ cl.last = []) :
    (cl.format ≠ .dr → program rd fmt mk w cl =
      (answers fmt mk cl.extract (rd.smt2 w.stdin)).bind fun ls => .ok (0, ls)) ∧
    ∀ p, cl.format = .dr → rd.dr w.stdin = some p → program rd fmt mk w cl =
      (Dr.solve (mk cl.extract) p).bind fun r => .ok (0, [drLine cl.extract r]) := by
  have ha' : cl.args = [] := by unfold CmdLine.args; rw [if_pos hp, ha]
  have hval : cl.validate = true := by
    unfold CmdLine.validate
    simp [hp, hv, ha', hin]
  refine ⟨fun hf => ?_, fun p hf hd => ?_⟩
  · have ht : task w cl = .smt2 "" := by
      unfold task
      rw [hv.1, hv.2, hval, ha', hin]
      cases h : cl.format <;> simp_all
    unfold program
    rw [ht]
    rfl
  · have ht : task w cl = .dr "" := by
      unfold task
      rw [hv.1, hv.2, hval, ha', hin, hf]
      simp
    unfold program
    rw [ht]
    simp only [World.read, if_true, Option.bind_some, hd]
    rfl

/-- C69: the answer of a check in a file is that of the solver with the precision and the options
asked for there, whatever commands come before and wherever they set options. -/
theorem C69_options (rd : Readers) (fmt : ℚ → String) (mk : Opts → CCfg) (w : World) (cl : CmdLine)
    (name text : String) (hA : Asks w cl .smt2 name text) (cs : List FCmd) (he : .exit ∉ cs)
    (ht : rd.smt2 text = cs ++ [.core .check]) (n : Nat) (ls : List Line)
    (h : program rd fmt mk w cl = .ok (n, ls)) :
    ∃ ls' r c c' o, ls = ls' ++ [smt2Line o r] ∧ checkSat (mk o) c = .ok (r, c') ∧
      o.precision.get = askedPrecision cl cs ∧ ∀ b, (o.flag b).get = askedFlag cl cs b := by
  rw [(C69_asked rd fmt mk w cl name text).1 hA, ht] at h
  obtain ⟨ls2, h1, h2⟩ := bindR_ok h
  simp only [Run.ok.injEq, Prod.mk.injEq] at h2
  obtain ⟨ls', r, c, c', o, e1, e2, e3⟩ := answers_check he h1
  exact ⟨ls', r, c, c', o, by rw [← h2.2, e1], e2, e3.prec, e3.flag⟩

/-- C69: a file that sets its options first is answered as the script of its other commands. -/
theorem C69_script (rd : Readers) (fmt : ℚ → String) (mk : Opts → CCfg) (w : World) (cl : CmdLine)
    (name text : String) (hA : Asks w cl .smt2 name text) (cs : List FCmd)
    (hs : ∀ c ∈ cs, IsSetting c) (s : List SCmd) (ht : rd.smt2 text = cs ++ s.map .core) (n : Nat)
    (ls : List Line) (h : program rd fmt mk w cl = .ok (n, ls)) :
    ∃ o as, o.precision.get = askedPrecision cl cs ∧ (∀ b, (o.flag b).get = askedFlag cl cs b) ∧
      solve (mk o) s = .ok as ∧ ls = as.map (smt2Line o) := by
  rw [(C69_asked rd fmt mk w cl name text).1 hA, ht] at h
  obtain ⟨ls2, h1, h2⟩ := bindR_ok h
  simp only [Run.ok.injEq, Prod.mk.injEq] at h2
  obtain ⟨o, as, e1, e2, e3⟩ := answers_script hs h1
  exact ⟨o, as, e1.prec, e1.flag, e2, by rw [← h2.2, e3]⟩

/-- C69 for a last line `unsat`: the commands of the file in force have no solution.  Missing:
options set between other commands, and what is missing for scripts (see
`C54_no_solution_partial`). -/
theorem C69_unsat_partial (D : Dom) (I : Interp) (rd : Readers) (fmt : ℚ → String)
    (mk : Opts → CCfg) (w : World) (cl : CmdLine) (name text : String)
    (hA : Asks w cl .smt2 name text) (cs : List FCmd) (hs : ∀ c ∈ cs, IsSetting c)
    (s : List SCmd) (ht : rd.smt2 text = cs ++ (s ++ [SCmd.check]).map .core)
    (hmk : ∀ o, EnvOk D I (mk o).env ∧ DblOk (mk o).th.dbl ∧ PicosatOk (mk o).ps)
    (hts : TidyScript s)
    (hc : ∀ o d, o.precision.get = askedPrecision cl cs → run (idsTaken (mk o)) s {} = .ok d →
      Covered d.log ∧ ∀ ρ, Fulfils I (callsInForce d.log) ρ →
        Ordinary D I (mk o).th.dbl (callsInForce d.log) ρ)
    (n : Nat) (ls : List Line) (h : program rd fmt mk w cl = .ok (n, ls ++ [.unsat]))
    (xs : List ℝ) : ¬ stated I (inForce s) xs := by
  obtain ⟨o, as, e1, -, e2, e3⟩ := C69_script rd fmt mk w cl name text hA cs hs _ ht n _ h
  obtain ⟨he, hd, hp⟩ := hmk o
  have h2 := e2
  unfold solve at h2
  obtain ⟨d, h3, -⟩ := bindR_ok h2
  obtain ⟨d1, h4, -⟩ := run_append (lift_ok h3)
  rcases List.eq_nil_or_concat as with rfl | ⟨as', r, rfl⟩
  · simp at e3
  · rw [List.concat_eq_append, List.map_append] at e3
    obtain ⟨-, e4⟩ := List.append_inj' e3 rfl
    have hr : r = none := by
      cases r with
      | none => rfl
      | some m =>
        simp only [List.map_cons, List.map_nil, List.cons.injEq, and_true, smt2Line] at e4
        split at e4 <;> cases e4
    subst hr
    obtain ⟨h5, h6⟩ := hc o d1 e1 h4
    rw [List.concat_eq_append] at e2
    exact C54_no_solution_partial D I (mk o) he hd hp s d1 as' h4 hts h5 e2 h6 xs

/-- C69 for a last line `delta-sat with delta = δ` with a model: `δ` is the precision asked for, and
every point of the model extends to one in the stated bounds that satisfies the `δ`-weakening of the
asserted formulas in force whose terms have values there.  Missing: options set between other
commands, and what is missing for scripts (see `C54_conditional_partial`). -/
theorem C69_delta_sat_partial (D : Dom) (I : Interp) (rd : Readers) (fmt : ℚ → String)
    (mk : Opts → CCfg) (w : World) (cl : CmdLine) (name text : String)
    (hA : Asks w cl .smt2 name text) (cs : List FCmd) (hs : ∀ c ∈ cs, IsSetting c)
    (s : List SCmd) (ht : rd.smt2 text = cs ++ (s ++ [SCmd.check]).map .core)
    (hmk : ∀ o, EnvOk D I (mk o).env ∧ DblOk (mk o).th.dbl ∧ PicosatOk (mk o).ps ∧
      DiamOk (mk o).env.fp ∧ DiamZero (mk o).env.fp ∧ (mk o).env.delta = o.precision.get)
    (hts : TidyScript s) (S : Expr → Expr → Prop) (n : Nat) (ls : List Line) (δ : ℚ) (m : Box)
    (hδ : 0 ≤ δ) (h : program rd fmt mk w cl = .ok (n, ls ++ [.deltaSat (some δ) (some m)]))
    (hc : ∀ o d, o.precision.get = δ → run (idsTaken (mk o)) s {} = .ok d →
      Covered d.log ∧ CondLog (mk o) S d.log ∧
      (∀ v b, .declare v b ∈ callsInForce d.log → v.type = .continuous ∨ v.type = .boolean) ∧
      ∀ as c b r, runCmds (mk o) (Ctx.init 0) d.log = .ok (as, c) →
        checkCore (mk o) c = .ok (some b, r) →
        (∀ a e, S a e → ¬ StuckOn (mk o).env (mk o).th b a e) ∧
        ∀ v ∈ b.vars, v ∉ m.vars → ∃ x : ℝ, InItv x (b.getV v)) :
    δ = askedPrecision cl cs ∧ askedFlag cl cs .produceModels = true ∧
    ∃ o d, o.precision.get = δ ∧ run (idsTaken (mk o)) s {} = .ok d ∧
    ∀ ρ, InBox ρ m → ∃ ρ1 : Valuation, (∀ v ∈ m.vars, ρ1 v = ρ v) ∧
      (∀ v l u, .setInterval v l u ∈ callsInForce d.log → InItv (ρ1 v) ⟨l, u⟩) ∧
      ∀ f, .assert f ∈ callsInForce d.log → DefC D I δ ρ1 f → weakC I δ ρ1 true f := by
  obtain ⟨o, as, e1, ef, e2, e3⟩ := C69_script rd fmt mk w cl name text hA cs hs _ ht n _ h
  obtain ⟨he, hd, hp, hfp, hz, hdel⟩ := hmk o
  have h2 := e2
  unfold solve at h2
  obtain ⟨d, h3, -⟩ := bindR_ok h2
  obtain ⟨d1, h4, -⟩ := run_append (lift_ok h3)
  rcases List.eq_nil_or_concat as with rfl | ⟨as', r, rfl⟩
  · simp at e3
  rw [List.concat_eq_append, List.map_append] at e3
  obtain ⟨-, e4⟩ := List.append_inj' e3 rfl
  simp only [List.map_cons, List.map_nil, List.cons.injEq, and_true] at e4
  obtain ⟨hr, hpm, hpr⟩ : r = some m ∧ (o.flag .produceModels).get = true ∧ δ = o.precision.get := by
    cases r with
    | none => simp [smt2Line] at e4
    | some m' =>
      simp only [smt2Line] at e4
      split at e4
      · simp at e4
      · simp only [Line.deltaSat.injEq, Option.some.injEq] at e4
        obtain ⟨e4, e5⟩ := e4
        split at e5
        · rename_i hpm
          simp only [Option.some.injEq] at e5
          exact ⟨by rw [e5], hpm, e4⟩
        · cases e5
  subst hr
  refine ⟨hpr.trans e1, (ef _).symm.trans hpm, o, d1, hpr.symm, h4, fun ρ hρ => ?_⟩
  obtain ⟨h5, h6, h7, h8⟩ := hc o d1 hpr.symm h4
  rw [List.concat_eq_append] at e2
  have := C54_conditional_partial D I (mk o) he hd hp hfp hz (by rw [hdel, ← hpr]; exact hδ) S s d1
    as' m h4 hts h5 h6 h7 e2 (h8 as') ρ hρ
  rwa [hdel, ← hpr] at this

/-! ### What is wrong -/

/-- C69 fails for errors in the input: a file that cannot be read, because of an error in it, leaves
nothing on the standard output and the status 0, in both formats. -/
theorem C69_silent (rd : Readers) (fmt : ℚ → String) (mk : Opts → CCfg) (w : World) (cl : CmdLine)
    (name text : String) :
    (Asks w cl .dr name text → rd.dr text = none → program rd fmt mk w cl = .ok (0, [])) ∧
    (Asks w cl .smt2 name text → rd.smt2 text = [] → program rd fmt mk w cl = .ok (0, [])) := by
  refine ⟨fun hA hr => ?_, fun hA hr => ?_⟩
  · have ht := asks_dr hA
    unfold program
    rw [ht]
    simp only [World.read, hA.named, if_false, hA.file, Option.bind_some, hr]
  · rw [(C69_asked rd fmt mk w cl name text).1 hA, hr]
    rfl

/-- C69 fails for `--in` with an argument that is no option: a file of that name is opened instead
of the standard input, and if there is none, nothing is printed and the status is 0. -/
theorem C69_in_file (rd : Readers) (fmt : ℚ → String) (mk : Opts → CCfg) (w : World) (name : String)
    (hn : name ≠ "") (hw : w.files name = none) :
    program rd fmt mk w { unknown := [name], fromIn := true } = .ok (0, []) := by
  have ht : task w { unknown := [name], fromIn := true } = .smt2 name := by
    simp [task, CmdLine.validate, CmdLine.args, hn]
  unfold program
  rw [ht]
  simp [World.read, hn, hw]

/-! ### Concrete cases -/

def demoMk (o : Opts) : CCfg :=
  { demoCfg with env := { demoCfg.env with delta := o.precision.get } }

theorem demoMk_one {o : Opts} (h : o.precision.get = 1) : demoMk o = demoCfg := by
  unfold demoMk
  rw [h]
  rfl

theorem demoMk_ok (D : Dom) (I : Interp) (o : Opts) : EnvOk D I (demoMk o).env :=
  let h := demoEnv_ok D I
  ⟨h.ops, h.ib, h.loc, h.fa, h.faLoc, h.br, h.cut, h.noUnsat⟩

/-- Two files, which set options first, and another with an error. -/
def demoReaders : Readers where
  smt2 := fun t => if t = "A" then .setNum ":precision" (1 / 2) :: (demoScript ++ [SCmd.check]).map .core
    else if t = "B" then .setStr ":produce-models" "true" :: (hiddenScript ++ [SCmd.check]).map .core
    else []
  dr := fun t => if t = "C" then some ⟨[⟨"x", .fin 0, .fin 1⟩], [.rel .ge (.id "x") (.num 2)], []⟩
    else none

def demoWorld : World where
  files := fun n => if n = "a.smt2" then some "A" else if n = "b.smt2" then some "B" else
    if n = "c.dr" then some "C" else if n = "d.dr" then some "D" else none
  stdin := "A"

/-- `dreal --precision 1 name`. -/
def demoLine (name : String) : CmdLine := { last := [name], precision := some 1 }

theorem demo_asks_a : Asks demoWorld (demoLine "a.smt2") .smt2 "a.smt2" "A" :=
  ⟨rfl, ⟨rfl, rfl, rfl⟩, rfl, by decide, rfl, .inr ⟨rfl, "a", .inl ⟨rfl, rfl⟩⟩⟩
theorem demo_asks_b : Asks demoWorld (demoLine "b.smt2") .smt2 "b.smt2" "B" :=
  ⟨rfl, ⟨rfl, rfl, rfl⟩, rfl, by decide, rfl, .inr ⟨rfl, "b", .inl ⟨rfl, rfl⟩⟩⟩
theorem demo_asks_c : Asks demoWorld (demoLine "c.dr") .dr "c.dr" "C" :=
  ⟨rfl, ⟨rfl, rfl, rfl⟩, rfl, by decide, rfl, .inr ⟨rfl, "c", .inr ⟨rfl, rfl⟩⟩⟩
theorem demo_asks_d : Asks demoWorld (demoLine "d.dr") .dr "d.dr" "D" :=
  ⟨rfl, ⟨rfl, rfl, rfl⟩, rfl, by decide, rfl, .inr ⟨rfl, "d", .inr ⟨rfl, rfl⟩⟩⟩

/-- What is printed, if the program ends. -/
def printedBy (cl : CmdLine) : Option (Nat × List Line) :=
  match program demoReaders (fun _ => "") demoMk demoWorld cl with
  | .ok r => some r
  | _ => none

theorem printedBy_some {cl r} (h : printedBy cl = some r) :
    program demoReaders (fun _ => "") demoMk demoWorld cl = .ok r := by
  unfold printedBy at h
  split at h
  · rename_i q hq
    rw [hq]
    simpa using h
  · cases h

theorem demo_prints_a : printedBy (demoLine "a.smt2") = some (0, [.deltaSat (some 1) none, .unsat]) := by
  decide +kernel
theorem demo_prints_b : printedBy (demoLine "b.smt2") =
    some (0, [.deltaSat (some 1) (some hiddenModel)]) := by
  decide +kernel
/-- The other format; a file with an error; the standard input; no such file. -/
example : printedBy (demoLine "c.dr") = some (0, [.unsat]) ∧
    printedBy (demoLine "d.dr") = some (0, []) ∧
    printedBy { fromIn := true, precision := some 1 } =
      some (0, [.deltaSat (some 1) none, .unsat]) ∧
    printedBy (demoLine "e.smt2") = some (1, []) := by
  decide +kernel

/-- `C69_options` applies: the command line wins over the file. -/
example : askedPrecision (demoLine "a.smt2") [.setNum ":precision" (1 / 2)] = 1 ∧
    askedPrecision {} [.setNum ":precision" (1 / 2)] = 1 / 2 ∧
    askedPrecision {} [] = 1 / 1000 ∧
    askedFlag {} [.setStr ":produce-models" "true"] .produceModels = true := by
  decide +kernel

/-- The hypotheses of `C69_unsat_partial` are met. -/
example (D : Dom) (I : Interp) (xs : List ℝ) : ¬ stated I (inForce demoScript) xs := by
  have hlog : ∃ d, run (idsTaken demoCfg) demoScript {} = .ok d ∧ d.log = demoScriptLog :=
    logOf_some (by decide +kernel)
  obtain ⟨d, hd, hl⟩ := hlog
  refine C69_unsat_partial D I demoReaders (fun _ => "") demoMk demoWorld (demoLine "a.smt2")
    "a.smt2" "A" demo_asks_a [.setNum ":precision" (1 / 2)] (by simp [IsSetting]) demoScript rfl
    (fun o => ⟨demoMk_ok D I o, quarterDbl_ok, demoSat_ok⟩) (tidy_of_tame demoScript_tame hd).1
    (fun o d' ho hr => ?_) 0 [.deltaSat (some 1) none] (printedBy_some demo_prints_a) xs
  rw [demoMk_one (by rw [ho]; decide +kernel)] at hr ⊢
  rw [hd] at hr
  simp only [Outcome.ok.injEq] at hr
  subst hr
  rw [hl]
  exact ⟨demoScript_covered, fun ρ _ => demoScript_ordinary D I _ ρ⟩

theorem hidden_meets (o : Opts) (d : Drv) (ho : o.precision.get = 1)
    (hr : run (idsTaken (demoMk o)) hiddenScript {} = .ok d) :
    Covered d.log ∧ CondLog (demoMk o) hiddenS d.log ∧
      (∀ v b, .declare v b ∈ callsInForce d.log → v.type = .continuous ∨ v.type = .boolean) ∧
      ∀ as c b r, runCmds (demoMk o) (Ctx.init 0) d.log = .ok (as, c) →
        checkCore (demoMk o) c = .ok (some b, r) →
        (∀ a e, hiddenS a e → ¬ StuckOn (demoMk o).env (demoMk o).th b a e) ∧
        ∀ v ∈ b.vars, v ∉ hiddenModel.vars → ∃ x : ℝ, InItv x (b.getV v) := by
  obtain ⟨d', hd, hl⟩ := logOf_some (cfg := demoCfg) (s := hiddenScript) (l := hiddenLog)
    (by decide +kernel)
  rw [demoMk_one ho] at hr ⊢
  rw [hd] at hr
  simp only [Outcome.ok.injEq] at hr
  subst hr
  rw [hl]
  refine ⟨⟨?_, ?_, .inr (by simp [hiddenLog])⟩, hiddenLog_cond, ?_, ?_⟩
  · simp [hiddenLog, WfF, WfE, scCond, scX, scB, scY]
  · intro v l u h x _
    simp [hiddenLog, scX] at h
    rw [h.1]
    exact ⟨trivial, trivial⟩
  · intro v b h
    simp [hiddenLog, scX, scB, scY, callsInForce, enforceCall] at h
    rcases h with ⟨rfl, -⟩ | ⟨rfl, -⟩ | ⟨rfl, -⟩ <;> simp
  · intro as c b r h1 h2
    have : (match runCmds demoCfg (Ctx.init 0) hiddenLog with
      | .ok (_, c) => foundBy demoCfg c | _ => none) = some hiddenFound := by decide +kernel
    rw [h1] at this
    obtain ⟨r', h3⟩ := foundBy_some this
    rw [h3] at h2
    simp only [Run.ok.injEq, Prod.mk.injEq, Option.some.injEq] at h2
    rw [← h2.1]
    exact ⟨hidden_not_stuck, hidden_left⟩

/-- The hypotheses of `C69_delta_sat_partial` are met. -/
example (D : Dom) (I : Interp) : ∃ d, run (idsTaken demoCfg) hiddenScript {} = .ok d ∧
    ∀ ρ, InBox ρ hiddenModel → ∃ ρ1 : Valuation, (∀ v ∈ hiddenModel.vars, ρ1 v = ρ v) ∧
      (∀ v l u, .setInterval v l u ∈ callsInForce d.log → InItv (ρ1 v) ⟨l, u⟩) ∧
      ∀ f, .assert f ∈ callsInForce d.log → DefC D I 1 ρ1 f → weakC I 1 ρ1 true f := by
  obtain ⟨d, hd, hl⟩ := logOf_some (cfg := demoCfg) (s := hiddenScript) (l := hiddenLog)
    (by decide +kernel)
  obtain ⟨-, -, o, d', h1, h2, h3⟩ := C69_delta_sat_partial D I demoReaders (fun _ => "") demoMk
    demoWorld (demoLine "b.smt2") "b.smt2" "B" demo_asks_b [.setStr ":produce-models" "true"]
    (by simp [IsSetting]) hiddenScript rfl
    (fun o => ⟨demoMk_ok D I o, quarterDbl_ok, demoSat_ok, exactFp_diamOk, exactFp_diamZero, rfl⟩)
    (tidy_of_tame (by simp [hiddenScript, TameScript, Tame, Tames]) hd).1 hiddenS 0 [] 1 hiddenModel
    (by norm_num) (printedBy_some demo_prints_b) hidden_meets
  rw [demoMk_one h1] at h2
  exact ⟨d', h2, by simpa only [Rat.cast_one] using h3⟩

end Verif.Props
