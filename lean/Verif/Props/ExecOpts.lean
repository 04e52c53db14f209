import Verif.Proof.ExecOpts
import Verif.Props.Exec

/-!
# C74: files with options anywhere
-/

namespace Verif.Props
open Verif Verif.Model Verif.Model.Smt2 Verif.Model.Smt2Parse Verif.Model.Smt2Scan Verif.Model.Exec
open Verif.Spec Verif.Spec.Smt2Scan Verif.Spec.Smt2Grammar Verif.Spec.Smt2 Verif.Proof Verif.Proof.Smt2
open Verif.Proof.Exec Verif.Proof.ExecOpts
open Verif.Spec.Exec (commands Checked CondFile)
open Verif.Spec.Main (Asks askedPrecision askedFlag)

/-- C39, C40 and C41 for files that set options anywhere: the calls made pose the problem that the
commands in force state. -/
theorem C39_file_partial (fmt : ℚ → String) (mk : Opts → CCfg) (o : Opts) (fs : List Main.FCmd)
    (hx : .exit ∉ fs) (f : Main.FState) (h : Main.runF fmt mk fs { sched := fun _ => o } = .ok f)
    (ht : TidyScript (commands fs)) (I : Interp) (xs : List ℝ) :
    stated I (Smt2.inForce (commands fs)) xs ↔ posed I (callsInForce f.drv.log) xs :=
  (file_nest hx h ht).2 I xs

/-- C74 for a line `unsat`, with options set anywhere in the file: the commands in force at the check
that printed it have no solution, whatever precision was in force at which time.  Missing: what is
missing for scripts (see `C54_no_solution_partial`). -/
theorem C74_options_partial (D : Dom) (I : Interp) (hv : List Char → Option ℚ) (A : Actions)
    (dr : String → Option Dr.DProb) (fmt : ℚ → String) (mk : Opts → CCfg) (w : Main.World)
    (cl : Main.CmdLine) (name text : String) (hA : Asks w cl .smt2 name text) (db : Dbl)
    (hd : DblOk db) (hmk : ∀ o, EnvOk D I (mk o).env ∧ (mk o).th.dbl = db ∧ PicosatOk (mk o).ps)
    (l1 l2 : List Main.Line) (e : Run Nat)
    (h : programX hv A dr fmt mk w cl = (l1 ++ .unsat :: l2, e)) :
    ∃ pre post, (readScript hv A text).1 = pre ++ .core .check :: post ∧
      (exec fmt mk pre { opts := cl.extract }).1 = l1 ∧
      ∀ fs, Runs pre fs → TidyScript (commands fs) →
        (∀ f, Main.runF fmt mk fs { sched := fun _ => cl.extract } = .ok f →
          Covered f.drv.log ∧ ∀ ρ, Fulfils I (callsInForce f.drv.log) ρ →
            Ordinary D I db (callsInForce f.drv.log) ρ) →
        ∀ xs, ¬ stated I (Smt2.inForce (commands fs)) xs := by
  rw [C74_program hv A dr fmt mk w cl name text hA, Prod.mk.injEq] at h
  obtain ⟨pre, post, h1, h2, h3⟩ := exec_line (Prod.ext h.1 rfl)
  refine ⟨pre, post, h1, exec_before h2 h3, fun fs hp hts hc xs hs => ?_⟩
  obtain ⟨f, c, r, c', o, -, e1, e2, e3, e4⟩ := exec_checked hp h2 h3
  have hr : r = none := by
    cases r with
    | none => rfl
    | some m =>
      simp only [Main.smt2Line] at e4
      split at e4 <;> cases e4
  subst hr
  obtain ⟨hcov, hord⟩ := hc f e1
  obtain ⟨k1, k2⟩ := file_nest (runs_noExit hp h2) e1 hts
  obtain ⟨k, hk⟩ := file_books hd hmk k1 e2 hcov
  obtain ⟨ρ, g1, -⟩ := (k2 I xs).mp hs
  obtain ⟨H, hK⟩ := hk.inv
  obtain ⟨he, hdb, hps⟩ := hmk o
  obtain ⟨g2, g3⟩ := track_solved (D := D) (db := db) hk.track g1 (hord ρ g1)
  subst hdb
  exact (kinv_check hd hps he hK e3).2 rfl ρ g2 g3

/-- Every precision that is in force at some time is positive, if that of the command line is. -/
theorem C74_positive (fmt : ℚ → String) (mk : Opts → CCfg) (cl : Main.CmdLine)
    (hcl : ∀ p, cl.precision = some p → 0 < p) (fs : List Main.FCmd) (f : Main.FState)
    (h : Main.runF fmt mk fs { sched := fun _ => cl.extract } = .ok f) (i : Nat) :
    0 < (f.sched i).precision.get :=
  runF_positive fs h (fun _ => extract_positive hcl) i

/-- C74 for a line with a model, with options set anywhere in the file: the precision printed is the one
asked for at that time, models are asked for, and every point of the model extends to one in the stated
bounds at which the weakening, by that precision, of every asserted formula in force holds whose terms
have values there.  Missing: as in `C54_conditional_partial`, whose assumptions about precisions are made
for those in force at the checks.  The precision of the command line is positive
(`dreal/dreal_main.cc:75-89`). -/
theorem C74_delta_options_partial (D : Dom) (I : Interp) (hv : List Char → Option ℚ) (A : Actions)
    (dr : String → Option Dr.DProb) (fmt : ℚ → String) (mk : Opts → CCfg) (w : Main.World)
    (cl : Main.CmdLine) (name text : String) (hA : Asks w cl .smt2 name text)
    (hcl : ∀ p, cl.precision = some p → 0 < p) (db : Dbl) (hd : DblOk db)
    (hmk : ∀ o, (EnvOk D I (mk o).env ∧ (mk o).th.dbl = db ∧ PicosatOk (mk o).ps) ∧
      DiamOk (mk o).env.fp ∧ DiamZero (mk o).env.fp ∧ (mk o).env.delta = o.precision.get)
    (l1 l2 : List Main.Line) (δ : ℚ) (m : Box) (e : Run Nat)
    (h : programX hv A dr fmt mk w cl = (l1 ++ .deltaSat (some δ) (some m) :: l2, e)) :
    ∃ pre post, (readScript hv A text).1 = pre ++ .core .check :: post ∧
      (exec fmt mk pre { opts := cl.extract }).1 = l1 ∧
      ∀ fs S, Runs pre fs → TidyScript (commands fs) →
        (∀ f, Main.runF fmt mk fs { sched := fun _ => cl.extract } = .ok f →
          Covered f.drv.log ∧ CondFile mk f.sched db S (Checked f.drv.log) f.drv.log ∧
          (∀ v b, .declare v b ∈ callsInForce f.drv.log → v.type = .continuous ∨ v.type = .boolean) ∧
          ∀ c b r, Main.runAt mk f.sched 0 (Ctx.init 0) f.drv.log = .ok (l1, c) →
            checkCore (mk (f.sched f.drv.log.length)) c = .ok (some b, r) →
            (∀ a e, S a e → ¬ StuckOn (mk (f.sched f.drv.log.length)).env
              (mk (f.sched f.drv.log.length)).th b a e) ∧
            ∀ v ∈ b.vars, v ∉ m.vars → ∃ x : ℝ, InItv x (b.getV v)) →
        δ = askedPrecision cl fs ∧ askedFlag cl fs .produceModels = true ∧
        ∃ f, Main.runF fmt mk fs { sched := fun _ => cl.extract } = .ok f ∧
        ∀ ρ, InBox ρ m → ∃ ρ1 : Valuation, (∀ v ∈ m.vars, ρ1 v = ρ v) ∧
          (∀ v l u, .setInterval v l u ∈ callsInForce f.drv.log → InItv (ρ1 v) ⟨l, u⟩) ∧
          ∀ g, .assert g ∈ callsInForce f.drv.log → DefC D I δ ρ1 g → weakC I δ ρ1 true g := by
  rw [C74_program hv A dr fmt mk w cl name text hA, Prod.mk.injEq] at h
  obtain ⟨pre, post, h1, h2, h3⟩ := exec_line (Prod.ext h.1 rfl)
  refine ⟨pre, post, h1, exec_before h2 h3, fun fs S hp hts hc => ?_⟩
  obtain ⟨f, c, r, c', o, ho, e1, e2, e3, e4⟩ := exec_checked hp h2 h3
  obtain ⟨hr, hpm, hpr⟩ : r = some m ∧ (o.flag .produceModels).get = true ∧ δ = o.precision.get := by
    cases r with
    | none => simp [Main.smt2Line] at e4
    | some m' =>
      simp only [Main.smt2Line] at e4
      split at e4
      · simp at e4
      · simp only [Main.Line.deltaSat.injEq, Option.some.injEq] at e4
        obtain ⟨e4, e5⟩ := e4
        split at e5
        · rename_i hpm
          simp only [Option.some.injEq] at e5
          exact ⟨by rw [e5], hpm, e4⟩
        · cases e5
  subst hr
  obtain ⟨g1, -⟩ := Verif.Proof.Main.runF_asked fs e1 (Verif.Proof.Main.asked_extract cl)
    (fun i _ => rfl)
  have gp : o.precision.get = askedPrecision cl fs := by
    subst ho
    simpa [askedPrecision, Main.FState.now] using g1.prec
  have gf : (o.flag .produceModels).get = askedFlag cl fs .produceModels := by
    subst ho
    simpa [askedFlag, Main.FState.now] using g1.flag .produceModels
  refine ⟨hpr.trans gp, gf.symm.trans hpm, f, e1, fun ρ hρ => ?_⟩
  obtain ⟨hcov, hS, htypes, hst⟩ := hc f e1
  have hnn := fun i => (runF_positive fs e1 (fun _ => extract_positive hcl) i).le
  obtain ⟨k1, -⟩ := file_nest (runs_noExit hp h2) e1 hts
  obtain ⟨k, hk, hkd⟩ := file_delta hd (fun o => (hmk o).1) k1 e2 hcov
  have hkd := hkd (fun i => (hmk _).2.1) (Checked f.drv.log) (fun i hi => .inl hi)
    (fun i hi => by rw [(hmk _).2.2.2]; exact hnn i) S hS f.drv.log.length (.inr rfl)
  obtain ⟨H, hK⟩ := hk.inv
  obtain ⟨⟨he, hdb, hps⟩, hfp, hz, hdel⟩ := hmk o
  have hst := fun b r => hst c b r e2
  rw [← ho] at hkd hst
  have hδ : 0 ≤ (mk o).env.delta := by
    rw [hdel, ho]; exact hnn _
  subst hdb
  have hT := hk.track
  obtain ⟨b, r, t, q1, q2, q3⟩ := checkSat_some e3
  obtain ⟨-, -, -, -, -, q4⟩ := kd_core hd hps he hfp hδ hK hkd q1
  obtain ⟨hs1, hs2⟩ := hst b r q1
  obtain ⟨q5, q6, q7⟩ := q4 b rfl hs1
  obtain ⟨P, Ps, j1, j2, hl, -⟩ := hK.cons
  have hdom : ∀ p ∈ P.dom, p.1.type = .continuous ∨ p.1.type = .boolean := by
    intro p hp
    rw [← j2] at hp
    obtain ⟨b, hb⟩ := (hT.declared p.1).mp ⟨p.2, hp⟩
    exact htypes _ b hb
  obtain ⟨ρ1, ρ', ha, hn⟩ := near_model_part hz hδ q5.2 q6 q2 q3 (fun v hv => by
    rcases (hl.kinds v (by rw [← q5.1]; exact hv)).2 with ⟨iv, hiv⟩ | hv
    · exact hdom _ hiv
    · exact .inl hv.2) hs2 hρ
  obtain ⟨q8, q9⟩ := q7 ρ1 ρ' hn
  rw [hdel, ← hpr] at q9
  refine ⟨ρ1, fun v hv => ha v (.inl hv), fun v l u hlu => ?_, fun g hg => q9 g ((hT.asserted g).mpr hg)⟩
  obtain ⟨iv, hiv⟩ := (hT.declared v).mpr (hT.setd v l u hlu)
  have := q8 _ _ hiv
  rwa [hT.set v l u hlu iv hiv] at this

/-! ## Examples -/

/-- As `plainActions`, and 0.5 can be read. -/
def halvesActions : Actions :=
  { plainActions with stod := fun w => if w = "0.5".toList then some (1 / 2) else none }

/-- The tokens of a file: those of `demoToks`, and between the checks
`(set-option :precision 0.5)`. -/
def mixedToks : List Tok :=
  demoToks.take 15 ++ [.lp, .setOption, .key ":precision", .dbl "0.5".toList, .rp] ++
    (demoToks.drop 15).take (demoToks.length - 18)

/-- Its commands before the last check, and what of them matters. -/
def mixedPre : List PCmd :=
  (demoScript.take 2).map .core ++ .setNum ":precision" (1 / 2) :: (demoScript.drop 2).map .core
def mixedFs : List Main.FCmd :=
  (demoScript.take 2).map .core ++ .setNum ":precision" (1 / 2) :: (demoScript.drop 2).map .core

theorem mixedToks_reads : script halvesActions mixedToks = (mixedPre ++ [.core .check], true) := rfl

theorem mixed_text : ∃ text, readScript noHex halvesActions text = (mixedPre ++ [.core .check], true) := by
  obtain ⟨us, rest, h1, h2, h3⟩ := (C72_script _ _ _).1 mixedToks_reads
  refine C73_writable noHex halvesActions us _ (fun t ht => ?_) h2
  have hall : ∀ t ∈ mixedToks, t ∈ demoToks ∨ t = .setOption ∨ t = .key ":precision" ∨
      t = .dbl "0.5".toList := by
    decide +kernel
  rcases hall t (by rw [h1]; simp [ht]) with h | rfl | rfl | rfl
  · exact demoToks_writes t h
  · exact ⟨_, .fixed (s := "set-option") (by decide)⟩
  · exact ⟨':' :: 'p' :: "recision".toList, .key ⟨'p', _, rfl, by decide, by decide⟩⟩
  · refine ⟨_, .dbl ⟨[], "0.5".toList, rfl, .inl rfl, ['0'], ['5'], [], by decide, by decide, .inl rfl,
      .inr (.inl ⟨rfl, by simp⟩)⟩ ?_⟩
    rintro ⟨sg, u, e1, hsg, hu⟩
    have e2 : u = "0.5".toList := by
      rcases hsg with rfl | rfl | rfl
      · exact e1.symm
      · simp at e1
      · simp at e1
    subst e2
    rcases hu with e | ⟨c, cs, e, -, -, hcs⟩
    · simp at e
    · have e3 : cs = ['.', '5'] := by
        have := (List.cons.inj e).2
        exact this.symm
      subst e3
      exact absurd (hcs '.' (by simp)) (by decide)

/-- A command line that leaves the precision to the file. -/
def openLine : Main.CmdLine := { last := ["a.smt2"] }

/-- What is printed, and whether the execution ends well. -/
def mixedEnd : List Main.Line × Bool :=
  let r := exec (fun _ => "") demoMk (mixedPre ++ [.core .check]) { opts := openLine.extract }
  (r.1, match r.2 with
    | .ok _ => true
    | _ => false)

theorem mixedEnd_eq : mixedEnd = ([.deltaSat (some (1 / 1000)) none, .unsat], true) := by decide +kernel

theorem mixed_exec : exec (fun _ => "") demoMk (mixedPre ++ [.core .check]) { opts := openLine.extract } =
    ([.deltaSat (some (1 / 1000)) none, .unsat], .ok ()) := by
  have h := mixedEnd_eq
  unfold mixedEnd at h
  rw [Prod.mk.injEq] at h
  refine Prod.ext h.1 ?_
  have h2 := h.2
  split at h2
  · assumption
  · cases h2

/-- The calls made. -/
def mixedLog : Option (List Cmd) :=
  match Main.runF (fun _ => "") demoMk mixedFs { sched := fun _ => openLine.extract } with
  | .ok f => some f.drv.log
  | _ => none

/-- The hypotheses of `C39_file_partial` are met by these commands. -/
example : ∃ f, Main.runF (fun _ => "") demoMk mixedFs { sched := fun _ => openLine.extract } = .ok f ∧
    Main.FCmd.exit ∉ mixedFs ∧ TidyScript (commands mixedFs) ∧ f.drv.log = demoScriptLog := by
  have hlog : mixedLog = some demoScriptLog := by decide +kernel
  obtain ⟨d, hd, -⟩ : ∃ d, run (idsTaken demoCfg) demoScript {} = .ok d ∧ d.log = demoScriptLog :=
    logOf_some (by decide +kernel)
  unfold mixedLog at hlog
  split at hlog
  · next f hf =>
    exact ⟨f, hf, by simp [mixedFs, demoScript], (tidy_of_tame demoScript_tame hd).1, by simpa using hlog⟩
  · cases hlog

/-- The hypotheses of `C74_options_partial` are met: for a file with these commands the program prints
`unsat` last, with a precision that is set between the checks. -/
example (D : Dom) (I : Interp) : ∃ text, programX noHex halvesActions (fun _ => none) (fun _ => "") demoMk
      ⟨fun _ => some text, ""⟩ openLine = ([.deltaSat (some (1 / 1000)) none, .unsat], .ok 0) ∧
    ∀ xs, ¬ stated I (Smt2.inForce demoScript) xs := by
  obtain ⟨text, ht⟩ := mixed_text
  have hA : Asks ⟨fun _ => some text, ""⟩ openLine .smt2 "a.smt2" text :=
    ⟨rfl, ⟨rfl, rfl, rfl⟩, rfl, by decide, rfl, .inr ⟨rfl, "a", .inl ⟨rfl, rfl⟩⟩⟩
  have hp : programX noHex halvesActions (fun _ => none) (fun _ => "") demoMk
      ⟨fun _ => some text, ""⟩ openLine =
        ([.deltaSat (some (1 / 1000)) none] ++ .unsat :: [], .ok 0) := by
    rw [C74_program noHex halvesActions _ _ demoMk _ _ "a.smt2" text hA, execText, ht, mixed_exec]
    rfl
  refine ⟨text, hp, ?_⟩
  obtain ⟨d, hd, -⟩ : ∃ d, run (idsTaken demoCfg) demoScript {} = .ok d ∧ d.log = demoScriptLog :=
    logOf_some (by decide +kernel)
  obtain ⟨pre, post, h1, h2, h3⟩ := C74_options_partial D I noHex halvesActions (fun _ => none)
    (fun _ => "") demoMk _ _ "a.smt2" text hA demoCfg.th.dbl quarterDbl_ok
    (fun o => ⟨demoMk_ok D I o, rfl, demoSat_ok⟩) _ _ _ hp
  rw [ht] at h1
  have hpre : pre = mixedPre := by
    match pre, h1 with
    | [], h1 => simp [mixedPre, demoScript] at h1
    | [a], h1 =>
      simp only [mixedPre, demoScript, List.take, List.map_cons, List.cons_append, List.cons.injEq] at h1
      rw [← h1.1] at h2
      have : (exec (fun _ => "") demoMk (mixedPre.take 1) { opts := openLine.extract }).1 = [] := by
        decide +kernel
      have e := h2.symm.trans this
      cases e
    | [a, b], h1 => simp [mixedPre, demoScript] at h1
    | [a, b, c], h1 => simp [mixedPre, demoScript] at h1
    | [a, b, c, d], h1 => simp [mixedPre, demoScript] at h1
    | [a, b, c, d, e], h1 =>
      simp only [mixedPre, demoScript, List.take, List.drop, List.map_cons, List.map_nil,
        List.cons_append, List.nil_append, List.cons.injEq] at h1
      obtain ⟨rfl, rfl, rfl, rfl, rfl, -⟩ := h1
      rfl
    | _ :: _ :: _ :: _ :: _ :: _ :: _, h1 => simp [mixedPre, demoScript] at h1
  subst hpre
  have hlog : mixedLog = some demoScriptLog := by decide +kernel
  refine h3 mixedFs (by repeat constructor) (tidy_of_tame demoScript_tame hd).1 fun f hf => ?_
  unfold mixedLog at hlog
  rw [hf] at hlog
  simp only [Option.some.injEq] at hlog
  rw [hlog]
  exact ⟨demoScript_covered, fun ρ _ => demoScript_ordinary D I _ ρ⟩

/-- As `quotActions`, and 0.5 and 1.0 can be read. -/
def stepActions : Actions :=
  { quotActions with stod := fun w => if w = "0.5".toList then some (1 / 2) else
      if w = "1.0".toList then some 1 else none }

/-- The tokens of a file: those of `hiddenToks`, with `(set-option :precision 0.5)` before the
declarations, and `(check-sat) (set-option :precision 1.0)` between them. -/
def stepToks : List Tok :=
  hiddenToks.take 9 ++ [.lp, .setOption, .key ":precision", .dbl "0.5".toList, .rp] ++
    (hiddenToks.drop 9).take 16 ++ [.lp, .checkSat, .rp] ++
    [.lp, .setOption, .key ":precision", .dbl "1.0".toList, .rp] ++ hiddenToks.drop 25

/-- Its commands before the last check, and what of them matters. -/
def stepPre : List PCmd :=
  [.setStr ":produce-models" "true", .logic "QF_NRA", .setNum ":precision" (1 / 2)] ++
    (hiddenScript.take 1).map .core ++ [.core .check, .setNum ":precision" 1] ++
    (hiddenScript.drop 1).map .core
def stepFs : List Main.FCmd :=
  [.setStr ":produce-models" "true", .setNum ":precision" (1 / 2)] ++
    (hiddenScript.take 1).map .core ++ [.core .check, .setNum ":precision" 1] ++
    (hiddenScript.drop 1).map .core

theorem stepToks_reads : script stepActions stepToks = (stepPre ++ [.core .check], true) := rfl

theorem decimal_can {a b : Char} {hv} (ha : Verif.Model.DrScan.digit a = true) (hb : Verif.Model.DrScan.digit b = true) :
    ∃ w, Writes hv (.dbl [a, '.', b]) w := by
  refine ⟨_, .dbl ⟨[], [a, '.', b], rfl, .inl rfl, [a], [b], [], by simpa using ha, by simpa using hb,
    .inl rfl, .inr (.inl ⟨rfl, by simp⟩)⟩ ?_⟩
  rintro ⟨sg, u, e1, hsg, hu⟩
  have e2 : u = [a, '.', b] := by
    rcases hsg with rfl | rfl | rfl
    · exact e1.symm
    · simp only [List.cons_append, List.nil_append, List.cons.injEq] at e1
      rw [e1.1] at ha; exact absurd ha (by decide)
    · simp only [List.cons_append, List.nil_append, List.cons.injEq] at e1
      rw [e1.1] at ha; exact absurd ha (by decide)
  subst e2
  rcases hu with e | ⟨c, cs, e, -, -, hcs⟩
  · simp at e
  · have e3 : cs = ['.', b] := (List.cons.inj e).2.symm
    subst e3
    exact absurd (hcs '.' (by simp)) (by decide)

theorem step_text : ∃ text, readScript noHex stepActions text = (stepPre ++ [.core .check], true) := by
  obtain ⟨us, rest, h1, h2, h3⟩ := (C72_script _ _ _).1 stepToks_reads
  refine C73_writable noHex stepActions us _ (fun t ht => ?_) h2
  have hall : ∀ t ∈ stepToks, t ∈ hiddenToks ∨ t = .key ":precision" ∨
      t = .dbl ['0', '.', '5'] ∨ t = .dbl ['1', '.', '0'] := by
    decide +kernel
  rcases hall t (by rw [h1]; simp [ht]) with h | rfl | rfl | rfl
  · exact hiddenToks_writes t h
  · exact ⟨':' :: 'p' :: "recision".toList, .key ⟨'p', _, rfl, by decide, by decide⟩⟩
  · exact decimal_can (by decide) (by decide)
  · exact decimal_can (by decide) (by decide)

/-- The model of the first check. -/
def stepFirst : Box := ⟨[scX], [⟨.fin (17 / 8), .fin (21 / 8)⟩], false⟩

def stepEnd : List Main.Line × Bool :=
  let r := exec (fun _ => "") demoMk (stepPre ++ [.core .check]) { opts := openLine.extract }
  (r.1, match r.2 with
    | .ok _ => true
    | _ => false)

theorem stepEnd_eq : stepEnd = ([.deltaSat (some (1 / 2)) (some stepFirst),
    .deltaSat (some 1) (some hiddenModel)], true) := by decide +kernel

theorem step_exec : exec (fun _ => "") demoMk (stepPre ++ [.core .check]) { opts := openLine.extract } =
    ([.deltaSat (some (1 / 2)) (some stepFirst), .deltaSat (some 1) (some hiddenModel)], .ok ()) := by
  have h := stepEnd_eq
  unfold stepEnd at h
  rw [Prod.mk.injEq] at h
  refine Prod.ext h.1 ?_
  have h2 := h.2
  split at h2
  · assumption
  · cases h2

/-- The calls made. -/
def stepLog : List Cmd := hiddenLog.take 3 ++ .check :: hiddenLog.drop 3

/-- The calls, the precisions at the checks, where the counter stands before the first assertion, and
the box the last check finds. -/
def stepFacts : Option (List Cmd × ℚ × ℚ × Nat × Option Box) :=
  match Main.runF (fun _ => "") demoMk stepFs { sched := fun _ => openLine.extract } with
  | .ok f => some (f.drv.log, (f.sched 3).precision.get, (f.sched 11).precision.get,
      (match Main.runAt demoMk f.sched 0 (Ctx.init 0) (stepLog.take 6) with
        | .ok (_, c) => c.sat.abs.next
        | _ => 0),
      match Main.runAt demoMk f.sched 0 (Ctx.init 0) stepLog with
        | .ok (_, c) => foundBy demoCfg c
        | _ => none)
  | _ => none

theorem stepFacts_eq : stepFacts = some (stepLog, 1 / 2, 1, 2, some hiddenFound) := by decide +kernel

/-- The hypotheses of `C74_positive` are met, with different precisions in force. -/
example : ∃ f, Main.runF (fun _ => "") demoMk stepFs { sched := fun _ => openLine.extract } = .ok f ∧
    (∀ p, openLine.precision = some p → 0 < p) ∧
    (f.sched 3).precision.get = 1 / 2 ∧ (f.sched 11).precision.get = 1 := by
  have h := stepFacts_eq
  unfold stepFacts at h
  split at h
  · next f hf =>
    simp only [Option.some.injEq, Prod.mk.injEq] at h
    exact ⟨f, hf, by simp [openLine], h.2.1, h.2.2.1⟩
  · cases h

theorem stepS_plain {δ : ℚ} (hδ : 1 / 4 < δ) {a b} (h : hiddenS a b) : PlainRel demoCfg.th.dbl δ a b := by
  have hv : ∀ v, FineNum demoCfg.th.dbl δ (.var v) := fun v lo hi ex h => by simp [asNum] at h
  have hc : ∀ q, FineNum demoCfg.th.dbl δ (.const q) := by
    intro q lo hi ex h
    simp only [asNum, Option.some.injEq, Prod.mk.injEq] at h
    obtain ⟨rfl, rfl, rfl⟩ := h
    show q + 1 / 4 < q + δ ∧ q - δ < q - 1 / 4
    constructor <;> linarith
  rcases h with ⟨rfl, rfl⟩ | ⟨rfl, rfl⟩ | ⟨rfl, rfl⟩ | ⟨rfl, rfl⟩ | ⟨rfl, rfl⟩ <;>
    exact ⟨⟨trivial, trivial⟩, by decide +kernel, by decide, by first | exact ⟨hv _, hv _⟩ | exact ⟨hv _, hc _⟩⟩

theorem stepCond_plain {δ : ℚ} (hδ : 1 / 4 < δ) :
    PlainF demoCfg.th.dbl δ hiddenS (iteProcess 2 scCond).1 := by
  have : (iteProcess 2 scCond).1 = .conj [
      .disj [.neg (.bvar scB), .rel .eq (.var scT) (.const 1)],
      .disj [.bvar scB, .rel .eq (.var scT) (.const 3)],
      .rel .geq (.var scX) (.var scT)] := by decide +kernel
  rw [this]
  have s1 : hiddenS (.var scT) (.const 1) := .inr (.inl ⟨rfl, rfl⟩)
  have s2 : hiddenS (.var scT) (.const 3) := .inr (.inr (.inl ⟨rfl, rfl⟩))
  have s3 : hiddenS (.var scX) (.var scT) := .inl ⟨rfl, rfl⟩
  exact ⟨⟨trivial, ⟨stepS_plain hδ s1, s1⟩, trivial⟩, ⟨trivial, ⟨stepS_plain hδ s2, s2⟩, trivial⟩,
    ⟨stepS_plain hδ s3, s3⟩, trivial⟩

theorem step_cond {sched : Nat → Opts} (h3 : (sched 3).precision.get = 1 / 2)
    (h11 : (sched 11).precision.get = 1)
    (hn : (match Main.runAt demoMk sched 0 (Ctx.init 0) (stepLog.take 6) with
      | .ok (_, c) => c.sat.abs.next
      | _ => 0) = 2) :
    CondFile demoMk sched demoCfg.th.dbl hiddenS (Checked stepLog) stepLog := by
  have hJ : ∀ i, Checked stepLog i → 1 / 4 < (demoMk (sched i)).env.delta := by
    intro i hi
    show 1 / 4 < (sched i).precision.get
    have : i = 3 ∨ i = 11 := by
      rcases hi with hi | rfl
      · have hlt : i < 11 := (List.getElem?_eq_some_iff.mp hi).1
        have : ∀ j, j < 11 → stepLog[j]? = some .check → j = 3 := by decide +kernel
        exact .inl (this i hlt hi)
      · exact .inr rfl
    rcases this with rfl | rfl
    · rw [h3]; norm_num
    · rw [h11]; norm_num
  refine ⟨fun a b h i hi => stepS_plain (hJ i hi) h, ?_, ?_, ?_⟩
  · intro l f r h i hi
    have s1 : hiddenS (.var scY) (.const 1) := .inr (.inr (.inr (.inl ⟨rfl, rfl⟩)))
    have s2 : hiddenS (.var scX) (.var scY) := .inr (.inr (.inr (.inr ⟨rfl, rfl⟩)))
    match l, h with
    | [_, _, _, _, _, _], h =>
      have e := h
      simp only [stepLog, hiddenLog, List.take, List.drop, List.cons_append, List.nil_append,
        List.cons.injEq, Cmd.assert.injEq] at h
      obtain ⟨rfl, rfl, rfl, rfl, rfl, rfl, rfl, -⟩ := h
      refine .inr ⟨⟨trivial, trivial, trivial, trivial⟩, fun h => h.2, fun as c hc => ?_⟩
      rw [show stepLog.take 6 = _ from rfl] at hn
      simp only [stepLog, hiddenLog, List.take, List.drop, List.cons_append, List.nil_append] at hn
      rw [hc] at hn
      have hn : c.sat.abs.next = 2 := hn
      rw [hn]
      exact stepCond_plain (hJ i hi)
    | [_, _, _, _, _, _, _, _, _], h =>
      simp only [stepLog, hiddenLog, List.take, List.drop, List.cons_append, List.nil_append,
        List.cons.injEq, Cmd.assert.injEq] at h
      obtain ⟨-, -, -, -, -, -, -, -, -, rfl, -⟩ := h
      exact .inl ⟨stepS_plain (hJ i hi) s1, s1⟩
    | [_, _, _, _, _, _, _, _, _, _], h =>
      simp only [stepLog, hiddenLog, List.take, List.drop, List.cons_append, List.nil_append,
        List.cons.injEq, Cmd.assert.injEq] at h
      obtain ⟨-, -, -, -, -, -, -, -, -, -, rfl, -⟩ := h
      exact .inl ⟨stepS_plain (hJ i hi) s2, s2⟩
    | [], h | [_], h | [_, _], h | [_, _, _], h | [_, _, _, _], h | [_, _, _, _, _], h
    | [_, _, _, _, _, _, _], h | [_, _, _, _, _, _, _, _], h => simp [stepLog, hiddenLog] at h
    | _ :: _ :: _ :: _ :: _ :: _ :: _ :: _ :: _ :: _ :: _ :: l, h =>
      have := congrArg List.length h
      simp [stepLog, hiddenLog] at this
  · intro l v x y r h
    match l, h with
    | [_, _], h =>
      simp only [stepLog, hiddenLog, List.take, List.drop, List.cons_append, List.nil_append,
        List.cons.injEq, Cmd.setInterval.injEq] at h
      obtain ⟨rfl, rfl, ⟨rfl, -⟩, -⟩ := h
      exact ⟨by decide, by simp [callsInForce, enforceCall]⟩
    | [], h | [_], h | [_, _, _], h | [_, _, _, _], h | [_, _, _, _, _], h | [_, _, _, _, _, _], h
    | [_, _, _, _, _, _, _], h | [_, _, _, _, _, _, _, _], h | [_, _, _, _, _, _, _, _, _], h
    | [_, _, _, _, _, _, _, _, _, _], h => simp [stepLog, hiddenLog] at h
    | _ :: _ :: _ :: _ :: _ :: _ :: _ :: _ :: _ :: _ :: _ :: l, h =>
      have := congrArg List.length h
      simp [stepLog, hiddenLog] at this
  · intro l v m r h
    match l, h with
    | [_], h =>
      simp only [stepLog, hiddenLog, List.take, List.drop, List.cons_append, List.nil_append,
        List.cons.injEq] at h
      obtain ⟨rfl, -⟩ := h
      exact .inl (by simp [callsInForce, enforceCall])
    | [_, _, _, _, _], h =>
      simp only [stepLog, hiddenLog, List.take, List.drop, List.cons_append, List.nil_append,
        List.cons.injEq] at h
      obtain ⟨rfl, rfl, rfl, rfl, rfl, -⟩ := h
      exact .inr ⟨scX, true, by simp [callsInForce, enforceCall]⟩
    | [_, _, _, _, _, _, _, _], h =>
      simp only [stepLog, hiddenLog, List.take, List.drop, List.cons_append, List.nil_append,
        List.cons.injEq] at h
      obtain ⟨rfl, rfl, rfl, rfl, rfl, rfl, rfl, rfl, -⟩ := h
      exact .inr ⟨scX, true, by simp [callsInForce, enforceCall]⟩
    | [], h | [_, _], h | [_, _, _], h | [_, _, _, _], h | [_, _, _, _, _, _], h
    | [_, _, _, _, _, _, _], h | [_, _, _, _, _, _, _, _, _], h
    | [_, _, _, _, _, _, _, _, _, _], h => simp [stepLog, hiddenLog] at h
    | _ :: _ :: _ :: _ :: _ :: _ :: _ :: _ :: _ :: _ :: _ :: l, h =>
      have := congrArg List.length h
      simp [stepLog, hiddenLog] at this

/-- The hypotheses of `C74_delta_options_partial` are met: for a file with these commands the program
prints two models, with different precisions, and the last one is right. -/
example (D : Dom) (I : Interp) : ∃ text, programX noHex stepActions (fun _ => none) (fun _ => "") demoMk
      ⟨fun _ => some text, ""⟩ openLine =
        ([.deltaSat (some (1 / 2)) (some stepFirst), .deltaSat (some 1) (some hiddenModel)], .ok 0) ∧
    ∀ ρ, InBox ρ hiddenModel → ∃ ρ1 : Valuation, (∀ v ∈ hiddenModel.vars, ρ1 v = ρ v) ∧
      (∀ v l u, .setInterval v l u ∈ callsInForce stepLog → InItv (ρ1 v) ⟨l, u⟩) ∧
      ∀ f, .assert f ∈ callsInForce stepLog → DefC D I 1 ρ1 f → weakC I 1 ρ1 true f := by
  obtain ⟨text, ht⟩ := step_text
  have hA : Asks ⟨fun _ => some text, ""⟩ openLine .smt2 "a.smt2" text :=
    ⟨rfl, ⟨rfl, rfl, rfl⟩, rfl, by decide, rfl, .inr ⟨rfl, "a", .inl ⟨rfl, rfl⟩⟩⟩
  have hp : programX noHex stepActions (fun _ => none) (fun _ => "") demoMk
      ⟨fun _ => some text, ""⟩ openLine = ([.deltaSat (some (1 / 2)) (some stepFirst)] ++
        .deltaSat (some 1) (some hiddenModel) :: [], .ok 0) := by
    rw [C74_program noHex stepActions _ _ demoMk _ _ "a.smt2" text hA, execText, ht, step_exec]
    rfl
  refine ⟨text, hp, ?_⟩
  obtain ⟨pre, post, h1, h2, h3⟩ := C74_delta_options_partial D I noHex stepActions (fun _ => none)
    (fun _ => "") demoMk _ _ "a.smt2" text hA (by simp [openLine]) demoCfg.th.dbl quarterDbl_ok
    (fun o => ⟨⟨demoMk_ok D I o, rfl, demoSat_ok⟩, exactFp_diamOk, exactFp_diamZero, rfl⟩) _ _ _ _ _ hp
  rw [ht] at h1
  have hpre : pre = stepPre := by
    match pre, h1 with
    | [a, b, c, d], h1 =>
      have : (exec (fun _ => "") demoMk (stepPre.take 4) { opts := openLine.extract }).1 = [] := by
        decide +kernel
      simp only [stepPre, hiddenScript, List.take, List.drop, List.map_cons, List.map_nil,
        List.cons_append, List.nil_append, List.cons.injEq] at h1
      obtain ⟨rfl, rfl, rfl, rfl, -⟩ := h1
      have e := h2.symm.trans this
      cases e
    | [a, b, c, d, e, f, g, i, j], h1 =>
      simp only [stepPre, hiddenScript, List.take, List.drop, List.map_cons, List.map_nil,
        List.cons_append, List.nil_append, List.cons.injEq] at h1
      obtain ⟨rfl, rfl, rfl, rfl, rfl, rfl, rfl, rfl, rfl, -⟩ := h1
      rfl
    | [], h1 | [_], h1 | [_, _], h1 | [_, _, _], h1 | [_, _, _, _, _], h1 | [_, _, _, _, _, _], h1
    | [_, _, _, _, _, _, _], h1 | [_, _, _, _, _, _, _, _], h1 => simp [stepPre, hiddenScript] at h1
    | _ :: _ :: _ :: _ :: _ :: _ :: _ :: _ :: _ :: _ :: l, h1 => simp [stepPre, hiddenScript] at h1
  subst hpre
  have hfacts : ∀ f, Main.runF (fun _ => "") demoMk stepFs { sched := fun _ => openLine.extract } = .ok f →
      f.drv.log = stepLog ∧ (f.sched 3).precision.get = 1 / 2 ∧ (f.sched 11).precision.get = 1 ∧
      (match Main.runAt demoMk f.sched 0 (Ctx.init 0) (stepLog.take 6) with
        | .ok (_, c) => c.sat.abs.next
        | _ => 0) = 2 ∧
      (match Main.runAt demoMk f.sched 0 (Ctx.init 0) stepLog with
        | .ok (_, c) => foundBy demoCfg c
        | _ => none) = some hiddenFound := by
    intro f hf
    have h := stepFacts_eq
    unfold stepFacts at h
    rw [hf] at h
    simpa using h
  have htidy : TidyScript (commands stepFs) := by
    obtain ⟨d, hd, -⟩ : ∃ d, run (idsTaken demoCfg) (commands stepFs) {} = .ok d ∧ d.log = stepLog :=
      logOf_some (by decide +kernel)
    exact (tidy_of_tame (by simp [stepFs, commands, hiddenScript, TameScript, Tame, Tames]) hd).1
  obtain ⟨-, -, f, h4, h5⟩ := h3 stepFs hiddenS (by repeat constructor) htidy fun f hf => by
    obtain ⟨g1, g2, g3, g4, g5⟩ := hfacts f hf
    rw [g1]
    have hlen : stepLog.length = 11 := rfl
    rw [hlen, demoMk_one g3]
    refine ⟨⟨?_, ?_, .inl ?_⟩, step_cond g2 g3 g4, ?_, fun c b r k1 k2 => ?_⟩
    · simp [stepLog, hiddenLog, WfF, WfE, scCond, scX, scB, scY]
    · intro v l u h x _
      simp [stepLog, hiddenLog, scX] at h
      rw [h.1]
      exact ⟨trivial, trivial⟩
    · intro g hg
      simp [stepLog, hiddenLog] at hg
      rcases hg with rfl | rfl | rfl
      · exact ⟨trivial, trivial, trivial, trivial⟩
      · exact ⟨trivial, trivial⟩
      · exact ⟨trivial, trivial⟩
    · intro v b h
      simp [stepLog, hiddenLog, scX, scB, scY, callsInForce, enforceCall] at h
      rcases h with ⟨rfl, -⟩ | ⟨rfl, -⟩ | ⟨rfl, -⟩ <;> simp
    · rw [k1] at g5
      obtain ⟨r', k3⟩ := foundBy_some g5
      rw [k3] at k2
      simp only [Run.ok.injEq, Prod.mk.injEq, Option.some.injEq] at k2
      rw [← k2.1]
      exact ⟨hidden_not_stuck, hidden_left⟩
  rw [(hfacts f h4).1] at h5
  simpa only [Rat.cast_one] using h5

end Verif.Props
