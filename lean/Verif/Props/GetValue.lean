import Verif.Proof.GetValue
import Verif.Props.Script

/-!
# C58: the values printed by `get-value`
-/

namespace Verif.Props
open Verif Verif.Model Verif.Model.Smt2 Verif.Model.Prefix Verif.Spec Verif.Spec.Smt2 Verif.Proof
  Verif.Proof.Smt2

theorem checkSat_model {cfg c m c'} (h : checkSat cfg c = .ok (some m, c')) : c'.model = m := by
  unfold checkSat at h
  obtain ⟨r, -, h⟩ := bindR_ok h
  split at h
  · obtain ⟨t, -, h⟩ := bindR_ok h
    obtain ⟨m', -, h⟩ := bindR_ok h
    simp only [Run.ok.injEq, Prod.mk.injEq, Option.some.injEq] at h
    rw [← h.2, ← h.1]
  · simp at h

/-- What is known of `get-value` right after a delta-sat answer. -/
theorem values_facts {D : Dom} {I : Interp} {cfg : CCfg} (he : EnvOk D I cfg.env) {s : List SCmd}
    {d : Drv} {as : List (Option Box)} {m : Box} (hr : run (idsTaken cfg) s {} = .ok d)
    (ht : TidyScript s) (hc : Covered d.log)
    (hg : ∀ v, .declare v true ∈ d.log → .declare v true ∈ callsInForce d.log)
    (h : solve cfg (s ++ [.check]) = .ok (as ++ [some m])) {ts : List STerm}
    (hl : LetFrees ts) (htm : Tames ts) (hn : InScope s ts) {ws : List (List Word)}
    (hm : m.bot = false) (hw : getValues cfg (s ++ [.check]) ts = .ok ws) :
    ∃ xs d', trs (idsTaken cfg) ts (d.call (idsTaken cfg) .check) = .ok (xs, d') ∧
      valuesWords cfg.env.ops m xs = .ok ws ∧ (∀ x ∈ xs, ∀ v ∈ x.fv, v ∈ m.vars) ∧
      ∀ ρ, xs.map (valT I ρ) =
        ts.map (valueAfter I (inForce s) ((modelVars (callsInForce d.log)).map ρ)) := by
  have hv := (C54_model_partial D I cfg he s d as m hr ht hc hg h).2
  obtain ⟨c, c', k, u, e1, e2, -, -⟩ := script_facts hr ht hc h
  unfold getValues at hw
  obtain ⟨d1, h1, hw1⟩ := bindR_ok hw
  obtain ⟨⟨xs, d2⟩, h2, hw2⟩ := bindR_ok hw1
  obtain ⟨⟨bs, c2⟩, h3, hw3⟩ := bindR_ok hw2
  obtain ⟨d0, g1, g2⟩ := run_append (lift_ok h1)
  rw [hr] at g1
  simp only [Outcome.ok.injEq] at g1
  subst g1
  simp only [run, step, Outcome.bind_ok, Outcome.ok.injEq] at g2
  subst g2
  have h2 := lift_ok h2
  have hw := lift_ok hw3
  obtain ⟨f, fs, k1, k2, k3, -⟩ := nest_run s (rest := ts.map .assert) nest_init hn ht.1 hr
  have hD := nests_asserts k3
  have tied := k1.tied.call (use := idsTaken cfg) .check
  obtain ⟨g', e3, t3⟩ := trs_sim ts tied htm
    (fun n hm => by
      obtain ⟨t, h1, h2⟩ := mem_freeNamess hm
      exact (hD t h1).1 n h2)
    (fun n hm => by
      obtain ⟨t, h1, h2⟩ := mem_callNamess hm
      exact uses_calls (hD t h1) n h2) h2
  obtain ⟨B, hi⟩ := k1.ok.inv
  obtain ⟨new, p⟩ := trs_post ts (hi.call (use := idsTaken cfg) .check) e3
  obtain ⟨p1, p2⟩ := p.pure hl htm
  have hf : callsInForce d.log = f.l := by rw [callsInForce, k1.log]
  have hs : inForce s = f.s := by
    rw [inForce]
    exact congrArg Prod.fst k2
  refine ⟨xs, d2, h2, ?_, fun x hx v hv' => ?_, fun ρ => ?_⟩
  · have hlog : d2.log = d.log ++ [.check] ++ new := by
      rw [← t3.log, p.log]
      show f.g.log ++ [Cmd.check] ++ new = _
      rw [k1.tied.log]
    simp only [hlog] at h3
    obtain ⟨q1, q2, j1, j2, j3⟩ := runCmds_append h3
    obtain ⟨as1, c1, a, j4, j5, -⟩ := runCmds_snoc (as := q1.1) (c2 := q1.2) j1
    rw [e1] at j4
    simp only [Run.ok.injEq, Prod.mk.injEq] at j4
    obtain ⟨rfl, rfl⟩ := j4
    simp only [stepCmd, e2, Run.bind_ok, Run.ok.injEq, Prod.mk.injEq] at j5
    have e4 := runCmds_newVars (as := q2.1) (c' := q2.2) p1 j2
    have e5 : c2 = q2.2 := congrArg Prod.snd j3
    have e6 := checkSat_model e2
    have : modelBox cfg c2 = m := by
      unfold modelBox
      rw [e5, e4, ← j5.2, e6, hm]
      rfl
    simpa [this] using hw
  · rw [hv, mem_modelVars, hf]
    exact k1.ok.glob v (p2 x hx v hv')
  · obtain ⟨E, F, mt, k⟩ := k1.ok.means.env I ρ
    have := p.sem htm I ρ E F (mt.call _) fun c hc => by
      obtain ⟨t, rfl⟩ := p1 c hc
      trivial
    rw [this, dens_eq_map, hf, hs]
    refine List.map_congr_left fun t _ => ?_
    have k0 := k [] []
    simp only [List.append_nil] at k0
    simp only [valueAfter, k0, namesOf]

/-- C58 for numbers: `get-value` right after a delta-sat answer prints for every term bounds, as
numbers of SMT-LIB, between which the value of the term lies at every point of the model at which
it is defined.  Missing: `let` (`C58_let`), names declared after the check (`C58_stale`), terms with
if-then-else or without bounds and a missing model, where nothing is printed (`C58_throws`,
`C58_no_value`). -/
theorem C58_numbers_partial (D : Dom) (I : Interp) (cfg : CCfg) (he : EnvOk D I cfg.env)
    (ho : IOpsOk D I cfg.env.ops) (s : List SCmd) (d : Drv) (as : List (Option Box)) (m : Box)
    (hr : run (idsTaken cfg) s {} = .ok d) (ht : TidyScript s) (hc : Covered d.log)
    (hg : ∀ v, .declare v true ∈ d.log → .declare v true ∈ callsInForce d.log)
    (h : solve cfg (s ++ [.check]) = .ok (as ++ [some m])) (ts : List STerm) (hl : LetFrees ts)
    (htm : Tames ts) (hn : InScope s ts) (ws : List (List Word))
    (hw : getValues cfg (s ++ [.check]) ts = .ok ws) (ρ : Valuation) (hρ : InBox ρ m)
    (hd : ∀ xs d', trs (idsTaken cfg) ts (d.call (idsTaken cfg) .check) = .ok (xs, d') →
      ∀ e, .expr e ∈ xs → RcOkE e ∧ DefE D I ρ e) :
    ws.length = ts.length ∧ ∀ t w, (t, w) ∈ ts.zip ws → ∀ x,
      valueAfter I (inForce s) ((modelVars (callsInForce d.log)).map ρ) t = .num x →
      Shows w (.num x) := by
  obtain ⟨xs, d', h1, h2, h3, h4⟩ := values_facts he hr ht hc hg h hl htm hn hρ.1 hw
  have h5 := valuesWords_get h2
  have hlen : xs.length = ts.length := by simpa using congrArg List.length (h4 ρ)
  refine ⟨by rw [← h5.length_eq, hlen], fun t w htw x hx => ?_⟩
  obtain ⟨i, hi, e⟩ := List.mem_iff_getElem.mp htw
  simp only [List.length_zip, lt_min_iff] at hi
  simp only [List.getElem_zip, Prod.mk.injEq] at e
  have hx' : valT I ρ (xs[i]'(by omega)) = .num x := by
    have := congrArg (fun l => l[i]?) (h4 ρ)
    simp only [List.getElem?_map, List.getElem?_eq_getElem hi.1,
      List.getElem?_eq_getElem (show i < xs.length by omega), Option.map_some, Option.some.injEq] at this
    rw [this, e.1, hx]
  have hw' : valueWords cfg.env.ops m (xs[i]'(by omega)) = .ok w := by
    have := h5.get (i := i) (by omega) hi.2
    simp only [List.get_eq_getElem, e.2] at this
    exact this
  have hmem : (xs[i]'(by omega)) ∈ xs := List.getElem_mem _
  generalize xs[i]'(by omega) = y at hx' hw' hmem
  cases y with
  | fml f => simp [valT] at hx'
  | expr e =>
    simp only [valT, SVal.num.injEq] at hx'
    simp only [valueWords] at hw'
    obtain ⟨iv, k1, k2⟩ := bindO_ok hw'
    obtain ⟨r1, r2⟩ := hd xs d' h1 e hmem
    have := evalI_encl ho hρ e iv r2 r1 (h3 _ hmem) k1
    obtain ⟨l, u, rfl, k3⟩ := readValue_itv k2
    exact ⟨l, u, k3, by rw [← hx']; exact this.1, by rw [← hx']; exact this.2⟩

theorem itv_pick {iv : Itv} {r : ℝ} (hr : InItv r iv) :
    ∃ x, InItv x iv ∧ (x = 1 ↔ iv = Itv.point 1) := by
  by_cases h1 : iv = Itv.point 1
  · exact ⟨1, by subst h1; simp [InItv, Itv.point, below, above], by simp [h1]⟩
  by_cases h2 : r = 1
  · subst h2
    obtain ⟨a, b⟩ := iv
    obtain ⟨k1, k2⟩ := hr
    simp only at k1 k2
    suffices ∃ x, InItv x ⟨a, b⟩ ∧ x ≠ 1 by
      obtain ⟨x, j1, j2⟩ := this
      exact ⟨x, j1, by simp [j2, h1]⟩
    by_cases ha : a = .fin 1
    · cases b with
      | ninf => simp [above] at k2
      | pinf => exact ⟨2, by simp [InItv, ha, below, above], by norm_num⟩
      | fin q =>
        refine ⟨q, ⟨?_, le_refl (q : ℝ)⟩, fun e => h1 ?_⟩
        · simpa [ha, below, above] using k2
        · have : q = 1 := by exact_mod_cast e
          rw [ha, this]; rfl
    · cases a with
      | ninf =>
        refine ⟨0, ⟨trivial, ?_⟩, by norm_num⟩
        cases b <;> simp only [above] at k2 ⊢
        linarith
      | pinf => simp [below] at k1
      | fin q =>
        refine ⟨q, ⟨le_refl (q : ℝ), ?_⟩, fun e => ha ?_⟩
        · cases b <;> simp only [above, below] at k1 k2 ⊢
          linarith
        · have : q = 1 := by exact_mod_cast e
          rw [this]
  · exact ⟨r, hr, by simp [h1, h2]⟩

/-- C58 for truth values: if the model has a point, then it has one at which all truth values printed
are right; by C28 any point of the model will do.  Missing: as for numbers, and formulas other than
names, for which nothing is printed (`C58_throws`). -/
theorem C58_truth_partial (D : Dom) (I : Interp) (cfg : CCfg) (he : EnvOk D I cfg.env)
    (s : List SCmd) (d : Drv) (as : List (Option Box)) (m : Box)
    (hr : run (idsTaken cfg) s {} = .ok d) (ht : TidyScript s) (hc : Covered d.log)
    (hg : ∀ v, .declare v true ∈ d.log → .declare v true ∈ callsInForce d.log)
    (h : solve cfg (s ++ [.check]) = .ok (as ++ [some m])) (ts : List STerm) (hl : LetFrees ts)
    (htm : Tames ts) (hn : InScope s ts) (ws : List (List Word))
    (hw : getValues cfg (s ++ [.check]) ts = .ok ws) (ρ0 : Valuation) (hρ : InBox ρ0 m) :
    ∃ ρ, InBox ρ m ∧ ∀ t w, (t, w) ∈ ts.zip ws → ∀ p,
      valueAfter I (inForce s) ((modelVars (callsInForce d.log)).map ρ) t = .tf p →
      Shows w (.tf p) := by
  obtain ⟨xs, d', h1, h2, h3, h4⟩ := values_facts he hr ht hc hg h hl htm hn hρ.1 hw
  have hnd := (C54_model_partial D I cfg he s d as m hr ht hc hg h).1
  have h5 := valuesWords_get h2
  have pick : ∀ v, ∃ x, v ∈ m.vars → InItv x (m.getV v) ∧ (x = 1 ↔ m.getV v = Itv.point 1) := by
    intro v
    by_cases hv : v ∈ m.vars
    · have := hρ.2 (m.vars.idxOf v) v (by simp [hv])
      obtain ⟨x, hx⟩ := itv_pick this
      exact ⟨x, fun _ => by simpa [Box.getV, Box.index, hv] using hx⟩
    · exact ⟨0, fun h => absurd h hv⟩
  choose ρ hp using pick
  have hb : InBox ρ m := by
    refine ⟨hρ.1, fun i v hi => ?_⟩
    have hv : v ∈ m.vars := List.mem_of_getElem? hi
    have := (hp v hv).1
    obtain ⟨hlt, hi⟩ := List.getElem?_eq_some_iff.mp hi
    have hid : m.vars.idxOf v = i := by rw [← hi]; exact hnd.idxOf_getElem i hlt
    simpa [Box.getV, Box.index, hv, hid] using this
  refine ⟨ρ, hb, fun t w htw p hx => ?_⟩
  have hlen : xs.length = ts.length := by simpa using congrArg List.length (h4 ρ)
  obtain ⟨i, hi, e⟩ := List.mem_iff_getElem.mp htw
  simp only [List.length_zip, lt_min_iff] at hi
  simp only [List.getElem_zip, Prod.mk.injEq] at e
  have hx' : valT I ρ (xs[i]'(by omega)) = .tf p := by
    have := congrArg (fun l => l[i]?) (h4 ρ)
    simp only [List.getElem?_map, List.getElem?_eq_getElem hi.1,
      List.getElem?_eq_getElem (show i < xs.length by omega), Option.map_some, Option.some.injEq] at this
    rw [this, e.1, hx]
  have hw' : valueWords cfg.env.ops m (xs[i]'(by omega)) = .ok w := by
    have := h5.get (i := i) (by omega) hi.2
    simp only [List.get_eq_getElem, e.2] at this
    exact this
  have hmem : (xs[i]'(by omega)) ∈ xs := List.getElem_mem _
  generalize xs[i]'(by omega) = y at hx' hw' hmem
  cases y with
  | expr e => simp [valT] at hx'
  | fml f =>
    cases f with
    | bvar v =>
      have hv : v ∈ m.vars := h3 _ hmem v (by simp [Term.fv, Fml.fv])
      simp only [valT, SVal.tf.injEq, holds] at hx'
      simp only [valueWords, Outcome.ok.injEq] at hw'
      subst hw'
      rw [(hp v hv).2] at hx'
      by_cases hone : m.getV v = Itv.point 1
      · exact .inl ⟨by simp [hone], by rw [← hx']; exact hone⟩
      · exact .inr ⟨by simp [hone], by rw [← hx']; exact hone⟩
    | _ => simp [valueWords] at hw'

/-! ### Concrete cases -/

/-- The values printed, for comparison. -/
def valuesOf (cfg : CCfg) (s : List SCmd) (ts : List STerm) : Option (List (List Word)) :=
  match getValues cfg s ts with
  | .ok ws => some ws
  | _ => none

theorem valuesOf_some {cfg s ts ws} (h : valuesOf cfg s ts = some ws) :
    getValues cfg s ts = .ok ws := by
  unfold valuesOf at h
  split at h
  · rename_i w hw
    rw [hw]; simpa using h
  · cases h

/-- The terms read, for comparison. -/
def termsOf (cfg : CCfg) (s : List SCmd) (ts : List STerm) : Option (List Term) :=
  match run (idsTaken cfg) s {} with
  | .ok d =>
    match trs (idsTaken cfg) ts (d.call (idsTaken cfg) .check) with
    | .ok x => some x.1
    | _ => none
  | _ => none

theorem termsOf_some {cfg s ts l d xs d'} (h : termsOf cfg s ts = some l)
    (hd : run (idsTaken cfg) s {} = .ok d)
    (hx : trs (idsTaken cfg) ts (d.call (idsTaken cfg) .check) = .ok (xs, d')) : xs = l := by
  unfold termsOf at h
  rw [hd] at h
  simp only [hx, Option.some.injEq] at h
  exact h

theorem demoScript2_solved : solve demoCfg (demoScript2 ++ [.check]) = .ok ([] ++ [some scFound]) := by
  have : (match solve demoCfg (demoScript2 ++ [.check]) with | .ok as => some as | _ => none) =
      some [some scFound] := by decide +kernel
  split at this
  · rename_i as hs
    rw [hs]
    simp only [Option.some.injEq] at this
    rw [this]; rfl
  · cases this

/-- `(interval (closed (/ 19 8)) (closed (/ 11 4)))`. -/
def scShown : List Word :=
  [.lp, .txt "interval", .lp, .txt "closed", .lp, .txt "/", .num 19, .num 8, .rp, .rp,
    .lp, .txt "closed", .lp, .txt "/", .num 11, .num 4, .rp, .rp, .rp]

theorem scShown_read : readValue scShown = some (19 / 8, 11 / 4) := by decide +kernel

/-- The hypotheses are met: after the check of `demoScript2`, where `b` is false and
`x ∈ [19/8, 11/4]`, the values of `b`, `x - 3` and `x` are asked for. -/
example (D : Dom) (I : Interp) : EnvOk D I demoCfg.env ∧ IOpsOk D I demoCfg.env.ops ∧
    TidyScript demoScript2 ∧ ∃ d,
      run (idsTaken demoCfg) demoScript2 {} = .ok d ∧ Covered d.log ∧
      (∀ v, .declare v true ∈ d.log → .declare v true ∈ callsInForce d.log) ∧
      solve demoCfg (demoScript2 ++ [.check]) = .ok ([] ++ [some scFound]) ∧
      LetFrees [.sym "b", .sub (.sym "x") [.num 3], .sym "x"] ∧
      Tames [.sym "b", .sub (.sym "x") [.num 3], .sym "x"] ∧
      InScope demoScript2 [.sym "b", .sub (.sym "x") [.num 3], .sym "x"] ∧
      getValues demoCfg (demoScript2 ++ [.check]) [.sym "b", .sub (.sym "x") [.num 3], .sym "x"] = .ok
        [[.txt "false"], [.lp, .txt "interval", .lp, .txt "closed", .lp, .txt "/", .lp, .txt "-",
          .num 5, .rp, .num 8, .rp, .rp, .lp, .txt "closed", .lp, .txt "/", .lp, .txt "-", .num 1,
          .rp, .num 4, .rp, .rp, .rp], scShown] ∧
      InBox (fun v => if v = scX then 19 / 8 else 0) scFound ∧
      ∀ ρ xs d', trs (idsTaken demoCfg) [.sym "b", .sub (.sym "x") [.num 3], .sym "x"]
        (d.call (idsTaken demoCfg) .check) = .ok (xs, d') →
        ∀ e, .expr e ∈ xs → RcOkE e ∧ DefE D I ρ e := by
  obtain ⟨d, hd, hl⟩ := logOf_some (cfg := demoCfg) (s := demoScript2) (l := demoScript2Log)
    (by decide +kernel)
  refine ⟨demoCfg_ok D I, (demoCfg_ok D I).ops, (tidy_of_tame
    (by simp [demoScript2, TameScript, Tame, Tames]) hd).1, d, hd, ?_, ?_, demoScript2_solved, ?_, ?_,
    ?_, ?_, ?_, ?_⟩
  · rw [hl]
    refine ⟨?_, ?_, .inr (by simp [demoScript2Log])⟩
    · simp [demoScript2Log, WfF, WfFs, WfE, scSum, scX, scB]
    · intro v l u h x _
      simp [demoScript2Log, scX] at h
      rw [h.1]
      exact ⟨trivial, trivial⟩
  · rw [hl]
    simp [demoScript2Log, scX, scB, callsInForce, enforceCall]
  · simp [LetFree, LetFrees]
  · simp [Tame, Tames]
  · simp [InScope, demoScript2, Nests, CmdUsesOnly, UsesOnly, Decls.add, Decls.Has, freeNames,
      freeNamess, callNames, callNamess]
  · exact valuesOf_some (by decide +kernel)
  · exact scFound_point
  · intro ρ xs d' h e he
    have := termsOf_some (cfg := demoCfg) (s := demoScript2) (ts := [.sym "b",
      .sub (.sym "x") [.num 3], .sym "x"]) (l := [.fml (.bvar scB), .expr (.sub (.var scX) (.const 3)),
      .expr (.var scX)]) (by rfl) hd h
    subst this
    simp only [List.mem_cons, Term.expr.injEq, reduceCtorEq, List.not_mem_nil, false_or, or_false] at he
    rcases he with rfl | rfl
    · exact ⟨by simp [Expr.sub, RcOkE], by simp [Expr.sub, DefE]⟩
    · exact ⟨by simp [RcOkE], by simp [DefE]⟩

/-- `get-value` of a term with `let` reads a variable that the model does not have: for
`let y = x + 5 in y` it prints the value of `x`. -/
theorem C58_let : getValues demoCfg (demoScript2 ++ [.check])
      [.let_ ["y"] [.add (.sym "x") [.num 5]] (.sym "y")] = .ok [scShown] ∧
    solve demoCfg (demoScript2 ++ [.check]) = .ok [some scFound] ∧
    ∀ I ρ, InBox ρ scFound → ∃ x, valueAfter I demoScript2 ([scX, scB].map ρ)
      (.let_ ["y"] [.add (.sym "x") [.num 5]] (.sym "y")) = .num x ∧ ¬ Shows scShown (.num x) := by
  refine ⟨valuesOf_some (by decide +kernel), demoScript2_solved, fun I ρ hρ => ⟨ρ scX + 5, ?_, ?_⟩⟩
  · simp [valueAfter, namesOf, demoScript2, den, dens, Names.set, Names.sets, toVal, sortType, lift2]
  · rintro ⟨l, u, h1, h2, h3⟩
    rw [scShown_read] at h1
    simp only [Option.some.injEq, Prod.mk.injEq] at h1
    have := (hρ.2 0 scX rfl).1
    simp only [scFound, Box.get, List.getD_cons_zero, below] at this
    rw [← h1.2] at h3
    push_cast at h3 this
    linarith

/-- A name declared after the check gets the value of the first variable of the model: here
`z ∈ [7, 8]` gets that of `x`. -/
theorem C58_stale : getValues demoCfg
      (demoScript2 ++ [.check, .declare "z" .real (some (.fin 7, .fin 8))]) [.sym "z"] = .ok [scShown] ∧
    ∀ x : ℝ, 7 ≤ x → ¬ Shows scShown (.num x) := by
  refine ⟨valuesOf_some (by decide +kernel), ?_⟩
  rintro x hx ⟨l, u, h1, h2, h3⟩
  rw [scShown_read] at h1
  simp only [Option.some.injEq, Prod.mk.injEq] at h1
  rw [← h1.2] at h3
  push_cast at h3
  linarith

/-- How `get-value` ends. -/
def endOf {α : Type} : Run α → String
  | .ok _ => "values"
  | .throw => "exception"
  | .ub => "undefined"
  | .oof => "out of fuel"

/-- `get-value` of a term without bounds, such as `1 / y` at `y ∈ [-1/2, 1/2]`, before any check, or after an unsat answer ends the
program: the bounds are infinite or `NaN`. -/
theorem C58_no_value : endOf (getValues demoCfg [.declare "y" .real none, .check]
      [.div (.num 1) [.sym "y"]]) = "undefined" ∧
    endOf (getValues demoCfg [.declare "y" .real (some (.fin 0, .fin 1))] [.sym "y"]) = "undefined" ∧
    endOf (getValues demoCfg [.declare "y" .real (some (.fin 0, .fin 1)),
      .assert (.rel .ge (.sym "y") (.num 3)), .check] [.sym "y"]) = "undefined" := by
  decide +kernel

/-- `get-value` throws for if-then-else and for formulas that are not names. -/
theorem C58_throws : endOf (getValues demoCfg (demoScript2 ++ [.check])
      [.ite (.sym "b") (.sym "x") (.num 0)]) = "exception" ∧
    endOf (getValues demoCfg (demoScript2 ++ [.check]) [.not (.sym "b")]) = "exception" := by
  decide +kernel

/-- The Boolean part of the model, for comparison. -/
def boolsOf (cfg : CCfg) (s : List SCmd) : Option (Option (List (Variable × List Word))) :=
  match getModelBools cfg s with
  | .ok r => some r
  | _ => none

/-- With a precision of 1 or more a Boolean variable may be left undetermined; `get-model` then
writes a definition without a value, and `get-value` says false. -/
theorem C58_undetermined : demoCfg.env.delta = 1 ∧
    boolsOf demoCfg [.declare "b" .bool none, .check] = some (some [(⟨0, .boolean⟩, [])]) ∧
    valuesOf demoCfg [.declare "b" .bool none, .check] [.sym "b"] = some [[.txt "false"]] := by
  decide +kernel

end Verif.Props
