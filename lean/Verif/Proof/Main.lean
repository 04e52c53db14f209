import Verif.Proof.Script
import Verif.Props.Options
import Verif.Spec.Main

/-! # The program -/

namespace Verif.Proof.Main
open Verif Verif.Model Verif.Model.Main Verif.Model.Smt2 Verif.Spec Verif.Spec.Main Verif.Proof
open Verif.Proof.Smt2

theorem ext_reverse {cs r : List Char} (h : '.' ∉ r) :
    ((cs ++ '.' :: r).reverse.takeWhile (· ≠ '.')).reverse = r := by
  have : (cs ++ '.' :: r).reverse = r.reverse ++ '.' :: cs.reverse := by simp
  rw [this, List.takeWhile_append_of_pos (by
    intro x hx; simp only [decide_eq_true_eq]; rintro rfl; exact h (by simpa using hx))]
  simp

theorem extension_append {stem e : String} (h : '.' ∉ e.toList) :
    extension (stem ++ "." ++ e) = e := by
  have h1 : (stem ++ "." ++ e).toList = stem.toList ++ '.' :: e.toList := by simp
  unfold extension
  rw [h1, if_pos (by simp), ext_reverse h, String.ofList_toList]

theorem extension_split {name e : String} (he : e ≠ "") (h : extension name = e) :
    ∃ stem : String, name = stem ++ "." ++ e := by
  unfold extension at h
  split at h
  · rename_i hd
    obtain ⟨a, b, h1, h2⟩ : ∃ a b, name.toList = a ++ '.' :: b ∧ '.' ∉ b := by
      obtain ⟨x, y, e, hx⟩ := List.eq_append_cons_of_mem (List.mem_reverse.mpr hd)
      refine ⟨y.reverse, x.reverse, ?_, by simpa using hx⟩
      rw [← List.reverse_reverse name.toList, e]
      simp
    rw [h1, ext_reverse h2] at h
    refine ⟨String.ofList a, ?_⟩
    apply String.toList_injective
    rw [h1, ← h]; simp
  · exact absurd h.symm he

/-! ## Options -/

/-- The options are the ones asked for, after commands. -/
structure Asked (cl : CmdLine) (p : Option ℚ) (f : BoolOpt → Option Bool) (o : Opts) : Prop where
  prec : o.precision.get = (cl.precision <|> p).getD (1 / 1000)
  ptype : o.precision.type = if cl.precision.isSome then .fromCommandLine else
    if p.isSome then .fromFile else .default
  flag : ∀ b, (o.flag b).get = (cl.flag b || (f b).getD false)
  ftype : ∀ b, (o.flag b).type = if cl.flag b then .fromCommandLine else
    if (f b).isSome then .fromFile else .default

theorem asked_extract (cl : CmdLine) : Asked cl none (fun _ => none) cl.extract where
  prec := by
    unfold CmdLine.extract
    cases cl.precision <;> simp [Opts.init, OptionValue.mk', OptionValue.get,
      OptionValue.setFromCommandLine]
  ptype := by
    unfold CmdLine.extract
    cases cl.precision <;> simp [Opts.init, OptionValue.mk', OptionValue.setFromCommandLine]
  flag := fun b => by
    unfold CmdLine.extract
    cases h : cl.flag b <;> simp [h, Opts.init, OptionValue.mk', OptionValue.get,
      OptionValue.setFromCommandLine]
  ftype := fun b => by
    unfold CmdLine.extract
    cases h : cl.flag b <;> simp [h, Opts.init, OptionValue.mk', OptionValue.setFromCommandLine]

theorem asked_setNum {cl p f o fmt k v o'} (h : Asked cl p f o)
    (hs : o.setNum fmt k v = (o', false)) :
    Asked cl (if k = ":precision" then some v else p) f o' := by
  unfold Opts.setNum at hs
  simp only at hs
  split at hs
  · rename_i hk
    split at hs
    · simp at hs
    · simp only [Prod.mk.injEq, and_true] at hs
      subst hs
      rw [if_pos hk]
      obtain ⟨h1, h2, h3, h4⟩ := h
      refine ⟨?_, ?_, h3, h4⟩
      · simp only [Opts.store]
        unfold OptionValue.setFromFile
        rw [h2]
        cases hc : cl.precision <;> cases p <;> simp_all [OptionValue.get]
      · simp only [Opts.store]
        unfold OptionValue.setFromFile
        rw [h2]
        cases hc : cl.precision <;> cases p <;> simp_all
  · rename_i hk
    simp only [Prod.mk.injEq, and_true] at hs
    subst hs
    rw [if_neg hk]
    exact ⟨h.prec, h.ptype, h.flag, h.ftype⟩

theorem asked_setStr {cl p f o k v o'} (h : Asked cl p f o)
    (hs : o.setStr k v = (o', false)) :
    Asked cl p (fun b => if named k = some b then some (v == "true") else f b) o' := by
  unfold Opts.setStr at hs
  simp only at hs
  rw [← Props.named_eq] at hs
  obtain ⟨h1, h2, h3, h4⟩ := h
  split at hs
  · rename_i hk
    simp only [Prod.mk.injEq, and_true] at hs
    subst hs
    simp only [hk, reduceCtorEq, if_false]
    exact ⟨h1, h2, h3, h4⟩
  · rename_i c hk
    unfold parseBool at hs
    split at hs
    · simp at hs
    rename_i u hu
    have hu : u = (v == "true") := by
      split at hu
      · rename_i e; simp_all
      · split at hu
        · simp_all
        · cases hu
    simp only [Prod.mk.injEq, and_true] at hs
    subst hs
    simp only [hk, Option.some.injEq]
    refine ⟨h1, h2, fun b => ?_, fun b => ?_⟩
    · by_cases e : b = c
      · subst e
        have g3 := h3 b
        simp only [Opts.store, if_true]
        unfold OptionValue.setFromFile
        rw [h4 b]
        cases hc : cl.flag b <;> cases hf : f b <;> simp_all [OptionValue.get]
      · simp only [Opts.store, if_neg e, if_neg (Ne.symm e)]
        exact h3 b
    · by_cases e : b = c
      · subst e
        have g4 := h4 b
        simp only [Opts.store, if_true]
        unfold OptionValue.setFromFile
        rw [g4]
        cases hc : cl.flag b <;> cases hf : f b <;> simp_all
      · simp only [Opts.store, if_neg e, if_neg (Ne.symm e)]
        exact h4 b

/-! ## The log grows -/

theorem bindLoop_grows {use} : ∀ (l : List (String × Term)) (d : Drv),
    d.log.length ≤ (bindLoop use l d).log.length
  | [], _ => le_rfl
  | (n, .fml f) :: l, d => by
    simp only [bindLoop]
    refine le_trans ?_ (bindLoop_grows l _)
    simp [Drv.declareLocal, Drv.register, Drv.call]
  | (n, .expr f) :: l, d => by
    simp only [bindLoop]
    refine le_trans ?_ (bindLoop_grows l _)
    simp [Drv.declareLocal, Drv.register, Drv.call]

theorem registerAll_grows : ∀ (bs : List SBind) (d : Drv),
    d.log.length ≤ (registerAll bs d).2.log.length
  | [], _ => le_rfl
  | b :: bs, d => by
    simp only [registerAll]
    refine le_trans ?_ (registerAll_grows bs _)
    simp [Drv.register]

theorem declareParams_grows {use} : ∀ (ps : List (String × Srt)) (d : Drv),
    d.log.length ≤ (declareParams use ps d).2.log.length
  | [], _ => le_rfl
  | (n, s) :: ps, d => by
    simp only [declareParams]
    refine le_trans ?_ (declareParams_grows ps _)
    simp [Drv.declareLocal, Drv.register, Drv.call]

theorem popScope_grows {d d' : Drv} (h : d.popScope = .ok d') : d'.log = d.log := (popScope_log h).1

mutual
theorem tr_grows {use} : ∀ (t : STerm) {d : Drv} {x d'}, tr use t d = .ok (x, d') →
    d.log.length ≤ d'.log.length
  | .tru, d, x, d', h | .fls, d, x, d', h | .num _, d, x, d', h | .dec _, d, x, d', h => by
    simp only [tr, Outcome.ok.injEq, Prod.mk.injEq] at h
    rw [h.2]
  | .sym n, d, x, d', h => by
    simp only [tr] at h
    obtain ⟨v, -, h⟩ := bindO_ok h
    split at h <;> simp only [Outcome.ok.injEq, Prod.mk.injEq] at h <;> rw [h.2]
  | .eq a b, d, x, d', h => by
    simp only [tr] at h
    obtain ⟨⟨y, d1⟩, h1, h⟩ := bindO_ok h
    obtain ⟨⟨z, d2⟩, h2, h⟩ := bindO_ok h
    obtain ⟨t, -, h⟩ := bindO_ok h
    simp only [Outcome.ok.injEq, Prod.mk.injEq] at h
    rw [← h.2]; exact (tr_grows a h1).trans (tr_grows b h2)
  | .rel o a b, d, x, d', h => by
    simp only [tr] at h
    obtain ⟨⟨y, d1⟩, h1, h⟩ := bindO_ok h
    obtain ⟨⟨z, d2⟩, h2, h⟩ := bindO_ok h
    obtain ⟨t, -, h⟩ := bindO_ok h
    obtain ⟨t, -, h⟩ := bindO_ok h
    simp only [Outcome.ok.injEq, Prod.mk.injEq] at h
    rw [← h.2]; exact (tr_grows a h1).trans (tr_grows b h2)
  | .and ts, d, x, d', h | .or ts, d, x, d', h | .xor ts, d, x, d', h => by
    simp only [tr] at h
    obtain ⟨⟨y, d1⟩, h1, h⟩ := bindO_ok h
    obtain ⟨t, -, h⟩ := bindO_ok h
    simp only [Outcome.ok.injEq, Prod.mk.injEq] at h
    rw [← h.2]; exact trs_grows ts h1
  | .not t, d, x, d', h | .neg t, d, x, d', h | .fn1 _ t, d, x, d', h => by
    simp only [tr] at h
    obtain ⟨⟨y, d1⟩, h1, h⟩ := bindO_ok h
    obtain ⟨f, -, h⟩ := bindO_ok h
    simp only [Outcome.ok.injEq, Prod.mk.injEq] at h
    rw [← h.2]; exact tr_grows t h1
  | .imp a b, d, x, d', h | .fn2 _ a b, d, x, d', h => by
    simp only [tr] at h
    obtain ⟨⟨y, d1⟩, h1, h⟩ := bindO_ok h
    obtain ⟨⟨z, d2⟩, h2, h⟩ := bindO_ok h
    obtain ⟨t, -, h⟩ := bindO_ok h
    obtain ⟨t, -, h⟩ := bindO_ok h
    simp only [Outcome.ok.injEq, Prod.mk.injEq] at h
    rw [← h.2]; exact (tr_grows a h1).trans (tr_grows b h2)
  | .ite c a b, d, x, d', h => by
    simp only [tr] at h
    obtain ⟨⟨w, d0⟩, h0, h⟩ := bindO_ok h
    obtain ⟨⟨y, d1⟩, h1, h⟩ := bindO_ok h
    obtain ⟨⟨z, d2⟩, h2, h⟩ := bindO_ok h
    obtain ⟨t, -, h⟩ := bindO_ok h
    obtain ⟨t, -, h⟩ := bindO_ok h
    simp only [Outcome.ok.injEq, Prod.mk.injEq] at h
    rw [← h.2]; exact ((tr_grows c h0).trans (tr_grows a h1)).trans (tr_grows b h2)
  | .all bs body, d, x, d', h => by
    simp only [tr] at h
    obtain ⟨dom, -, h⟩ := bindO_ok h
    obtain ⟨⟨y, d1⟩, h1, h⟩ := bindO_ok h
    obtain ⟨d2, h2, h⟩ := bindO_ok h
    obtain ⟨f, -, h⟩ := bindO_ok h
    simp only [Outcome.ok.injEq, Prod.mk.injEq] at h
    rw [← h.2, popScope_grows h2]
    exact (registerAll_grows bs d.pushScope).trans (tr_grows body h1)
  | .let_ ns ts body, d, x, d', h => by
    simp only [tr] at h
    obtain ⟨⟨xs, d0⟩, h0, h⟩ := bindO_ok h
    obtain ⟨⟨y, d1⟩, h1, h⟩ := bindO_ok h
    obtain ⟨d2, h2, h⟩ := bindO_ok h
    simp only [Outcome.ok.injEq, Prod.mk.injEq] at h
    rw [← h.2, popScope_grows h2]
    have h3 := trs_grows ts h0
    exact (h3.trans (bindLoop_grows _ d0)).trans (tr_grows body h1)
  | .add t ts, d, x, d', h | .sub t ts, d, x, d', h | .mul t ts, d, x, d', h
  | .div t ts, d, x, d', h => by
    simp only [tr] at h
    obtain ⟨⟨y, d1⟩, h1, h⟩ := bindO_ok h
    obtain ⟨⟨z, d2⟩, h2, h⟩ := bindO_ok h
    obtain ⟨r, -, h⟩ := bindO_ok h
    simp only [Outcome.ok.injEq, Prod.mk.injEq] at h
    rw [← h.2]; exact (tr_grows t h1).trans (trs_grows ts h2)
  | .call n ts, d, x, d', h => by
    simp only [tr] at h
    obtain ⟨⟨y, d1⟩, h1, h⟩ := bindO_ok h
    split at h
    · cases h
    · obtain ⟨r, -, h⟩ := bindO_ok h
      simp only [Outcome.ok.injEq, Prod.mk.injEq] at h
      rw [← h.2]; exact trs_grows ts h1
theorem trs_grows {use} : ∀ (ts : List STerm) {d : Drv} {xs d'}, trs use ts d = .ok (xs, d') →
    d.log.length ≤ d'.log.length
  | [], d, x, d', h => by
    simp only [trs, Outcome.ok.injEq, Prod.mk.injEq] at h
    rw [h.2]
  | t :: ts, d, x, d', h => by
    simp only [trs] at h
    obtain ⟨⟨y, d1⟩, h1, h⟩ := bindO_ok h
    obtain ⟨⟨z, d2⟩, h2, h⟩ := bindO_ok h
    simp only [Outcome.ok.injEq, Prod.mk.injEq] at h
    rw [← h.2]; exact (tr_grows t h1).trans (trs_grows ts h2)
end

theorem declare_grows {use} (d : Drv) (n s) :
    d.log.length ≤ (d.declare use n s).2.log.length := by
  simp [Drv.declare, Drv.register, Drv.call]

theorem step_grows {use d c d'} (h : step use d c = .ok d') : d.log.length ≤ d'.log.length := by
  cases c with
  | declare n s dom =>
    cases dom with
    | none =>
      simp only [step, Outcome.ok.injEq] at h
      rw [← h]; exact declare_grows d n s
    | some iv =>
      simp only [step, Outcome.ok.injEq] at h
      rw [← h]
      refine (declare_grows (use := use) d n s).trans ?_
      simp [Drv.call]
  | define n ps ret body =>
    simp only [step] at h
    obtain ⟨⟨x, d1⟩, h1, h⟩ := bindO_ok h
    obtain ⟨d2, h2, h⟩ := bindO_ok h
    have h0 : d.log.length ≤ d2.log.length := by
      rw [popScope_grows h2]
      exact (declareParams_grows ps d.pushScope).trans (tr_grows body h1)
    split at h
    · obtain ⟨f, -, h⟩ := bindO_ok h
      simp only [Outcome.ok.injEq] at h
      rw [← h]
      refine (h0.trans (declare_grows (use := use) d2 n ret)).trans ?_
      simp [Drv.call]
    · simp only [Outcome.ok.injEq] at h
      rw [← h]; exact h0
  | assert t =>
    simp only [step] at h
    obtain ⟨⟨x, d1⟩, h1, h⟩ := bindO_ok h
    obtain ⟨f, -, h⟩ := bindO_ok h
    simp only [Outcome.ok.injEq] at h
    rw [← h]
    refine (tr_grows t h1).trans ?_
    simp [Drv.call]
  | check =>
    simp only [step, Outcome.ok.injEq] at h
    rw [← h]; simp [Drv.call]
  | push n =>
    simp only [step] at h
    split_ifs at h
    simp only [Outcome.ok.injEq] at h
    rw [← h]; exact (calls_prefix _ d).length_le
  | pop n =>
    simp only [step] at h
    split_ifs at h
    simp only [Outcome.ok.injEq] at h
    rw [← h]; exact (calls_prefix _ d).length_le

/-! ## Files -/

/-- The options now. -/
def FState.now (st : FState) : Opts := st.sched st.drv.log.length

/-- They are scheduled for all later calls. -/
def Steady (st : FState) : Prop := ∀ i, st.drv.log.length ≤ i → st.sched i = FState.now st

theorem set_ok {st st' : FState} {r} (h : st.set r = .ok st') : r.2 = false ∧ st'.drv = st.drv ∧
    FState.now st' = r.1 ∧ Steady st' ∧ ∀ i < st.drv.log.length, st'.sched i = st.sched i := by
  unfold FState.set at h
  split at h
  · cases h
  · rename_i hr
    simp only [Outcome.ok.injEq] at h
    subst h
    refine ⟨by simpa using hr, rfl, by simp [FState.now], fun i hi => ?_, fun i hi => by simp [hi]⟩
    have hi : st.drv.log.length ≤ i := hi
    simp [FState.now, Nat.not_lt.mpr hi]

theorem runF_append {fmt mk} : ∀ (cs ds : List FCmd) {st st' : FState}, FCmd.exit ∉ cs →
    runF fmt mk (cs ++ ds) st = .ok st' →
    ∃ st1, runF fmt mk cs st = .ok st1 ∧ runF fmt mk ds st1 = .ok st'
  | [], ds, st, st', _, h => ⟨st, rfl, h⟩
  | c :: cs, ds, st, st', he, h => by
    simp only [List.mem_cons, not_or] at he
    cases c with
    | exit => exact absurd rfl he.1
    | setNum k v =>
      simp only [List.cons_append, runF] at h ⊢
      obtain ⟨s1, h1, h⟩ := bindO_ok h
      rw [h1]
      exact runF_append cs ds he.2 h
    | setStr k v =>
      simp only [List.cons_append, runF] at h ⊢
      obtain ⟨s1, h1, h⟩ := bindO_ok h
      rw [h1]
      exact runF_append cs ds he.2 h
    | core c =>
      simp only [List.cons_append, runF] at h ⊢
      obtain ⟨s1, h1, h⟩ := bindO_ok h
      rw [h1]
      exact runF_append cs ds he.2 h

theorem runF_asked {fmt mk cl} : ∀ (cs : List FCmd) {st st' : FState} {p f},
    runF fmt mk cs st = .ok st' → Asked cl p f (FState.now st) → Steady st →
    Asked cl (lastPrecision cs <|> p) (fun b => lastFlag b cs <|> f b) (FState.now st') ∧ Steady st'
  | [], st, st', p, f, h, ha, hs => by
    simp only [runF, Outcome.ok.injEq] at h
    subst h
    exact ⟨by simpa [lastPrecision, lastFlag] using ha, hs⟩
  | .exit :: cs, st, st', p, f, h, ha, hs => by
    simp only [runF, Outcome.ok.injEq] at h
    subst h
    exact ⟨by simpa [lastPrecision, lastFlag] using ha, hs⟩
  | .setNum k v :: cs, st, st', p, f, h, ha, hs => by
    simp only [runF] at h
    obtain ⟨s1, h1, h⟩ := bindO_ok h
    obtain ⟨e1, -, e2, e3, -⟩ := set_ok h1
    have h2 : (FState.now st).setNum fmt k v = ((FState.now s1), false) := by
      rw [e2, ← e1]; rfl
    obtain ⟨g1, g2⟩ := runF_asked cs h (asked_setNum ha h2) e3
    refine ⟨?_, g2⟩
    have e : (lastPrecision (.setNum k v :: cs) <|> p) =
        (lastPrecision cs <|> if k = ":precision" then some v else p) := by
      simp only [lastPrecision]
      cases lastPrecision cs <;> simp
      split <;> simp
    rw [e]
    exact g1
  | .setStr k v :: cs, st, st', p, f, h, ha, hs => by
    simp only [runF] at h
    obtain ⟨s1, h1, h⟩ := bindO_ok h
    obtain ⟨e1, -, e2, e3, -⟩ := set_ok h1
    have h2 : (FState.now st).setStr k v = ((FState.now s1), false) := by
      rw [e2, ← e1]; rfl
    obtain ⟨g1, g2⟩ := runF_asked cs h (asked_setStr ha h2) e3
    refine ⟨?_, g2⟩
    have e : (fun b => lastFlag b (.setStr k v :: cs) <|> f b) =
        (fun b => lastFlag b cs <|> if Spec.named k = some b then some (v == "true") else f b) := by
      funext b
      simp only [lastFlag]
      cases lastFlag b cs <;> simp
      split <;> simp
    rw [e]
    exact g1
  | .core c :: cs, st, st', p, f, h, ha, hs => by
    simp only [runF] at h
    obtain ⟨d, h1, h⟩ := bindO_ok h
    have hl := step_grows h1
    have hn : FState.now { st with drv := d } = FState.now st := hs _ hl
    exact runF_asked cs h (by rw [hn]; exact ha) (fun i hi => by
      rw [hn]; exact hs i (hl.trans hi))

theorem runAt_snoc {mk sched} : ∀ (l : List Cmd) (i : Nat) {c cmd r},
    runAt mk sched i c (l ++ [cmd]) = .ok r →
    ∃ q a, runAt mk sched i c l = .ok q ∧ stepCmd (mk (sched (i + l.length))) q.2 cmd = .ok a ∧
      r = (q.1 ++ a.1.map (smt2Line (sched (i + l.length))), a.2)
  | [], i, c, cmd, r, h => by
    simp only [List.nil_append, runAt] at h
    obtain ⟨a, h1, h⟩ := bindR_ok h
    simp only [Run.bind_ok, List.append_nil, Run.ok.injEq] at h
    exact ⟨([], c), a, rfl, h1, by simpa using h.symm⟩
  | x :: l, i, c, cmd, r, h => by
    simp only [List.cons_append, runAt] at h
    obtain ⟨a, h1, h⟩ := bindR_ok h
    obtain ⟨q, h2, h⟩ := bindR_ok h
    simp only [Run.ok.injEq] at h
    obtain ⟨q1, b, g1, g2, g3⟩ := runAt_snoc l (i + 1) h2
    have e : i + 1 + l.length = i + (x :: l).length := by simp; omega
    rw [e] at g2 g3
    refine ⟨(a.1.map (smt2Line (sched i)) ++ q1.1, q1.2), b, ?_, g2, ?_⟩
    · simp only [runAt, h1, Run.bind_ok, g1]
    · rw [← h, g3]; simp

/-- A file that ends with a check. -/
theorem answers_check {fmt mk cl} {cs : List FCmd} {ls} (he : FCmd.exit ∉ cs)
    (h : answers fmt mk cl.extract (cs ++ [.core .check]) = .ok ls) :
    ∃ ls' r c c' o, ls = ls' ++ [smt2Line o r] ∧ checkSat (mk o) c = .ok (r, c') ∧
      Asked cl (lastPrecision cs) (fun b => lastFlag b cs) o := by
  unfold answers at h
  obtain ⟨st, h1, h⟩ := bindR_ok h
  obtain ⟨r, h2, h⟩ := bindR_ok h
  have hls : r.1 = ls := by simpa only [Run.ok.injEq] using h
  clear h
  obtain ⟨s1, h3, h4⟩ := runF_append cs _ he (lift_ok h1)
  simp only [runF, step, Outcome.bind_ok, Outcome.ok.injEq] at h4
  subst h4
  obtain ⟨g1, g2⟩ := runF_asked cs h3 (asked_extract cl) (fun i _ => rfl)
  obtain ⟨q, a, e1, e2, e3⟩ := runAt_snoc s1.drv.log 0 h2
  rw [Nat.zero_add] at e2 e3
  simp only [stepCmd] at e2
  obtain ⟨x, e4, e2⟩ := bindR_ok e2
  simp only [Run.ok.injEq] at e2
  refine ⟨q.1, x.1, q.2, x.2, FState.now s1, ?_, e4, by simpa using g1⟩
  rw [← hls, e3, ← e2]
  rfl

/-! ## Options that do not change -/

theorem runAt_const {mk o} : ∀ (l : List Cmd) (i : Nat) (c : Ctx),
    runAt mk (fun _ => o) i c l = Run.bind (runCmds (mk o) c l)
      (fun r => .ok (r.1.map (smt2Line o), r.2))
  | [], _, _ => rfl
  | x :: l, i, c => by
    simp only [runAt, runCmds]
    show Run.bind _ _ = Run.bind (Run.bind _ _) _
    cases stepCmd (mk o) c x with
    | ok r =>
      simp only [Run.bind]
      show Run.bind _ _ = Run.bind (Run.bind _ _) _
      rw [runAt_const l (i + 1) r.2]
      cases runCmds (mk o) r.2 l <;> simp [Run.bind]
    | throw => rfl
    | ub => rfl
    | oof => rfl

theorem idsAt_const {mk o} : idsAt mk (fun _ => o) = idsTaken (mk o) := by
  have h : ∀ l, nextAt mk (fun _ => o) l = nextAfter (mk o) l := by
    intro l
    unfold nextAt nextAfter
    rw [runAt_const]
    cases runCmds (mk o) (Ctx.init 0) l <;> simp [Run.bind]
  funext l
  unfold idsAt idsTaken
  rw [h, h]

theorem runF_core {fmt mk} : ∀ (s : List SCmd) {st st' : FState},
    runF fmt mk (s.map .core) st = .ok st' →
    run (idsAt mk st.sched) s st.drv = .ok st'.drv ∧ st'.sched = st.sched
  | [], st, st', h => by
    simp only [List.map_nil, runF, Outcome.ok.injEq] at h
    subst h
    exact ⟨rfl, rfl⟩
  | c :: s, st, st', h => by
    simp only [List.map_cons, runF] at h
    obtain ⟨d, h1, h⟩ := bindO_ok h
    obtain ⟨h2, h3⟩ := runF_core s h
    exact ⟨by simp only [run, h1, Outcome.bind_ok]; exact h2, h3⟩

theorem runF_settings {fmt mk} : ∀ (cs : List FCmd) {o : Opts} {st' : FState},
    (∀ c ∈ cs, IsSetting c) → runF fmt mk cs { sched := fun _ => o } = .ok st' →
    ∃ o', st' = { sched := fun _ => o' }
  | [], o, st', _, h => ⟨o, by simpa only [runF, Outcome.ok.injEq, eq_comm] using h⟩
  | .exit :: cs, o, st', hc, h => (hc .exit (by simp)).elim
  | .core c :: cs, o, st', hc, h => (hc (.core c) (by simp)).elim
  | .setNum k v :: cs, o, st', hc, h => by
    simp only [runF] at h
    obtain ⟨s1, h1, h⟩ := bindO_ok h
    unfold FState.set at h1
    split at h1
    · cases h1
    · simp only [Outcome.ok.injEq] at h1
      subst h1
      exact runF_settings cs (fun c h => hc c (by simp [h])) h
  | .setStr k v :: cs, o, st', hc, h => by
    simp only [runF] at h
    obtain ⟨s1, h1, h⟩ := bindO_ok h
    unfold FState.set at h1
    split at h1
    · cases h1
    · simp only [Outcome.ok.injEq] at h1
      subst h1
      exact runF_settings cs (fun c h => hc c (by simp [h])) h

/-- A file whose settings are at its beginning. -/
theorem answers_script {fmt mk cl} {cs : List FCmd} {s ls} (hs : ∀ c ∈ cs, IsSetting c)
    (h : answers fmt mk cl.extract (cs ++ s.map .core) = .ok ls) :
    ∃ o as, Asked cl (lastPrecision cs) (fun b => lastFlag b cs) o ∧
      solve (mk o) s = .ok as ∧ ls = as.map (smt2Line o) := by
  unfold answers at h
  obtain ⟨st, h1, h⟩ := bindR_ok h
  obtain ⟨r, h2, h⟩ := bindR_ok h
  have hls : r.1 = ls := by simpa only [Run.ok.injEq] using h
  clear h
  have he : FCmd.exit ∉ cs := fun h => hs _ h
  obtain ⟨s1, h3, h4⟩ := runF_append cs _ he (lift_ok h1)
  obtain ⟨g1, -⟩ := runF_asked cs h3 (asked_extract cl) (fun i _ => rfl)
  obtain ⟨o, rfl⟩ := runF_settings cs hs h3
  obtain ⟨h5, h6⟩ := runF_core s h4
  simp only [idsAt_const] at h5
  rw [h6, runAt_const] at h2
  obtain ⟨q, h7, h8⟩ := bindR_ok h2
  simp only [Run.ok.injEq] at h8
  refine ⟨o, q.1, by simpa [FState.now] using g1, ?_, by rw [← hls, ← h8]⟩
  unfold solve
  rw [h5]
  show Run.bind (runCmds (mk o) (Ctx.init 0) st.drv.log) _ = _
  rw [h7]
  rfl

end Verif.Proof.Main
